/-
How many objects a whole history allocates (C91).
-/
import Verif.PropsCostAll
import Verif.PropsCostHit

set_option linter.unusedVariables false
set_option linter.unusedSectionVars false

namespace Spec
open Amt

section
variable {K V : Type} [DecidableEq K]

/-- The most objects that a call may allocate if the keys `ks` are stored: a key that is not stored takes two objects, and one for each level that
is searched for it once it is stored; `Del` takes one; nothing else takes any. -/
def MOp.objects (H : K → Nat → BitVec 64) (ks : List K) : MOp K V → Nat
  | .set k _ => if k ∈ ks then 0 else 2 + levels H (k :: ks) k
  | .mod k _ => if k ∈ ks then 0 else 2 + levels H (k :: ks) k
  | .del _ => 1
  | _ => 0

/-- The sum over a sequence of calls. -/
def objects (H : K → Nat → BitVec 64) : List K → List (MOp K V) → Nat
  | _, [] => 0
  | ks, op :: ops => op.objects H ks + objects H (op.after ks) ops

/-- As `MOp.objects`, for sets. -/
def SOp.objects (H : K → Nat → BitVec 64) (ks : List K) : SOp K → Nat
  | .add k => if k ∈ ks then 0 else 2 + levels H (k :: ks) k
  | .del _ => 1
  | _ => 0

/-- As `objects`, for sets; `inv` as in `elemsAfterX`. -/
noncomputable def objectsX (H : K → Nat → BitVec 64) (inv : Bool) : List K → List (SOp K) → Nat
  | _, [] => 0
  | ks, op :: ops => op.objects H ks + objectsX H inv (op.afterX H inv ks) ops

/-- The calls that insert a new key, and the calls of `Del`. -/
def inserts : List K → List (MOp K V) → Nat
  | _, [] => 0
  | ks, op :: ops => (op.stores.filter fun k => decide (k ∉ ks)).length + inserts (op.after ks) ops

def MOp.isDel : MOp K V → Bool
  | .del _ => true
  | _ => false

def deletes (ops : List (MOp K V)) : Nat := (ops.filter MOp.isDel).length

/-- The calls on a set, as calls on a map. -/
def SOp.asMap : SOp K → MOp K Unit
  | .has k => .get k
  | .add k => .set k ()
  | .del k => .del k
  | .len => .len
  | .dep => .dep
  | .all _ => .all fun _ _ v => (v, true)

theorem SOp.after_asMap (ks : List K) (op : SOp K) : op.asMap.after ks = op.after ks := by cases op <;> rfl

theorem SOp.objects_asMap (H : K → Nat → BitVec 64) (ks : List K) (op : SOp K) : op.asMap.objects H ks = op.objects H ks := by cases op <;> rfl

theorem keysAfter_asMap (ops : List (SOp K)) : ∀ ks, keysAfter ks (ops.map SOp.asMap) = elemsAfter ks ops := by
  induction ops with
  | nil => intro ks; rfl
  | cons op ops ih => intro ks; rw [List.map_cons, keysAfter, List.foldl_cons, SOp.after_asMap]; exact ih _

theorem objectsX_false (H : K → Nat → BitVec 64) (ops : List (SOp K)) : ∀ ks, objectsX H false ks ops = objects H ks (ops.map SOp.asMap) := by
  induction ops with
  | nil => intro ks; rfl
  | cons op ops ih =>
    intro ks
    have : op.afterX H false ks = op.after ks := by cases op <;> rfl
    rw [objectsX, List.map_cons, objects, SOp.objects_asMap, SOp.after_asMap, ih, this]

theorem snoc_induction {α : Type} {p : List α → Prop} (nil : p []) (snoc : ∀ l a, p l → p (l ++ [a])) (l : List α) : p l := by
  have : ∀ l : List α, p l.reverse := fun l => by
    induction l with
    | nil => exact nil
    | cons a l ih => rw [List.reverse_cons]; exact snoc _ _ ih
  rw [← List.reverse_reverse l]
  exact this _

theorem objects_append (H : K → Nat → BitVec 64) (ops : List (MOp K V)) (op : MOp K V) :
    ∀ ks, objects H ks (ops ++ [op]) = objects H ks ops + op.objects H (keysAfter ks ops) := by
  induction ops with
  | nil => intro ks; simp [objects, keysAfter]
  | cons o ops ih => intro ks; simp only [List.cons_append, objects, ih, keysAfter, List.foldl_cons]; omega

theorem objectsX_append (H : K → Nat → BitVec 64) (inv : Bool) (ops : List (SOp K)) (op : SOp K) :
    ∀ ks, objectsX H inv ks (ops ++ [op]) = objectsX H inv ks ops + op.objects H (elemsAfterX H inv ks ops) := by
  induction ops with
  | nil => intro ks; simp [objectsX, elemsAfterX]
  | cons o ops ih => intro ks; simp only [List.cons_append, objectsX, ih, elemsAfterX, List.foldl_cons]; omega

theorem EachNew.split {P : Bool → List K → K → Prop} {ops : List (MOp K V)} {op : MOp K V} :
    ∀ {ks}, EachNew P ks (ops ++ [op]) → EachNew P ks ops ∧ ∀ k ∈ op.stores, k ∉ keysAfter ks ops → P op.isMod (keysAfter ks ops) k := by
  induction ops with
  | nil => intro ks h; exact ⟨trivial, h.1⟩
  | cons o ops ih => intro ks h; exact ⟨⟨h.1, (ih h.2).1⟩, (ih h.2).2⟩

theorem SEachNew.split {H : K → Nat → BitVec 64} {inv : Bool} {P : List K → K → Prop} {ops : List (SOp K)} {op : SOp K} :
    ∀ {ks}, SEachNew H inv P ks (ops ++ [op]) → SEachNew H inv P ks ops ∧ ∀ k ∈ op.stores, k ∉ elemsAfterX H inv ks ops → P (elemsAfterX H inv ks ops) k := by
  induction ops with
  | nil => intro ks h; exact ⟨trivial, h.1⟩
  | cons o ops ih => intro ks h; exact ⟨⟨h.1, (ih h.2).1⟩, (ih h.2).2⟩

end

end Spec

namespace Amt.Go
open Amt Spec

section
variable {K V : Type} [Inhabited V]

/-- The last call of a sequence. -/
theorem MapCode.run_last {C : MapCode K V} {n : Nat} {m : Handle} {ops : List (MOp K V)} {op : MOp K V} :
    ∀ {path : List PathLink} {s s₂ : St K V} {os}, C.run n m path (ops ++ [op]) s = .ok (os, s₂) →
      ∃ os' s₁ path' r, C.run n m path ops s = .ok (os', s₁) ∧ C.exec n m path' op s₁ = .ok (r, s₂) := by
  induction ops with
  | nil =>
    intro path s s₂ os e
    simp only [List.nil_append, MapCode.run] at e
    rw [bind_run] at e
    cases e1 : C.exec n m path op s with
    | error x => rw [e1] at e; cases e
    | ok r => rw [e1] at e; cases e; exact ⟨[], s, path, _, rfl, e1⟩
  | cons o ops ih =>
    intro path s s₂ os e
    simp only [List.cons_append, MapCode.run] at e ⊢
    rw [bind_run] at e
    cases e1 : C.exec n m path o s with
    | error x => rw [e1] at e; cases e
    | ok r =>
      obtain ⟨r, s'⟩ := r
      rw [e1] at e
      dsimp only at e
      rw [bind_run] at e
      cases e2 : C.run n m r.2 (ops ++ [op]) s' with
      | error x => rw [e2] at e; cases e
      | ok r' =>
        obtain ⟨r', s''⟩ := r'
        rw [e2] at e
        cases e
        obtain ⟨os', s₁, path', q, h1, h2⟩ := ih e2
        exact ⟨r.1 :: os', s₁, path', q, by rw [bind_ok e1, bind_ok h1]; rfl, h2⟩

theorem MapCode.session_last {C : MapCode K V} {n : Nat} {sd : Seed} {ops : List (MOp K V)} {op : MOp K V} {s s₂ : St K V} {r}
    (e : C.session n sd (ops ++ [op]) s = .ok (r, s₂)) :
    ∃ os s₁ path q, C.session n sd ops s = .ok ((some s.next, os), s₁) ∧ C.exec n (some s.next) path op s₁ = .ok (q, s₂) := by
  unfold MapCode.session at e ⊢
  rw [bind_run] at e
  cases e1 : (newRoot sd : M K V Handle) s with
  | error x => rw [e1] at e; cases e
  | ok y =>
    obtain ⟨m, s'⟩ := y
    obtain rfl : m = some s.next := by cases e1; rfl
    rw [e1] at e
    dsimp only at e
    rw [bind_run] at e
    cases e2 : C.run n (some s.next) blank (ops ++ [op]) s' with
    | error x => rw [e2] at e; cases e
    | ok y =>
      rw [e2] at e
      cases e
      obtain ⟨os', s₁, path', q, h1, h2⟩ := MapCode.run_last e2
      exact ⟨os', s₁, path', q, by rw [bind_ok e1, bind_ok h1]; rfl, h2⟩

theorem SetCode.run_last {C : SetCode K} {n : Nat} {m : Handle} {ops : List (SOp K)} {op : SOp K} :
    ∀ {path : List PathLink} {s s₂ : St K Unit} {os}, C.run n m path (ops ++ [op]) s = .ok (os, s₂) →
      ∃ os' s₁ path' r, C.run n m path ops s = .ok (os', s₁) ∧ C.exec n m path' op s₁ = .ok (r, s₂) := by
  induction ops with
  | nil =>
    intro path s s₂ os e
    simp only [List.nil_append, SetCode.run] at e
    rw [bind_run] at e
    cases e1 : C.exec n m path op s with
    | error x => rw [e1] at e; cases e
    | ok r => rw [e1] at e; cases e; exact ⟨[], s, path, _, rfl, e1⟩
  | cons o ops ih =>
    intro path s s₂ os e
    simp only [List.cons_append, SetCode.run] at e ⊢
    rw [bind_run] at e
    cases e1 : C.exec n m path o s with
    | error x => rw [e1] at e; cases e
    | ok r =>
      obtain ⟨r, s'⟩ := r
      rw [e1] at e
      dsimp only at e
      rw [bind_run] at e
      cases e2 : C.run n m r.2 (ops ++ [op]) s' with
      | error x => rw [e2] at e; cases e
      | ok r' =>
        obtain ⟨r', s''⟩ := r'
        rw [e2] at e
        cases e
        obtain ⟨os', s₁, path', q, h1, h2⟩ := ih e2
        exact ⟨r.1 :: os', s₁, path', q, by rw [bind_ok e1, bind_ok h1]; rfl, h2⟩

theorem SetCode.session_last {C : SetCode K} {n : Nat} {sd : Seed} {ops : List (SOp K)} {op : SOp K} {s s₂ : St K Unit} {r}
    (e : C.session n sd (ops ++ [op]) s = .ok (r, s₂)) :
    ∃ os s₁ path q, C.session n sd ops s = .ok ((some s.next, os), s₁) ∧ C.exec n (some s.next) path op s₁ = .ok (q, s₂) := by
  unfold SetCode.session at e ⊢
  rw [bind_run] at e
  cases e1 : (newRoot sd : M K Unit Handle) s with
  | error x => rw [e1] at e; cases e
  | ok y =>
    obtain ⟨m, s'⟩ := y
    obtain rfl : m = some s.next := by cases e1; rfl
    rw [e1] at e
    dsimp only at e
    rw [bind_run] at e
    cases e2 : C.run n (some s.next) blank (ops ++ [op]) s' with
    | error x => rw [e2] at e; cases e
    | ok y =>
      rw [e2] at e
      cases e
      obtain ⟨os', s₁, path', q, h1, h2⟩ := SetCode.run_last e2
      exact ⟨os', s₁, path', q, by rw [bind_ok e1, bind_ok h1]; rfl, h2⟩

end

end Amt.Go

namespace Amt.Par
open Amt Spec

/-! ### A scan whose callback allocates nothing -/

section
variable {K V U : Type}

/-- A program that allocates nothing in any memory. -/
def T.Spares {α : Type} (t : T K V α) : Prop := ∀ s, t.cost Price.alloc s ≤ 0

theorem Spares.bind {α β : Type} {t : T K V α} {f : α → T K V β} (h : t.Spares) (hf : ∀ x, (f x).Spares) : (t >>= f).Spares :=
  fun s => T.cost_bind_le (a := 0) (b := 0) (h s) fun x s => hf x s

theorem Spares.ret {α : Type} (a : α) : T.Spares (Pure.pure a : T K V α) := fun s => Nat.le_refl 0

theorem Spares.ro {α : Type} {t : T K V α} (h : t.RO) : t.Spares := fun s => h.allocs.cost s

theorem Spares.ite {α : Type} {c : Prop} [Decidable c] {t u : T K V α} (h : t.Spares) (h' : u.Spares) : (if c then t else u).Spares := by
  split
  · exact h
  · exact h'

theorem Spares.storeVal (p : Amt.Ptr) (v : V) : T.Spares (Par.storeVal p v : T K V Unit) := fun s =>
  T.Pays.cost (Φ := fun _ => 0) (p := 0) (show T.Pays Price.alloc (Par.storeVal p v) 0 _ from ⟨Nat.le_refl 0, Nat.le_refl 0⟩) s

theorem Spares.items {visit rec : U → Ref → T K V (U × Bool)} (hv : ∀ u r, (visit u r).Spares) (hr : ∀ u r, (rec u r).Spares) (l : Ref) (tmap : BitVec 32) :
    ∀ n i pm u, (itemsC visit rec l tmap n i pm u).Spares := by
  intro n
  induction n with
  | zero => intro i pm u; exact Spares.ret _
  | succ n ih =>
    intro i pm u
    unfold itemsC
    exact Spares.bind (Spares.ro (RO.load l)) fun x => Spares.bind (Spares.ite (hv _ _) (hr _ _)) fun r => Spares.ite (Spares.ret _) (ih _ _ _)

theorem Spares.scan {visit : U → Ref → T K V (U × Bool)} (hv : ∀ u r, (visit u r).Spares) : ∀ n u l, (scanC visit n u l).Spares := by
  intro n
  induction n with
  | zero => intro u l s; exact Nat.le_refl 0
  | succ n ih =>
    intro u l
    unfold scanC
    exact Spares.bind (Spares.ro (RO.load l)) fun x => Spares.bind (Spares.ro (RO.load l)) fun y => Spares.items hv ih l _ _ _ _ _

theorem Spares.allCb (f : List (K × V) → K → V → V × Bool) (log : List (K × V)) (k : K) (p : Amt.Ptr) : (Par.allCb f log k p).Spares :=
  Spares.bind (Spares.ro (RO.kvVal p)) fun _ => Spares.bind (Spares.storeVal p _) fun _ => Spares.ret _

end

section
variable {K V : Type} [Inhabited V] {G : MapTree K V} {C : Go.MapCode K V} {I : MapImpl K V} {GS : SetTree K} {CS : Go.SetCode K} {IS : SetImpl K}

/-- `All` allocates nothing if its callback allocates nothing. -/
theorem MapAll.all_spares (h : MapAll G C I) (n a : Nat) (cb : List (K × V) → K → Amt.Ptr → T K V (List (K × V) × Bool)) (u : List (K × V))
    (hq : ∀ u k p, (cb u k p).Spares) : (G.All n (some a) cb u).Spares := by
  have hv : ∀ u r, (visitKv cb u r).Spares := fun u r =>
    Spares.bind (Spares.ro (RO.load r)) fun x => Spares.bind (Spares.ro (RO.kvKey _)) fun k => Spares.bind (Spares.ro (RO.fieldAddr _)) fun p => hq u k p
  have key : ∀ {t : T K V (List (K × V))} {visit : List (K × V) → Ref → T K V (List (K × V) × Bool)},
      t = (scanC visit n u ⟨.blk a, 0⟩ >>= fun r => pure r.1) → (∀ u r, (visit u r).Spares) → t.Spares := fun e hv => by
    rw [e]; exact Spares.bind (Spares.scan hv _ _ _) fun r => Spares.ret _
  cases h with
  | string sum => exact key (by rw [← StringMap.scan_tree]; rfl) hv
  | bytes sum => exact key (by rw [← BytesMap.scan_tree]; rfl) hv
  | arr sum kb => exact key (by rw [← ArrMap.scan_tree]; rfl) hv
  | int sum =>
    refine key (visit := visitInt cb) (by rw [← IntMap.scan_tree]; rfl) fun u r => ?_
    exact Spares.bind (Spares.ro (RO.load r)) fun x => Spares.bind (Spares.ro (RO.load r)) fun x => Spares.bind (Spares.ro (RO.load r)) fun x =>
      Spares.bind (Spares.ro (RO.fieldAddr _)) fun p => hq u _ p
  | generic J => exact key (by rw [← Map.scan_tree]; rfl) hv

end

section
variable {K V : Type} [DecidableEq K] [Inhabited V] {G : MapTree K V} {C : Go.MapCode K V} {I : MapImpl K V} {GS : SetTree K} {CS : Go.SetCode K} {IS : SetImpl K}

theorem grown {α : Type} {t : T K V α} {x : M K V α} {r : α} {s s₁ : St K V} {b : Nat} (hd : Den t x) (e : x s = .ok (r, s₁)) (h : t.cost Price.alloc s ≤ b) :
    s.next ≤ s₁.next ∧ s₁.next ≤ s.next + b := by
  rw [← hd.eq] at e
  have := T.allocated e
  dsimp only at this
  omega

/-- C91.  The memory grows by the two objects of a new container and, at each call of a history, by at most the number that `objects` gives: nothing
for a call that only reads, that writes to a stored key, or that writes through a pointer or in a callback; one for `Del`; and two and the number of
levels of the key for a key that is not stored. -/
theorem C91_map {sd : Seed} {H : K → Nat → BitVec 64} {P : Bool → List K → K → Prop} {lossy : V → V} {ex : Prop} {n : Nat}
    (hA : MapAll G C I) (hc : MapContainer I sd H P lossy ex) (hex : ex) {ops : List (MOp K V)} (h : EachNew P [] ops) (hn : 256 ≤ n)
    {s : St K V} (hs : Go.Tidy s) :
    ∃ m os s₁, C.session n sd ops s = .ok ((m, os), s₁) ∧ s.next + 2 ≤ s₁.next ∧ s₁.next ≤ s.next + 2 + objects H [] ops := by
  obtain ⟨m, os, s₁, e, e'⟩ := C90_map_after hA hc h hn hs
  clear e'
  refine ⟨m, os, s₁, e, ?_⟩
  revert h m os s₁ e
  induction ops using snoc_induction with
  | nil => intro _ m os s₁ e; cases e; exact ⟨Nat.le_refl _, Nat.le_refl _⟩
  | snoc ops op ih =>
    intro h m os s₂ e
    obtain ⟨h1, hP⟩ := EachNew.split h
    obtain ⟨os, s₁, path, q, e1, e2⟩ := Go.MapCode.session_last e
    have h2 := ih h1 _ _ _ e1
    rw [objects_append]
    have hD := hA.tree.of
    have hd := hD.exec n (some s.next) path op
    suffices h3 : (G.exec n (some s.next) path op).cost Price.alloc s₁ ≤ op.objects H (keysAfter [] ops) by
      have := grown hd e2 h3
      omega
    have zero : ∀ {α β : Type} {t : T K V α} {f : α → T K V β} {b : Nat}, t.cost Price.alloc s₁ ≤ b → (∀ x, (f x).Spares) →
        (t >>= f).cost Price.alloc s₁ ≤ b := fun h hf => T.cost_bind_le (b := 0) h fun x s => hf x s
    cases op with
    | get k => exact zero (Spares.ro (hD.get_ro n _ k) s₁) fun _ => Spares.ret _
    | val k => exact zero (Spares.ro (hD.val_ro n _ k) s₁) fun _ => Spares.ret _
    | ptr k => exact zero (Spares.ro (hD.ptr_ro n _ k) s₁) fun _ => Spares.ite (Spares.ret _) (Spares.bind (Spares.ro (RO.kvVal _)) fun _ => Spares.ret _)
    | set k v =>
      refine zero ?_ fun _ => Spares.ret _
      rw [MOp.objects]
      split
      · rename_i hk
        obtain ⟨m', os', s', f1, f2⟩ := C90_map_after hA hc h1 hn hs
        rw [e1] at f1
        cases f1
        exact Nat.le_of_eq ((f2 k hk).1 v)
      · rename_i hk
        obtain ⟨m', os', s', f1, f2⟩ := C87_map hA hc hex h1 hn hs
        rw [e1] at f1
        cases f1
        have := (f2 k v (hP k (List.mem_singleton.2 rfl))).2
        rwa [show keysAfter [] (ops ++ [.set k v]) = k :: keysAfter [] ops by
          rw [keysAfter, List.foldl_append]; exact if_neg hk] at this
    | mod k f =>
      refine zero ?_ fun _ => Spares.ret _
      rw [MOp.objects]
      split
      · rename_i hk
        obtain ⟨m', os', s', f1, f2⟩ := C90_map_after hA hc h1 hn hs
        rw [e1] at f1
        cases f1
        exact Nat.le_of_eq ((f2 k hk).2 f)
      · rename_i hk
        obtain ⟨m', os', s', f1, f2⟩ := C87_mod hA hc hex h1 hn hs
        rw [e1] at f1
        cases f1
        have := (f2 k f (hP k (List.mem_singleton.2 rfl))).2
        rwa [show keysAfter [] (ops ++ [.mod k f]) = k :: keysAfter [] ops by
          rw [keysAfter, List.foldl_append]; exact if_neg hk] at this
    | del k => exact zero ((C86_map hA n s.next k s₁).2.2.2.2.2.2 path) fun _ => Spares.ret _
    | len => exact zero (Spares.ro (Len_ro _) s₁) fun _ => Spares.ret _
    | dep => exact zero (Spares.ro (Dep_ro _) s₁) fun _ => Spares.ret _
    | write k v => exact zero (Spares.ro (hD.ptr_ro n _ k) s₁) fun _ => Spares.ite (Spares.ret _) (Spares.bind (Spares.storeVal _ _) fun _ => Spares.ret _)
    | all f => exact zero (hA.all_spares n s.next _ _ (fun a b c => Spares.allCb f a b c) s₁) fun _ => Spares.ret _

/-- C91 for sets. -/
theorem C91_set {sd : Seed} {H : K → Nat → BitVec 64} {P : List K → K → Prop} {inv : Bool} {ex : Prop} {n : Nat}
    (hA : SetAll GS CS IS) (hc : SetContainer IS sd H P inv ex) (hex : ex) {ops : List (SOp K)} (h : SEachNew H inv P [] ops) (hn : 256 ≤ n)
    {s : St K Unit} (hs : Go.Tidy s) :
    ∃ m os s₁, CS.session n sd ops s = .ok ((m, os), s₁) ∧ s.next + 2 ≤ s₁.next ∧ s₁.next ≤ s.next + 2 + objectsX H inv [] ops := by
  obtain ⟨m, os, s₁, e, e'⟩ := C90_set_after hA hc h hn hs
  clear e'
  refine ⟨m, os, s₁, e, ?_⟩
  revert h m os s₁ e
  induction ops using snoc_induction with
  | nil => intro _ m os s₁ e; cases e; exact ⟨Nat.le_refl _, Nat.le_refl _⟩
  | snoc ops op ih =>
    intro h m os s₂ e
    obtain ⟨h1, hP⟩ := SEachNew.split h
    obtain ⟨os, s₁, path, q, e1, e2⟩ := Go.SetCode.session_last e
    have h2 := ih h1 _ _ _ e1
    rw [objectsX_append]
    have hD := hA.tree.of
    have hd := hD.exec n (some s.next) path op
    suffices h3 : (GS.exec n (some s.next) path op).cost Price.alloc s₁ ≤ op.objects H (elemsAfterX H inv [] ops) by
      have := grown hd e2 h3
      omega
    have zero : ∀ {α β : Type} {t : T K Unit α} {f : α → T K Unit β} {b : Nat}, t.cost Price.alloc s₁ ≤ b → (∀ x, (f x).Spares) →
        (t >>= f).cost Price.alloc s₁ ≤ b := fun h hf => T.cost_bind_le (b := 0) h fun x s => hf x s
    cases op with
    | has k => exact zero (Spares.ro (hD.has_ro n _ k) s₁) fun _ => Spares.ret _
    | add k =>
      refine zero ?_ fun _ => Spares.ret _
      rw [SOp.objects]
      split
      · rename_i hk
        obtain ⟨m', os', s', f1, f2⟩ := C90_set_after hA hc h1 hn hs
        rw [e1] at f1
        cases f1
        exact Nat.le_of_eq (f2 k hk).1
      · rename_i hk
        obtain ⟨m', os', s', f1, f2⟩ := C87_set hA hc hex h1 hn hs
        rw [e1] at f1
        cases f1
        have := (f2 k (hP k (List.mem_singleton.2 rfl))).2
        rwa [show elemsAfterX H inv [] (ops ++ [.add k]) = k :: elemsAfterX H inv [] ops by
          rw [elemsAfterX, List.foldl_append]; exact if_neg hk] at this
    | del k => exact zero ((C86_set hA n s.next k s₁).2.2.2.2 path) fun _ => Spares.ret _
    | len => exact zero (Spares.ro (Len_ro _) s₁) fun _ => Spares.ret _
    | dep => exact zero (Spares.ro (Dep_ro _) s₁) fun _ => Spares.ret _
    | all f => exact zero (Spares.ro (hD.all_ro n _ _ _ fun a b => RO.pure _) s₁) fun _ => Spares.ret _

theorem op_avg {W : Type} {c m L : Nat} {Ω : List W} {H : W → K → Nat → BitVec 64} {U : List K} (hsp : Spread c m Ω H U) (hL : L ≤ m) (hm : m ≤ 256)
    (op : MOp K V) {ks : List K} (hn : ks.Nodup) (hU : ∀ x ∈ ks, x ∈ U) (hop : ∀ x ∈ op.stores, x ∈ U) (hN : ks.length ≤ 16 ^ L) :
    ((Ω.map fun w => op.objects (H w) ks).sum : Rat) ≤
      Ω.length * ((op.stores.filter fun k => decide (k ∉ ks)).length * (3 + depthBound c m L) + ([op].filter MOp.isDel).length) := by
  have new : ∀ k ∈ U, ((Ω.map fun w => if k ∈ ks then 0 else 2 + levels (H w) (k :: ks) k).sum : Rat) ≤
      Ω.length * (([k].filter fun k => decide (k ∉ ks)).length * (3 + depthBound c m L)) := fun k hkU => by
    by_cases hk : k ∈ ks
    · simp only [if_pos hk, sum_const, List.filter_cons, List.filter_nil]
      simp [hk]
    · simp only [if_neg hk, sum_add, sum_const, List.filter_cons, List.filter_nil]
      have h1 := levels_avg (List.nodup_cons.2 ⟨hk, hn⟩) (spread_sub hsp (ks' := k :: k :: ks) fun x hx => by
          simp only [List.mem_cons] at hx
          rcases hx with rfl | rfl | hx
          · exact hkU
          · exact hkU
          · exact hU x hx)
        (by rw [List.filter_cons_of_neg (by simp)]; exact Nat.le_trans (List.length_filter_le _ _) hN) hL hm
      simp only [hk, not_false_eq_true, decide_true, if_true, List.length_singleton, Rat.natCast_add, Rat.natCast_mul]
      have e : ((2 : Nat) : Rat) = 2 := rfl
      have e1 : ((1 : Nat) : Rat) = 1 := rfl
      rw [e, e1]
      grind
  have zero : ((Ω.map fun _ => (0 : Nat)).sum : Rat) ≤ Ω.length * (((0 : Nat) : Rat) * (3 + depthBound c m L) + ((0 : Nat) : Rat)) := by
    rw [sum_const, Nat.zero_mul]
    have e : ((0 : Nat) : Rat) = 0 := rfl
    rw [e]
    grind
  cases op with
  | set k v =>
    have := new k (hop k (List.mem_singleton.2 rfl))
    simp only [MOp.objects, MOp.stores, List.filter_cons_of_neg (show ¬ (MOp.set k v).isDel = true by simp [MOp.isDel]), List.filter_nil, List.length_nil]
    have e : ((0 : Nat) : Rat) = 0 := rfl
    rw [e, Rat.add_zero]
    exact this
  | mod k f =>
    have := new k (hop k (List.mem_singleton.2 rfl))
    simp only [MOp.objects, MOp.stores, List.filter_cons_of_neg (show ¬ (MOp.mod k f).isDel = true by simp [MOp.isDel]), List.filter_nil, List.length_nil]
    have e : ((0 : Nat) : Rat) = 0 := rfl
    rw [e, Rat.add_zero]
    exact this
  | del k =>
    show ((Ω.map fun _ => (1 : Nat)).sum : Rat) ≤ Ω.length * (((0 : Nat) : Rat) * (3 + depthBound c m L) + ((1 : Nat) : Rat))
    rw [sum_const, Nat.one_mul]
    have e : ((0 : Nat) : Rat) = 0 := rfl
    have e1 : ((1 : Nat) : Rat) = 1 := rfl
    rw [e, e1]
    grind
  | get => exact zero
  | val => exact zero
  | ptr => exact zero
  | len => exact zero
  | dep => exact zero
  | write => exact zero
  | all => exact zero

theorem objects_avg {W : Type} {c m L : Nat} {Ω : List W} {H : W → K → Nat → BitVec 64} {U : List K} (hsp : Spread c m Ω H U) (hL : L ≤ m) (hm : m ≤ 256) :
    ∀ (ops : List (MOp K V)) {ks : List K}, ks.Nodup → (∀ x ∈ ks, x ∈ U) → (∀ x, Stores ops x → x ∈ U) → (∀ i, (keysAfter ks (ops.take i)).length ≤ 16 ^ L) →
      ((Ω.map fun w => objects (H w) ks ops).sum : Rat) ≤ Ω.length * (inserts ks ops * (3 + depthBound c m L) + deletes ops) := by
  intro ops
  induction ops with
  | nil =>
    intro ks _ _ _ _
    simp only [objects, inserts, deletes, sum_const, List.filter_nil, List.length_nil, Nat.zero_mul]
    have e : ((0 : Nat) : Rat) = 0 := rfl
    rw [e]
    grind
  | cons op ops ih =>
    intro ks hn hU hst hN
    have h1 := op_avg hsp hL hm op hn hU (fun x hx => hst x ⟨op, List.mem_cons_self, hx⟩) (hN 0)
    have h2 := ih (ks := op.after ks) (nodup_keysAfter hn [op]) (fun x hx => by
        have : x ∈ ks ∨ x ∈ op.stores := by
          cases op <;> simp only [MOp.after, MOp.stores] at hx ⊢ <;> first
            | exact Or.inl hx
            | exact Or.inl (List.mem_filter.1 hx).1
            | (split at hx
               · exact Or.inl hx
               · rcases List.mem_cons.1 hx with rfl | hx
                 · exact Or.inr (List.mem_singleton.2 rfl)
                 · exact Or.inl hx)
        rcases this with h | h
        · exact hU x h
        · exact hst x ⟨op, List.mem_cons_self, h⟩)
      (fun x hx => by obtain ⟨o, ho, hx⟩ := hx; exact hst x ⟨o, List.mem_cons_of_mem _ ho, hx⟩)
      (fun i => hN (i + 1))
    have h3 : deletes (op :: ops) = ([op].filter MOp.isDel).length + deletes ops := by
      rw [deletes, deletes, ← List.length_append, ← List.filter_append]
      rfl
    simp only [objects, inserts, sum_add, h3, Rat.natCast_add] at h1 h2 ⊢
    grind

/-- C91 on average.  A history that never stores more than `16^L` keys inserts a new key in some of its calls and calls `Del` in some; for a family
`Ω` of hash functions that spreads the keys, the memory grows on average by at most two objects, `3 + depthBound c m L` for each new key, that is, a
number of the order of the logarithm of the number of keys, and one for each `Del`. -/
theorem C91_map_mean {W : Type} {c m L n : Nat} {Ω cov : List W} {G : W → MapTree K V} {C : W → Go.MapCode K V} {I : W → MapImpl K V} {sd : W → Seed}
    {H : W → K → Nat → BitVec 64} {P : W → Bool → List K → K → Prop} {lossy : V → V} {ex : Prop} (hA : ∀ w, MapAll (G w) (C w) (I w))
    (hc : ∀ w, MapContainer (I w) (sd w) (H w) (P w) lossy ex) (hex : ex) {ops : List (MOp K V)} (hcov : cov.Sublist Ω)
    (h : ∀ w ∈ cov, EachNew (P w) [] ops) {U : List K} (hU : ∀ x, Stores ops x → x ∈ U) (hsp : Spread c m Ω H U)
    (hN : ∀ i, (keysAfter [] (ops.take i)).length ≤ 16 ^ L) (hL : L ≤ m) (hm : m ≤ 256) (hn : 256 ≤ n) {s : W → St K V} (hs : ∀ w, Go.Tidy (s w)) :
    ∃ r : W → Handle × List (MOut K V) × St K V,
      (∀ w ∈ cov, (C w).session n (sd w) ops (s w) = .ok (((r w).1, (r w).2.1), (r w).2.2) ∧ (s w).next ≤ (r w).2.2.next) ∧
      ((cov.map fun w => (r w).2.2.next - (s w).next).sum : Rat) ≤ Ω.length * (2 + (inserts [] ops * (3 + depthBound c m L) + deletes ops)) := by
  obtain ⟨r, hr⟩ := choose_for fun w (hw : w ∈ cov) => C91_map (hA w) (hc w) hex (h w hw) hn (hs w)
  refine ⟨r, fun w hw => ⟨(hr w hw).1, by have := (hr w hw).2.1; omega⟩, ?_⟩
  have h1 : (cov.map fun w => (r w).2.2.next - (s w).next).sum ≤ (Ω.map fun w => 2 + objects (H w) [] ops).sum :=
    Nat.le_trans (sum_le_sum fun w hw => by have := (hr w hw).2.2; omega) (sum_sublist hcov _)
  rw [sum_add, sum_const] at h1
  have h2 := Rat.natCast_le_natCast.2 h1
  have h3 := objects_avg hsp hL hm ops (ks := []) (by simp) (by simp) hU hN
  rw [Rat.natCast_add, Rat.natCast_mul] at h2
  have e : ((2 : Nat) : Rat) = 2 := rfl
  rw [e] at h2
  grind

/-- C91 on average for sets whose `Del` does what it should. -/
theorem C91_set_mean {W : Type} {c m L n : Nat} {Ω cov : List W} {G : W → SetTree K} {C : W → Go.SetCode K} {I : W → SetImpl K} {sd : W → Seed}
    {H : W → K → Nat → BitVec 64} {P : W → List K → K → Prop} {ex : Prop} (hA : ∀ w, SetAll (G w) (C w) (I w))
    (hc : ∀ w, SetContainer (I w) (sd w) (H w) (P w) false ex) (hex : ex) {ops : List (SOp K)} (hcov : cov.Sublist Ω)
    (h : ∀ w ∈ cov, SEachNew (H w) false (P w) [] ops) {U : List K} (hU : ∀ x, SStores ops x → x ∈ U) (hsp : Spread c m Ω H U)
    (hN : ∀ i, (elemsAfter [] (ops.take i)).length ≤ 16 ^ L) (hL : L ≤ m) (hm : m ≤ 256) (hn : 256 ≤ n) {s : W → St K Unit} (hs : ∀ w, Go.Tidy (s w)) :
    ∃ r : W → Handle × List (SOut K) × St K Unit,
      (∀ w ∈ cov, (C w).session n (sd w) ops (s w) = .ok (((r w).1, (r w).2.1), (r w).2.2) ∧ (s w).next ≤ (r w).2.2.next) ∧
      ((cov.map fun w => (r w).2.2.next - (s w).next).sum : Rat) ≤
        Ω.length * (2 + (inserts [] (ops.map SOp.asMap) * (3 + depthBound c m L) + deletes (ops.map SOp.asMap))) := by
  obtain ⟨r, hr⟩ := choose_for fun w (hw : w ∈ cov) => C91_set (hA w) (hc w) hex (h w hw) hn (hs w)
  refine ⟨r, fun w hw => ⟨(hr w hw).1, by have := (hr w hw).2.1; omega⟩, ?_⟩
  have h1 : (cov.map fun w => (r w).2.2.next - (s w).next).sum ≤ (Ω.map fun w => 2 + objects (H w) [] (ops.map SOp.asMap)).sum :=
    Nat.le_trans (sum_le_sum fun w hw => by have := (hr w hw).2.2; rw [objectsX_false] at this; omega) (sum_sublist hcov _)
  rw [sum_add, sum_const] at h1
  have h2 := Rat.natCast_le_natCast.2 h1
  have h3 := objects_avg hsp hL hm (ops.map SOp.asMap) (ks := []) (by simp) (by simp)
    (fun x hx => by
      obtain ⟨o, ho, hx⟩ := hx
      obtain ⟨op, hop, rfl⟩ := List.mem_map.1 ho
      exact hU x ⟨op, hop, by cases op <;> exact hx⟩)
    (fun i => by rw [← List.map_take, keysAfter_asMap]; exact hN i)
  rw [Rat.natCast_add, Rat.natCast_mul] at h2
  have e : ((2 : Nat) : Rat) = 2 := rfl
  rw [e] at h2
  grind

end

/-! ### Instances -/

example := C91_map (MapAll.string (V := Nat) toyHash) (MapContainer.string (V := Nat) toyHash 0#64) trivial exOps_str (Nat.le_refl 256) Go.init_tidy
example := C91_map (MapAll.bytes (V := Nat) toyHash) (MapContainer.bytes (V := Nat) toyHash 0#64) trivial exOps_str (Nat.le_refl 256) Go.init_tidy
example := C91_set (SetAll.string toyHash) (SetContainer.string toyHash 0#64) trivial exOpsS_str (Nat.le_refl 256) Go.init_tidy

/-- What the bound is for this history: how many objects, new keys and calls of `Del`. -/
example : (objects (byteStream toyHash 0#64 id) [] (exOps strKey), inserts [] (exOps strKey), deletes (exOps strKey)) = (20, 5, 2) := by decide +kernel

theorem keysAfter_length {K V : Type} [DecidableEq K] (ops : List (MOp K V)) : ∀ ks, (keysAfter ks ops).length ≤ ks.length + ops.length := by
  induction ops with
  | nil => intro ks; exact Nat.le_refl _
  | cons op ops ih =>
    intro ks
    have h1 := ih (op.after ks)
    have h2 : (op.after ks).length ≤ ks.length + 1 := by
      cases op <;> simp only [MOp.after]
      case del => exact Nat.le_succ_of_le (List.length_filter_le _ _)
      all_goals first | exact Nat.le_succ _ | (split <;> simp)
    rw [List.length_cons]
    exact Nat.le_trans h1 (by omega)

theorem take_few {K V : Type} [DecidableEq K] {ops : List (MOp K V)} {N : Nat} (h : ops.length ≤ N) (i : Nat) : (keysAfter [] (ops.take i)).length ≤ N := by
  have h1 := keysAfter_length (ops.take i) []
  rw [List.length_take] at h1
  simp only [List.length_nil] at h1
  omega

example := C91_map_mean (c := 1) (m := 1) (L := 1) (fun sd => MapAll.string (V := Nat) affineHash) (fun sd => MapContainer.string (V := Nat) affineHash sd) trivial
  (List.Sublist.refl exSeeds) affine_covered
  (fun x ⟨op, ho, hx⟩ => (by decide +kernel : ∀ op ∈ exOps strKey, ∀ x ∈ op.stores, x ∈ strKey 0x12 :: keysAfter [] (exOps strKey)) op ho x hx) spread_affine
  (take_few (by decide)) (by decide) (by decide) (Nat.le_refl 256) (s := fun _ => St.init) fun _ => Go.init_tidy

example := C91_set_mean (c := 1) (m := 1) (L := 1) (fun sd => SetAll.string affineHash) (fun sd => SetContainer.string affineHash sd) trivial
  (List.Sublist.refl exSeeds) affine_covered_set
  (fun x ⟨op, ho, hx⟩ => (by decide +kernel : ∀ op ∈ exOpsS strKey, ∀ x ∈ op.stores, x ∈ strKey 0x12 :: keysAfter [] (exOps strKey)) op ho x hx) spread_affine
  (fun i => by
    rw [← keysAfter_asMap, List.map_take]
    exact take_few (by decide) i) (by decide) (by decide) (Nat.le_refl 256) (s := fun _ => St.init) fun _ => Go.init_tidy

end Amt.Par
