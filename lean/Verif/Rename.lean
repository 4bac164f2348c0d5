/-
Programs do not depend on where their objects lie: on two memories that hold copies of the same container at different
addresses, a call does the same, faults included, and touches nothing else.  Used only in proofs.
-/
import Verif.PropsFuel

set_option linter.unusedVariables false
set_option linter.unusedSectionVars false

namespace Amt
open Spec

/-- Which address of one memory corresponds to which of the other. -/
abbrev Ren := Nat → Nat → Prop

inductive PtrR (φ : Ren) : Ptr → Ptr → Prop
  | nil : PtrR φ .nil .nil
  | blk {a b : Nat} : φ a b → PtrR φ (.blk a) (.blk b)

structure LinkR (φ : Ren) (x y : Link) : Prop where
  ptr : PtrR φ x.ptr y.ptr
  pmap : x.pmap = y.pmap
  tmap : x.tmap = y.tmap

structure RefR (φ : Ren) (x y : Ref) : Prop where
  base : PtrR φ x.base y.base
  idx : x.idx = y.idx

section
variable {K V α β γ δ : Type}

inductive ObjR (φ : Ren) : Obj K V → Obj K V → Prop
  | links {xs ys : List Link} : xs.length = ys.length → (∀ (i : Nat) x y, xs[i]? = some x → ys[i]? = some y → LinkR φ x y) →
    ObjR φ (.links xs) (.links ys)
  | kv (k : Option K) (v : V) : ObjR φ (.kv k v) (.kv k v)

/-- The container with root `h` in `s` is a copy of the one with root `k` in `t`. -/
structure StR (φ : Ren) (h k : Nat) (s t : St K V) : Prop where
  fn : ∀ {a b b'}, φ a b → φ a b' → b = b'
  inj : ∀ {a a' b}, φ a b → φ a' b → a = a'
  obj : ∀ {a b}, φ a b → ∃ o o', s.mem a = some o ∧ t.mem b = some o' ∧ ObjR φ o o'
  lt : ∀ {a b}, φ a b → a < s.next ∧ b < t.next
  root : φ h k
  fields : s.roots h = t.roots k

/-- More addresses correspond. -/
def Ren.Le (φ φ' : Ren) : Prop := ∀ a b, φ a b → φ' a b

theorem Ren.Le.refl (φ : Ren) : Ren.Le φ φ := fun _ _ h => h

theorem Ren.Le.trans {φ φ' φ'' : Ren} (h : Ren.Le φ φ') (h' : Ren.Le φ' φ'') : Ren.Le φ φ'' := fun a b x => h' a b (h a b x)

theorem PtrR.mono {φ φ' : Ren} (h : Ren.Le φ φ') {p q : Ptr} (hp : PtrR φ p q) : PtrR φ' p q := by
  cases hp with
  | nil => exact .nil
  | blk h1 => exact .blk (h _ _ h1)

theorem LinkR.mono {φ φ' : Ren} (h : Ren.Le φ φ') {x y : Link} (hx : LinkR φ x y) : LinkR φ' x y := ⟨hx.ptr.mono h, hx.pmap, hx.tmap⟩

theorem RefR.mono {φ φ' : Ren} (h : Ren.Le φ φ') {x y : Ref} (hx : RefR φ x y) : RefR φ' x y := ⟨hx.base.mono h, hx.idx⟩

theorem ObjR.mono {φ φ' : Ren} (h : Ren.Le φ φ') {o o' : Obj K V} (ho : ObjR φ o o') : ObjR φ' o o' := by
  cases ho with
  | links h1 h2 => exact .links h1 fun i x y hx hy => (h2 i x y hx hy).mono h
  | kv k v => exact .kv k v

/-- What has changed between `s` and `s'`: the container, and fresh objects. -/
structure Fr (φ φ' : Ren) (h : Nat) (s s' : St K V) : Prop where
  next : s.next ≤ s'.next
  mem : ∀ a, a < s.next → (∀ b, ¬ φ a b) → s'.mem a = s.mem a
  roots : ∀ a, a ≠ h → s'.roots a = s.roots a
  new : ∀ a b, φ' a b → φ a b ∨ s.next ≤ a

theorem Fr.refl (φ : Ren) (h : Nat) (s : St K V) : Fr φ φ h s s := ⟨Nat.le_refl _, fun _ _ _ => rfl, fun _ _ => rfl, fun _ _ h => Or.inl h⟩

theorem Fr.trans {φ φ' φ'' : Ren} {h : Nat} {s s' s'' : St K V} (h1 : Fr φ φ' h s s') (h2 : Fr φ' φ'' h s' s'') : Fr φ φ'' h s s'' := by
  refine ⟨Nat.le_trans h1.next h2.next, fun a ha hb => ?_, fun a ha => by rw [h2.roots a ha, h1.roots a ha], fun a b hab => ?_⟩
  · rw [h2.mem a (Nat.lt_of_lt_of_le ha h1.next) ?_, h1.mem a ha hb]
    intro b h3
    rcases h1.new a b h3 with h4 | h4
    · exact hb b h4
    · omega
  · rcases h2.new a b hab with h3 | h3
    · exact h1.new a b h3
    · exact Or.inr (Nat.le_trans h1.next h3)

/-- The outcomes correspond. -/
def OutR (φ : Ren) (h k : Nat) (s : St K V) (RA : Ren → α → β → Prop) :
    Except Fault (α × St K V) → Except Fault (β × St K V) → Prop
  | .error e, .error e' => e = e'
  | .ok (a, s'), .ok (b, t') => ∃ φ', Ren.Le φ φ' ∧ StR φ' h k s' t' ∧ RA φ' a b ∧ Fr φ φ' h s s'
  | _, _ => False

/-- Two programs do the same on corresponding memories. -/
def Same (h k : Nat) (φ : Ren) (RA : Ren → α → β → Prop) (x : M K V α) (y : M K V β) : Prop :=
  ∀ s t, StR φ h k s t → OutR φ h k s RA (x s) (y t)

/-- Equal results. -/
def EqR : Ren → α → α → Prop := fun _ a b => a = b

variable {h k : Nat} {φ : Ren}

theorem Same.pure {RA : Ren → α → β → Prop} {a : α} {b : β} (hab : RA φ a b) : Same h k φ RA (Pure.pure a : M K V α) (Pure.pure b) :=
  fun s t hst => ⟨φ, Ren.Le.refl φ, hst, hab, Fr.refl φ h s⟩

theorem Same.fail {RA : Ren → α → β → Prop} (e : Fault) : Same h k φ RA (M.fail e : M K V α) (M.fail e) := fun s t hst => rfl

theorem Same.bind {RA : Ren → α → β → Prop} {RB : Ren → γ → δ → Prop} {x : M K V α} {y : M K V β} {f : α → M K V γ} {g : β → M K V δ}
    (h1 : Same h k φ RA x y) (h2 : ∀ φ', Ren.Le φ φ' → ∀ a b, RA φ' a b → Same h k φ' RB (f a) (g b)) : Same h k φ RB (x >>= f) (y >>= g) := by
  intro s t hst
  have h3 := h1 s t hst
  rw [bind_run, bind_run]
  cases hx : x s with
  | error e =>
    cases hy : y t with
    | error e' => rw [hx, hy] at h3; exact h3
    | ok r => rw [hx, hy] at h3; exact h3.elim
  | ok r =>
    cases hy : y t with
    | error e' => rw [hx, hy] at h3; exact h3.elim
    | ok r' =>
      rw [hx, hy] at h3
      obtain ⟨a, s1⟩ := r
      obtain ⟨b, t1⟩ := r'
      obtain ⟨φ', h4, h5, h6, h7⟩ := h3
      have h8 := h2 φ' h4 a b h6 s1 t1 h5
      dsimp only
      cases hf : f a s1 with
      | error e =>
        cases hg : g b t1 with
        | error e' => rw [hf, hg] at h8; exact h8
        | ok r => rw [hf, hg] at h8; exact h8.elim
      | ok r =>
        cases hg : g b t1 with
        | error e' => rw [hf, hg] at h8; exact h8.elim
        | ok r' =>
          rw [hf, hg] at h8
          obtain ⟨φ'', h9, h10, h11, h12⟩ := h8
          exact ⟨φ'', h4.trans h9, h10, h11, h7.trans h12⟩

theorem Same.ite {RA : Ren → α → β → Prop} {p : Prop} [Decidable p] {x x' : M K V α} {y y' : M K V β}
    (h1 : p → Same h k φ RA x y) (h2 : ¬ p → Same h k φ RA x' y') : Same h k φ RA (if p then x else x') (if p then y else y') := by
  split
  · exact h1 ‹_›
  · exact h2 ‹_›

theorem Same.imp {RA RB : Ren → α → β → Prop} {x : M K V α} {y : M K V β} (h1 : Same h k φ RA x y) (h2 : ∀ φ' a b, RA φ' a b → RB φ' a b) :
    Same h k φ RB x y := by
  intro s t hst
  have h3 := h1 s t hst
  cases hx : x s <;> cases hy : y t <;> rw [hx, hy] at h3
  · exact h3
  · exact h3.elim
  · exact h3.elim
  · obtain ⟨φ', h4, h5, h6, h7⟩ := h3
    exact ⟨φ', h4, h5, h2 _ _ _ h6, h7⟩

/-! ### Accesses -/

theorem Same.load {r q : Ref} (hr : RefR φ r q) : Same h k φ LinkR (load r : M K V Link) (load q) := by
  intro s t hst
  obtain ⟨r, i⟩ := r
  obtain ⟨q, j⟩ := q
  obtain ⟨h1, h2⟩ := hr
  simp only at h1 h2
  subst h2
  cases h1 with
  | nil => exact rfl
  | @blk a b hab =>
    obtain ⟨o, o', ho, ho', hr⟩ := hst.obj hab
    cases hr with
    | kv k v => simp only [Amt.load, ho, ho']; exact rfl
    | @links xs ys hl he =>
      simp only [Amt.load, ho, ho']
      cases hx : xs[i]? with
      | none =>
        have : ys[i]? = none := by rw [List.getElem?_eq_none_iff] at hx ⊢; omega
        rw [this]; exact rfl
      | some x =>
        cases hy : ys[i]? with
        | none => rw [List.getElem?_eq_none_iff] at hy; rw [List.getElem?_eq_some_iff] at hx; obtain ⟨h1, _⟩ := hx; omega
        | some y => exact ⟨φ, Ren.Le.refl φ, hst, he i x y hx hy, Fr.refl φ h s⟩

/-- Corresponding objects are replaced by corresponding ones. -/
theorem StR.put {s t : St K V} (hst : StR φ h k s t) {a b : Nat} (hab : φ a b) {o o' : Obj K V} (ho : ObjR φ o o') :
    StR φ h k { s with mem := fun x => if x = a then some o else s.mem x } { t with mem := fun x => if x = b then some o' else t.mem x } := by
  refine ⟨hst.fn, hst.inj, fun {x y} hxy => ?_, hst.lt, hst.root, hst.fields⟩
  simp only
  by_cases hx : x = a
  · subst hx
    rw [hst.fn hxy hab, if_pos rfl, if_pos rfl]
    exact ⟨o, o', rfl, rfl, ho⟩
  · have hy : y ≠ b := by rintro rfl; exact hx (hst.inj hxy hab)
    rw [if_neg hx, if_neg hy]
    exact hst.obj hxy

theorem Fr.put {s : St K V} {a b : Nat} (hab : φ a b) (o : Obj K V) : Fr φ φ h s { s with mem := fun x => if x = a then some o else s.mem x } := by
  refine ⟨Nat.le_refl _, fun x _ hx => ?_, fun _ _ => rfl, fun _ _ h => Or.inl h⟩
  simp only
  rw [if_neg]
  rintro rfl
  exact hx b hab

theorem Same.store {r q : Ref} (hr : RefR φ r q) {x y : Link} (hx : LinkR φ x y) : Same h k φ EqR (store r x : M K V Unit) (store q y) := by
  intro s t hst
  obtain ⟨r, i⟩ := r
  obtain ⟨q, j⟩ := q
  obtain ⟨h1, h2⟩ := hr
  simp only at h1 h2
  subst h2
  cases h1 with
  | nil => exact rfl
  | @blk a b hab =>
    obtain ⟨o, o', ho, ho', hr⟩ := hst.obj hab
    cases hr with
    | kv k v => simp only [Amt.store, ho, ho']; exact rfl
    | @links xs ys hl he =>
      simp only [Amt.store, ho, ho', ← hl]
      split
      · rename_i hi
        refine ⟨φ, Ren.Le.refl φ, hst.put hab (.links (by simp [hl]) fun j u v hu hv => ?_), rfl, Fr.put hab _⟩
        rw [List.getElem?_set] at hu hv
        by_cases hj : i = j
        · subst hj
          rw [if_pos rfl, if_pos hi] at hu
          rw [if_pos rfl, if_pos (by omega)] at hv
          cases hu; cases hv; exact hx
        · rw [if_neg hj] at hu hv
          exact he j u v hu hv
      · exact rfl

theorem Same.modLink {r q : Ref} (hr : RefR φ r q) {f g : Link → Link} (hf : ∀ φ', Ren.Le φ φ' → ∀ x y, LinkR φ' x y → LinkR φ' (f x) (g y)) :
    Same h k φ EqR (modLink r f : M K V Unit) (modLink q g) :=
  Same.bind (Same.load hr) fun φ' hle x y hxy => Same.store (hr.mono hle) (hf φ' hle x y hxy)

theorem Same.loadKv {p q : Ptr} (hp : PtrR φ p q) : Same h k φ EqR (loadKv p : M K V (Option K × V)) (loadKv q) := by
  intro s t hst
  cases hp with
  | nil => exact rfl
  | @blk a b hab =>
    obtain ⟨o, o', ho, ho', hr⟩ := hst.obj hab
    cases hr with
    | kv k v => simp only [Amt.loadKv, ho, ho']; exact ⟨φ, Ren.Le.refl φ, hst, rfl, Fr.refl φ h s⟩
    | links _ _ => simp only [Amt.loadKv, ho, ho']; exact rfl

theorem Same.storeVal {p q : Ptr} (hp : PtrR φ p q) (v : V) : Same h k φ EqR (storeVal p v : M K V Unit) (storeVal q v) := by
  intro s t hst
  cases hp with
  | nil => exact rfl
  | @blk a b hab =>
    obtain ⟨o, o', ho, ho', hr⟩ := hst.obj hab
    cases hr with
    | kv k v => simp only [Amt.storeVal, ho, ho']; exact ⟨φ, Ren.Le.refl φ, hst.put hab (.kv _ _), rfl, Fr.put hab _⟩
    | links _ _ => simp only [Amt.storeVal, ho, ho']; exact rfl

theorem Same.alloc {o o' : Obj K V} (ho : ObjR φ o o') : Same h k φ PtrR (alloc o : M K V Ptr) (alloc o') := by
  intro s t hst
  have hle : Ren.Le φ (fun a b => φ a b ∨ a = s.next ∧ b = t.next) := fun _ _ h => Or.inl h
  refine ⟨fun a b => φ a b ∨ a = s.next ∧ b = t.next, hle, ⟨?_, ?_, ?_, ?_, Or.inl hst.root, hst.fields⟩, .blk (Or.inr ⟨rfl, rfl⟩),
    ⟨Nat.le_succ _, fun a ha _ => by simp only; rw [if_neg (by omega)], fun _ _ => rfl, ?_⟩⟩
  · rintro a b b' (h1 | ⟨h1, h2⟩) (h3 | ⟨h3, h4⟩)
    · exact hst.fn h1 h3
    · have := (hst.lt h1).1; omega
    · have := (hst.lt h3).1; omega
    · omega
  · rintro a b b' (h1 | ⟨h1, h2⟩) (h3 | ⟨h3, h4⟩)
    · exact hst.inj h1 h3
    · have := (hst.lt h1).2; omega
    · have := (hst.lt h3).2; omega
    · omega
  · rintro a b (h1 | ⟨rfl, rfl⟩)
    · obtain ⟨h2, h3⟩ := hst.lt h1
      simp only
      rw [if_neg (by omega), if_neg (by omega)]
      obtain ⟨o, o', h4, h5, h6⟩ := hst.obj h1
      exact ⟨o, o', h4, h5, h6.mono hle⟩
    · simp only [if_true]
      exact ⟨o, o', rfl, rfl, ho.mono hle⟩
  · rintro a b (h1 | ⟨rfl, rfl⟩)
    · have := hst.lt h1
      simp only; omega
    · simp only; omega
  · rintro a b (h1 | ⟨rfl, rfl⟩)
    · exact Or.inl h1
    · exact Or.inr (Nat.le_refl _)

theorem Same.newLinkArray (n : Nat) : Same h k φ PtrR (newLinkArray n : M K V Ptr) (newLinkArray n) := by
  have key : ∀ m, ObjR (K := K) (V := V) φ (.links (List.replicate m {})) (.links (List.replicate m {})) := by
    intro m
    refine .links rfl fun i x y hx hy => ?_
    rw [List.getElem?_replicate] at hx hy
    split at hx
    · rw [if_pos ‹_›] at hy
      cases hx; cases hy
      exact ⟨.nil, rfl, rfl⟩
    · cases hx
  unfold Amt.newLinkArray
  exact Same.ite (fun _ => Same.alloc (key _)) fun _ => Same.ite (fun _ => Same.alloc (key _)) fun _ =>
    Same.ite (fun _ => Same.alloc (key _)) fun _ => Same.alloc (key _)

theorem Same.newKv (c : Cfg K) (key : K) (v : V) : Same h k φ PtrR (newKv c key v : M K V Ptr) (newKv c key v) := by
  unfold Amt.newKv
  split
  · exact Same.alloc (.kv _ _)
  · exact Same.alloc (.kv _ _)
  · exact Same.pure .nil

theorem Same.readKey (c : Cfg K) {x y : Link} (hx : LinkR φ x y) : Same h k φ EqR (readKey c x : M K V K) (readKey c y) := by
  unfold Amt.readKey
  rw [hx.pmap, hx.tmap]
  split
  · refine Same.bind (Same.loadKv hx.ptr) fun φ' hle a b hab => ?_
    cases hab
    split
    · exact Same.fail _
    · exact Same.pure rfl
  · split
    · exact Same.fail _
    · exact Same.pure rfl
  · split
    · exact Same.fail _
    · exact Same.pure rfl

theorem Same.getRoot : Same h k φ EqR (getRoot h : M K V Meta) (getRoot k) :=
  fun s t hst => ⟨φ, Ren.Le.refl φ, hst, hst.fields, Fr.refl φ h s⟩

theorem Same.modRoot (f : Meta → Meta) : Same h k φ EqR (modRoot h f : M K V Unit) (modRoot k f) := by
  intro s t hst
  refine ⟨φ, Ren.Le.refl φ, ⟨hst.fn, hst.inj, hst.obj, hst.lt, hst.root, ?_⟩, rfl, Nat.le_refl _, fun _ _ _ => rfl, ?_, fun _ _ h => Or.inl h⟩
  · simp only [if_true]; rw [hst.fields]
  · intro a ha; simp only; rw [if_neg ha]

theorem Same.liftE (x : Except Fault α) : Same h k φ EqR (liftE x : M K V α) (liftE x) := by
  intro s t hst
  unfold Amt.liftE
  cases x with
  | error e => exact rfl
  | ok a => exact ⟨φ, Ren.Le.refl φ, hst, rfl, Fr.refl φ h s⟩

/-! ### The search loop -/

theorem RefR.at {φ : Ren} {p q : Ptr} (i : Nat) (hp : PtrR φ p q) : RefR φ ⟨p, i⟩ ⟨q, i⟩ := ⟨hp, rfl⟩

/-- Corresponding path entries. -/
def StepR (φ : Ren) (x y : Nat × Option Ref) : Prop :=
  x.1 = y.1 ∧ match x.2, y.2 with
    | none, none => True
    | some r, some q => RefR φ r q
    | _, _ => False

theorem StepR.mono {φ φ' : Ren} (hle : Ren.Le φ φ') {x y : Nat × Option Ref} (hx : StepR φ x y) : StepR φ' x y := by
  obtain ⟨i, r⟩ := x
  obtain ⟨j, q⟩ := y
  refine ⟨hx.1, ?_⟩
  have := hx.2
  cases r <;> cases q <;> first | trivial | exact this.elim | exact this.mono hle

/-- Corresponding paths. -/
def PathR (φ : Ren) (p q : List (Nat × Option Ref)) : Prop :=
  p.length = q.length ∧ ∀ (i : Nat) x y, p[i]? = some x → q[i]? = some y → StepR φ x y

theorem PathR.mono {φ φ' : Ren} (hle : Ren.Le φ φ') {p q : List (Nat × Option Ref)} (hp : PathR φ p q) : PathR φ' p q :=
  ⟨hp.1, fun i x y hx hy => (hp.2 i x y hx hy).mono hle⟩

structure CurR (φ : Ren) (x y : Cur) : Prop where
  l : RefR φ x.l y.l
  d : x.d = y.d
  hd : x.hd = y.hd
  w : x.w = y.w
  path : PathR φ x.path y.path

theorem CurR.mono {φ φ' : Ren} (hle : Ren.Le φ φ') {x y : Cur} (hx : CurR φ x y) : CurR φ' x y :=
  ⟨hx.l.mono hle, hx.d, hx.hd, hx.w, hx.path.mono hle⟩

theorem PathR.snoc {p q : List (Nat × Option Ref)} (hp : PathR φ p q) {x y : Nat × Option Ref} (hx : StepR φ x y) : PathR φ (p ++ [x]) (q ++ [y]) := by
  refine ⟨by simp [hp.1], fun i u v hu hv => ?_⟩
  rw [List.getElem?_append] at hu hv
  rw [← hp.1] at hv
  split at hu
  · rw [if_pos ‹_›] at hv; exact hp.2 i u v hu hv
  · rw [if_neg ‹_›] at hv
    rw [List.getElem?_singleton] at hu hv
    split at hu
    · rw [if_pos ‹_›] at hv; cases hu; cases hv; exact hx
    · cases hu

theorem CurR.start (c : Cfg K) (sd : Seed) (key : K) (hr : φ h k) : CurR φ (start c sd key h) (start c sd key k) :=
  ⟨⟨.blk hr, rfl⟩, rfl, rfl, rfl, rfl, fun i x y hx => by simp [Amt.start] at hx⟩

theorem CurR.descend (c : Cfg K) (sd : Seed) (key : K) {x y : Cur} (hx : CurR φ x y) {r q : Ref} (hr : RefR φ r q) :
    CurR φ (descend c sd key x r) (descend c sd key y q) := by
  unfold Amt.descend
  rw [hx.d, hx.hd, hx.w]
  dsimp only
  split
  · exact ⟨hr, rfl, rfl, rfl, hx.path⟩
  · exact ⟨hr, rfl, rfl, rfl, hx.path⟩

/-- The results of the search loop. -/
def HitR (φ : Ren) (x y : Cur × Bool) : Prop := CurR φ x.1 y.1 ∧ x.2 = y.2

theorem Same.search (c : Cfg K) (sd : Seed) (key : K) (fuel : Nat) : ∀ {φ : Ren} {x y : Cur}, CurR φ x y →
    Same h k φ HitR (search c sd key fuel x : M K V (Cur × Bool)) (search c sd key fuel y) := by
  induction fuel with
  | zero => intro φ x y hx; exact Same.fail _
  | succ fuel ih =>
    intro φ x y hx
    unfold Amt.search
    refine Same.bind (Same.load hx.l) fun φ' hle a b hab => ?_
    have hx' := hx.mono hle
    rw [hab.pmap, hab.tmap, hx.hd]
    have hp : CurR φ' { x with hd := y.hd, path := x.path ++ [(radixOf y.hd, some x.l)] } { y with path := y.path ++ [(radixOf y.hd, some y.l)] } :=
      ⟨hx'.l, hx'.d, rfl, hx'.w, hx'.path.snoc ⟨rfl, hx'.l⟩⟩
    refine Same.ite (fun _ => Same.ite (fun _ => ?_) fun _ => Same.pure ⟨hp, rfl⟩) fun _ => Same.pure ⟨hx', rfl⟩
    exact ih (hp.descend c sd key (RefR.at _ (hab.ptr)))

theorem Same.itemRef {x y : Cur} (hx : CurR φ x y) : Same h k φ RefR (itemRef x : M K V Ref) (itemRef y) := by
  unfold Amt.itemRef
  refine Same.bind (Same.load hx.l) fun φ' hle a b hab => Same.pure ?_
  rw [hab.pmap, hx.hd]
  exact (RefR.at _ (hab.ptr))

/-- Optional pointers. -/
def OptPtrR (φ : Ren) : Option Ptr → Option Ptr → Prop
  | none, none => True
  | some p, some q => PtrR φ p q
  | _, _ => False

theorem Same.lookup (c : Cfg K) (hr : φ h k) (fuel : Nat) (key : K) :
    Same h k φ OptPtrR (lookup c h fuel key : M K V (Option Ptr)) (lookup c k fuel key) := by
  unfold Amt.lookup
  refine Same.bind Same.getRoot fun φ1 l1 r r' e => ?_
  cases e
  refine Same.bind (Same.search c _ key fuel (CurR.start c _ key (l1 _ _ hr))) fun φ2 l2 x y hxy => ?_
  obtain ⟨x, b⟩ := x
  obtain ⟨y, b'⟩ := y
  obtain ⟨h1, h2⟩ := hxy
  simp only at h1 h2
  subst h2
  refine Same.ite (fun _ => ?_) fun _ => Same.pure trivial
  refine Same.bind (Same.itemRef h1) fun φ3 l3 i j hij => Same.bind (Same.load hij) fun φ4 l4 u v huv => ?_
  refine Same.bind (Same.readKey c huv) fun φ5 l5 a b hab => ?_
  cases hab
  exact Same.ite (fun _ => Same.pure (huv.ptr.mono l5)) fun _ => Same.pure trivial

/-! ### Insertion -/

theorem LinkR.made (c : Cfg K) (key : K) {p q : Ptr} (hp : PtrR φ p q) : LinkR φ (mkLink c key p) (mkLink c key q) := ⟨hp, rfl, rfl⟩

theorem LinkR.put (c : Cfg K) (key : K) {x y : Link} (hxy : LinkR φ x y) {p q : Ptr} (hp : PtrR φ p q) :
    LinkR φ (putLink c key p x) (putLink c key q y) := by
  unfold putLink
  split
  · exact ⟨hp, by rw [hxy.pmap], by rw [hxy.tmap]⟩
  · exact .made c key hp

/-- A new cell and a result. -/
def CellR {R : Type} (φ : Ren) (x y : Ptr × R) : Prop := PtrR φ x.1 y.1 ∧ x.2 = y.2

/-- The hooks do the same on corresponding memories. -/
structure InsR {R : Type} (h k : Nat) (ins : Ins K V R) : Prop where
  hit : ∀ {φ : Ren} {p q : Ptr}, PtrR φ p q → Same h k φ EqR (ins.hit p) (ins.hit q)
  newSplit : ∀ {φ : Ren}, Same h k φ CellR ins.newSplit ins.newSplit
  newSlot : ∀ {φ : Ren}, Same h k φ CellR ins.newSlot ins.newSlot

theorem Same.split {R : Type} (c : Cfg K) (sd : Seed) (key ckey : K) {ins : Ins K V R} (hi : InsR h k ins) (fuel : Nat) :
    ∀ {φ : Ren} {p q : Ptr}, PtrR φ p q → ∀ {r r' : Ref}, RefR φ r r' → ∀ d hd chd w cw,
    Same h k φ EqR (split c sd h key ckey p ins fuel r d hd chd w cw) (split c sd k key ckey q ins fuel r' d hd chd w cw) := by
  induction fuel with
  | zero => intros; exact Same.fail _
  | succ fuel ih =>
    intro φ p q hp r r' hr d hd chd w cw
    unfold Amt.split
    dsimp only
    generalize (d + 1) % 256 = d1
    generalize (if d1 % 16 ≠ 0 then hd >>> 4 else c.digest sd key (w + 1) d1) = hd1
    generalize (if d1 % 16 ≠ 0 then chd >>> 4 else c.digest sd ckey (cw + 1) d1) = chd1
    generalize (if d1 % 16 ≠ 0 then w else w + 1) = w1
    generalize (if d1 % 16 ≠ 0 then cw else cw + 1) = cw1
    refine Same.bind (Same.modLink hr fun φ' _ x y hxy => ⟨hxy.ptr, rfl, hxy.tmap⟩) fun φ1 l1 _ _ _ => ?_
    refine Same.ite (fun _ => ?_) fun _ => ?_
    · refine Same.bind (Same.modLink (hr.mono l1) fun φ' _ x y hxy => ⟨hxy.ptr, hxy.pmap, hxy.pmap⟩) fun φ2 l2 _ _ _ => ?_
      refine Same.bind (Same.newLinkArray 2) fun φ3 l3 a a' ha => ?_
      have l13 := l1.trans (l2.trans l3)
      refine Same.bind (Same.modLink (hr.mono l13) fun φ' l x y hxy => ⟨ha.mono l, hxy.pmap, hxy.tmap⟩) fun φ4 l4 _ _ _ => ?_
      refine Same.bind hi.newSplit fun φ5 l5 x y hxy => ?_
      obtain ⟨x, rx⟩ := x
      obtain ⟨y, ry⟩ := y
      obtain ⟨h1, h2⟩ := hxy
      simp only at h1 h2
      subst h2
      have l15 := l13.trans (l4.trans l5)
      refine Same.bind (Same.load (hr.mono l15)) fun φ6 l6 u v huv => ?_
      have l16 := l15.trans l6
      have hk := h1.mono l6
      have hc := hp.mono l16
      refine Same.ite (fun _ => ?_) fun _ => ?_
      · refine Same.bind (Same.modLink (RefR.at _ (huv.ptr)) fun _ l _ _ hxy => hxy.put c key (hk.mono l)) fun φ7 l7 _ _ _ => ?_
        refine Same.bind (Same.modLink (RefR.at _ (huv.ptr.mono l7)) fun _ l _ _ hxy => hxy.put c ckey ((hc.mono l7).mono l)) fun φ8 l8 _ _ _ => ?_
        exact Same.bind (Same.modRoot _) fun φ9 l9 _ _ _ => Same.pure rfl
      · refine Same.bind (Same.modLink (RefR.at _ (huv.ptr)) fun _ l _ _ hxy => hxy.put c ckey (hc.mono l)) fun φ7 l7 _ _ _ => ?_
        refine Same.bind (Same.modLink (RefR.at _ (huv.ptr.mono l7)) fun _ l _ _ hxy => hxy.put c key ((hk.mono l7).mono l)) fun φ8 l8 _ _ _ => ?_
        exact Same.bind (Same.modRoot _) fun φ9 l9 _ _ _ => Same.pure rfl
    · refine Same.bind (Same.newLinkArray 1) fun φ2 l2 a a' ha => ?_
      refine Same.bind (Same.modLink (hr.mono (l1.trans l2)) fun φ' l x y hxy => ⟨ha.mono l, hxy.pmap, hxy.tmap⟩) fun φ3 l3 _ _ _ => ?_
      exact ih (hp.mono (l1.trans (l2.trans l3))) (RefR.at _ (ha.mono l3)) _ _ _ _ _

theorem Same.shiftUp (idx n : Nat) : ∀ {φ : Ren} {p q : Ptr}, PtrR φ p q →
    Same h k φ EqR (shiftUp p idx n : M K V Unit) (shiftUp q idx n) := by
  induction n with
  | zero => intros; exact Same.pure rfl
  | succ n ih =>
    intro φ p q hp
    unfold Amt.shiftUp
    refine Same.ite (fun _ => ?_) fun _ => Same.pure rfl
    refine Same.bind (Same.load (RefR.at _ (hp))) fun φ1 l1 x y hxy => ?_
    exact Same.bind (Same.store (RefR.at _ (hp.mono l1)) hxy) fun φ2 l2 _ _ _ => ih (hp.mono (l1.trans l2))

theorem Same.copyUp (doff soff n : Nat) : ∀ (i : Nat) {φ : Ren} {p q r u : Ptr}, PtrR φ p q → PtrR φ r u →
    Same h k φ EqR (copyUp p r doff soff n i : M K V Unit) (copyUp q u doff soff n i) := by
  induction n with
  | zero => intros; exact Same.pure rfl
  | succ n ih =>
    intro i φ p q r u hp hr
    unfold Amt.copyUp
    refine Same.bind (Same.load ⟨hr, rfl⟩) fun φ1 l1 x y hxy => ?_
    exact Same.bind (Same.store (RefR.at _ (hp.mono l1)) hxy) fun φ2 l2 _ _ _ => ih (i + 1) (hp.mono (l1.trans l2)) (hr.mono (l1.trans l2))

theorem Same.insertSlot {R : Type} (c : Cfg K) (key : K) {ins : Ins K V R} (hi : InsR h k ins) {x y : Cur} (hx : CurR φ x y) :
    Same h k φ EqR (insertSlot c h key ins x) (insertSlot c k key ins y) := by
  unfold Amt.insertSlot
  rw [hx.hd, hx.d]
  dsimp only
  refine Same.bind (Same.load hx.l) fun φ1 l1 a a' ha => ?_
  rw [ha.pmap]
  refine Same.bind hi.newSlot fun φ2 l2 u v huv => ?_
  obtain ⟨u, ru⟩ := u
  obtain ⟨v, rv⟩ := v
  obtain ⟨h1, h2⟩ := huv
  simp only at h1 h2
  subst h2
  have l12 := l1.trans l2
  refine Same.bind (Same.load (hx.l.mono l12)) fun φ3 l3 b b' hb => ?_
  have l13 := l12.trans l3
  rw [hb.pmap]
  have fin : ∀ {φ' : Ren}, Ren.Le φ φ' → Same h k φ' EqR
      (do Amt.modLink x.l fun x => { x with pmap := x.pmap ||| bitOf (radixOf y.hd), tmap := x.tmap ||| bitOf (radixOf y.hd) }
          Amt.modRoot h fun m => { m with len := m.len + 1, dep := m.dep + BitVec.ofNat 64 y.d }
          Pure.pure ru : M K V R)
      (do Amt.modLink y.l fun x => { x with pmap := x.pmap ||| bitOf (radixOf y.hd), tmap := x.tmap ||| bitOf (radixOf y.hd) }
          Amt.modRoot k fun m => { m with len := m.len + 1, dep := m.dep + BitVec.ofNat 64 y.d }
          Pure.pure ru) := by
    intro φ' l
    refine Same.bind (Same.modLink (hx.l.mono l) fun φ'' _ p q hpq => ⟨hpq.ptr, ?_, ?_⟩) fun φ4 l4 _ _ _ => ?_
    · simp only; rw [hpq.pmap]
    · simp only; rw [hpq.tmap]
    · exact Same.bind (Same.modRoot _) fun φ5 l5 _ _ _ => Same.pure rfl
  refine Same.ite (fun _ => ?_) fun _ => ?_
  · refine Same.bind (Same.shiftUp _ _ hb.ptr) fun φ4 l4 _ _ _ => ?_
    exact Same.bind (Same.store (RefR.at _ (hb.ptr.mono l4)) (.made c key (h1.mono (l3.trans l4)))) fun φ5 l5 _ _ _ => fin (l13.trans (l4.trans l5))
  · refine Same.bind (Same.newLinkArray _) fun φ4 l4 p q hpq => ?_
    refine Same.bind (Same.modLink (hx.l.mono (l13.trans l4)) fun φ'' l u v huv => ⟨hpq.mono l, huv.pmap, huv.tmap⟩) fun φ5 l5 _ _ _ => ?_
    refine Same.bind (Same.copyUp _ _ _ _ (hpq.mono l5) (hb.ptr.mono (l4.trans l5))) fun φ6 l6 _ _ _ => ?_
    refine Same.bind (Same.store (RefR.at _ (hpq.mono (l5.trans l6))) (.made c key (h1.mono (l3.trans (l4.trans (l5.trans l6)))))) fun φ7 l7 _ _ _ => ?_
    refine Same.bind (Same.copyUp _ _ _ _ (hpq.mono (l5.trans (l6.trans l7))) (hb.ptr.mono (l4.trans (l5.trans (l6.trans l7))))) fun φ8 l8 _ _ _ => ?_
    exact fin (l13.trans (l4.trans (l5.trans (l6.trans (l7.trans l8)))))

theorem PtrR.kept (c : Cfg K) {φ : Ren} {p q : Ptr} (h : PtrR φ p q) : PtrR φ (c.kept p) (c.kept q) := by
  unfold Cfg.kept
  split
  · exact .nil
  · exact h

theorem Same.conflict {R : Type} (c : Cfg K) (sd : Seed) (fuel : Nat) (key : K) {ins : Ins K V R} (hi : InsR h k ins) {x y : Cur} (hx : CurR φ x y) :
    Same h k φ EqR (conflict c sd h fuel key ins x) (conflict c sd k fuel key ins y) := by
  unfold Amt.conflict
  refine Same.bind (Same.itemRef hx) fun φ1 l1 i j hij => ?_
  refine Same.bind (Same.load hij) fun φ2 l2 u v huv => ?_
  refine Same.bind (Same.readKey c huv) fun φ3 l3 a b hab => ?_
  cases hab
  have l13 := l1.trans (l2.trans l3)
  refine Same.ite (fun _ => hi.hit (huv.ptr.mono l3)) fun _ => ?_
  rw [hx.d, hx.hd, hx.w]
  refine Same.bind (Same.liftE _) fun φ4 l4 r r' e => ?_
  cases e
  obtain ⟨chd, cw⟩ := r
  refine Same.ite (fun _ => ?_) fun _ => ?_
  · refine Same.bind hi.newSlot fun φ5 l5 u v huv => ?_
    obtain ⟨u, ru⟩ := u
    obtain ⟨v, rv⟩ := v
    obtain ⟨h1, h2⟩ := huv
    simp only at h1 h2
    subst h2
    exact Same.bind (Same.modLink (hij.mono (l2.trans (l3.trans (l4.trans l5)))) fun φ' l p q hpq => ⟨h1.mono l, hpq.pmap, hpq.tmap⟩)
      fun φ6 l6 _ _ _ => Same.pure rfl
  · refine Same.bind (Same.modLink (hx.l.mono (l13.trans l4)) fun φ' l p q hpq => ⟨hpq.ptr, hpq.pmap, by simp only; rw [hpq.tmap]⟩) fun φ5 l5 _ _ _ => ?_
    refine Same.bind (Same.modRoot _) fun φ6 l6 _ _ _ => ?_
    exact Same.split c sd key _ hi fuel (PtrR.kept c <| huv.ptr.mono (l3.trans (l4.trans (l5.trans l6)))) (hij.mono (l2.trans (l3.trans (l4.trans (l5.trans l6))))) _ _ _ _ _

theorem Same.upsert {R : Type} (c : Cfg K) (hr : φ h k) (fuel : Nat) (key : K) {ins : Ins K V R} (hi : InsR h k ins) :
    Same h k φ EqR (upsert c h fuel key ins) (upsert c k fuel key ins) := by
  unfold Amt.upsert
  refine Same.bind Same.getRoot fun φ1 l1 r r' e => ?_
  cases e
  refine Same.bind (Same.search c _ key fuel (CurR.start c _ key (l1 _ _ hr))) fun φ2 l2 x y hxy => ?_
  obtain ⟨x, b⟩ := x
  obtain ⟨y, b'⟩ := y
  obtain ⟨h1, h2⟩ := hxy
  simp only at h1 h2
  subst h2
  exact Same.ite (fun _ => Same.conflict c _ fuel key hi h1) fun _ => Same.insertSlot c key hi h1

/-! ### Deletion -/

/-- An entry of the path. -/
def EntryR (φ : Ren) (x y : Nat × Ref) : Prop := x.1 = y.1 ∧ RefR φ x.2 y.2

theorem Same.pathAt {p q : List (Nat × Option Ref)} (hp : PathR φ p q) (d : Nat) : Same h k φ EntryR (pathAt p d : M K V (Nat × Ref)) (pathAt q d) := by
  unfold Amt.pathAt
  cases hx : p[d]? with
  | none =>
    have : q[d]? = none := by rw [List.getElem?_eq_none_iff] at hx ⊢; rw [← hp.1]; exact hx
    rw [this]; exact Same.fail _
  | some x =>
    cases hy : q[d]? with
    | none =>
      rw [List.getElem?_eq_none_iff] at hy
      rw [List.getElem?_eq_some_iff] at hx
      obtain ⟨h1, _⟩ := hx
      have := hp.1
      omega
    | some y =>
      have h1 := hp.2 d x y hx hy
      obtain ⟨i, r⟩ := x
      obtain ⟨j, q⟩ := y
      obtain ⟨h2, h3⟩ := h1
      simp only at h2
      subst h2
      cases r <;> cases q <;> first | exact Same.fail _ | exact h3.elim | exact Same.pure ⟨rfl, h3⟩

theorem PathR.clear {p q : List (Nat × Option Ref)} (hp : PathR φ p q) (d : Nat) : PathR φ (pathClear p d) (pathClear q d) := by
  unfold pathClear
  refine ⟨by simp [hp.1], fun i x y hx hy => ?_⟩
  rw [List.getElem?_modify] at hx hy
  cases hu : p[i]? with
  | none => rw [hu] at hx; split at hx <;> cases hx
  | some u =>
    cases hv : q[i]? with
    | none => rw [hv] at hy; split at hy <;> cases hy
    | some v =>
      have h1 := hp.2 i u v hu hv
      rw [hu] at hx
      rw [hv] at hy
      by_cases hd : d = i
      · simp only [hd, if_true, Option.map_eq_map, Option.map_some, Option.some.injEq] at hx hy
        subst hx; subst hy
        exact ⟨h1.1, trivial⟩
      · simp only [hd, if_false, Option.map_eq_map, Option.map_some, Option.some.injEq] at hx hy
        subst hx; subst hy
        exact h1

theorem Same.collapse (d : Nat) : ∀ {φ : Ren} {p q : List (Nat × Option Ref)} {r u : Ref}, PathR φ p q → RefR φ r u → ∀ count,
    Same h k φ EqR (collapse h d p r count : M K V Unit) (collapse k d q u count) := by
  induction d with
  | zero => intros; exact Same.pure rfl
  | succ d ih =>
    intro φ p q r u hp hr count
    unfold Amt.collapse
    refine Same.bind (Same.load hr) fun φ1 l1 x y hxy => ?_
    rw [hxy.pmap, hxy.tmap]
    refine Same.ite (fun _ => ?_) fun _ => Same.pure rfl
    refine Same.bind (Same.load (RefR.at _ (hxy.ptr))) fun φ2 l2 a b hab => ?_
    have l12 := l1.trans l2
    refine Same.bind (Same.store (hr.mono l12) hab) fun φ3 l3 _ _ _ => ?_
    refine Same.bind (Same.modRoot _) fun φ4 l4 _ _ _ => ?_
    have l14 := l12.trans (l3.trans l4)
    refine Same.bind (Same.pathAt (hp.mono l14) d) fun φ5 l5 e e' he => ?_
    obtain ⟨i, e⟩ := e
    obtain ⟨j, e'⟩ := e'
    obtain ⟨h1, h2⟩ := he
    simp only at h1 h2
    subst h1
    refine Same.bind (Same.modLink h2 fun φ' l p q hpq => ⟨hpq.ptr, hpq.pmap, by simp only; rw [hpq.tmap]⟩) fun φ6 l6 _ _ _ => ?_
    refine Same.bind (Same.load (h2.mono l6)) fun φ7 l7 p q hpq => ?_
    rw [hpq.pmap]
    exact ih ((hp.mono (l14.trans (l5.trans (l6.trans l7)))).clear d) (h2.mono (l6.trans l7)) _

theorem Same.shiftBack (d : Nat) {r u : Ref} (hr : RefR φ r u) (idx count : Nat) :
    Same h k φ EqR (shiftBack d r idx count : M K V Unit) (shiftBack d u idx count) := by
  unfold Amt.shiftBack
  refine Same.bind (Same.load hr) fun φ1 l1 x y hxy => ?_
  refine Same.ite (fun _ => ?_) fun _ => Same.copyUp _ _ _ _ hxy.ptr hxy.ptr
  refine Same.bind (Same.newLinkArray _) fun φ2 l2 p q hpq => ?_
  refine Same.bind (Same.modLink (hr.mono (l1.trans l2)) fun φ' l u v huv => ⟨hpq.mono l, huv.pmap, huv.tmap⟩) fun φ3 l3 _ _ _ => ?_
  refine Same.bind (Same.copyUp _ _ _ _ (hpq.mono l3) (hxy.ptr.mono (l2.trans l3))) fun φ4 l4 _ _ _ => ?_
  exact Same.copyUp _ _ _ _ (hpq.mono (l3.trans l4)) (hxy.ptr.mono (l2.trans (l3.trans l4)))

theorem Same.unlink (d : Nat) : ∀ {φ : Ren} {p q : List (Nat × Option Ref)} {r u : Ref}, PathR φ p q → RefR φ r u → ∀ idx count,
    Same h k φ EqR (unlink h d p r idx count : M K V Unit) (unlink k d q u idx count) := by
  induction d with
  | zero =>
    intro φ p q r u hp hr idx count
    unfold Amt.unlink
    exact Same.bind (Same.shiftBack 0 hr _ _) fun φ1 l1 _ _ _ => Same.collapse 0 (hp.mono l1) (hr.mono l1) _
  | succ d ih =>
    intro φ p q r u hp hr idx count
    unfold Amt.unlink
    refine Same.ite (fun _ => ?_) fun _ => ?_
    · refine Same.bind (Same.modLink hr fun φ' _ x y hxy => ⟨.nil, hxy.pmap, hxy.tmap⟩) fun φ1 l1 _ _ _ => ?_
      refine Same.bind (Same.pathAt (hp.mono l1) d) fun φ2 l2 e e' he => ?_
      obtain ⟨i, e⟩ := e
      obtain ⟨j, e'⟩ := e'
      obtain ⟨h1, h2⟩ := he
      simp only at h1 h2
      subst h1
      refine Same.bind (Same.load h2) fun φ3 l3 x y hxy => ?_
      rw [hxy.pmap]
      refine Same.bind (Same.modLink (h2.mono l3) fun φ' l p q hpq => ⟨hpq.ptr, by simp only; rw [hpq.pmap], by simp only; rw [hpq.tmap]⟩)
        fun φ4 l4 _ _ _ => ?_
      refine Same.bind (Same.load (h2.mono (l3.trans l4))) fun φ5 l5 p q hpq => ?_
      rw [hpq.pmap]
      exact ih ((hp.mono (l1.trans (l2.trans (l3.trans (l4.trans l5))))).clear d) (h2.mono (l3.trans (l4.trans l5))) _ _
    · exact Same.bind (Same.shiftBack _ hr _ _) fun φ1 l1 _ _ _ => Same.collapse _ (hp.mono l1) (hr.mono l1) _

theorem Same.remove (c : Cfg K) (skip : Bool → Bool) (key : K) {x y : Cur} (hx : CurR φ x y) :
    Same h k φ EqR (remove c h skip key x : M K V Unit) (remove c k skip key y) := by
  unfold Amt.remove
  refine Same.bind (Same.itemRef hx) fun φ1 l1 i j hij => ?_
  refine Same.bind (Same.load hij) fun φ2 l2 u v huv => ?_
  refine Same.bind (Same.readKey c huv) fun φ3 l3 a b hab => ?_
  cases hab
  have l13 := l1.trans (l2.trans l3)
  refine Same.ite (fun _ => Same.pure rfl) fun _ => ?_
  refine Same.bind (Same.load (hx.l.mono l13)) fun φ4 l4 p q hpq => ?_
  have l14 := l13.trans l4
  rw [hpq.pmap, hx.hd, hx.d]
  refine Same.bind (Same.modLink (hx.l.mono l14) fun φ' l p q hpq => ⟨hpq.ptr, by simp only; rw [hpq.pmap], by simp only; rw [hpq.tmap]⟩)
    fun φ5 l5 _ _ _ => ?_
  refine Same.bind (Same.modRoot _) fun φ6 l6 _ _ _ => ?_
  have l16 := l14.trans (l5.trans l6)
  refine Same.bind (Same.load (hx.l.mono l16)) fun φ7 l7 p q hpq => ?_
  rw [hpq.pmap]
  exact Same.unlink _ ((hx.path.mono (l16.trans l7)).clear _) (hx.l.mono (l16.trans l7)) _ _

theorem Same.delete (c : Cfg K) (hr : φ h k) (fuel : Nat) (skip : Bool → Bool) (key : K) :
    Same h k φ EqR (delete c h fuel skip key : M K V Unit) (delete c k fuel skip key) := by
  unfold Amt.delete
  refine Same.bind Same.getRoot fun φ1 l1 r r' e => ?_
  cases e
  refine Same.bind (Same.search c _ key fuel (CurR.start c _ key (l1 _ _ hr))) fun φ2 l2 x y hxy => ?_
  obtain ⟨x, b⟩ := x
  obtain ⟨y, b'⟩ := y
  obtain ⟨h1, h2⟩ := hxy
  simp only at h1 h2
  subst h2
  exact Same.ite (fun _ => Same.remove c skip key h1) fun _ => Same.pure rfl

/-! ### Iteration -/

theorem Same.scanItems {U : Type} {visit : U → Link → M K V (U × Bool)} {rec rec' : U → Ref → M K V (U × Bool)}
    (hv : ∀ {φ : Ren} u {x y}, LinkR φ x y → Same h k φ EqR (visit u x) (visit u y))
    (hrec : ∀ {φ : Ren} u {x y}, RefR φ x y → Same h k φ EqR (rec u x) (rec' u y)) (tm : BitVec 32) (n : Nat) :
    ∀ {φ : Ren} {l l' : Ref}, RefR φ l l' → ∀ i pm u,
      Same h k φ EqR (scanItems visit rec l tm n i pm u) (scanItems visit rec' l' tm n i pm u) := by
  induction n with
  | zero => intros; exact Same.pure rfl
  | succ n ih =>
    intro φ l l' hl i pm u
    unfold Amt.scanItems
    dsimp only
    refine Same.bind (Same.load hl) fun φ1 l1 x y hxy => ?_
    have fin : ∀ {φ' : Ren}, Ren.Le φ φ' → ∀ r : U × Bool, Same h k φ' EqR
        (if r.2 = true then Amt.scanItems visit rec l tm n (i + 1) (pm &&& ~~~bitOf (trailingZeros pm)) r.1 else Pure.pure (r.1, false))
        (if r.2 = true then Amt.scanItems visit rec' l' tm n (i + 1) (pm &&& ~~~bitOf (trailingZeros pm)) r.1 else Pure.pure (r.1, false)) :=
      fun hle r => Same.ite (fun _ => ih (hl.mono hle) _ _ _) fun _ => Same.pure rfl
    split
    · refine Same.bind (Same.load (RefR.at _ (hxy.ptr))) fun φ2 l2 a b hab => ?_
      refine Same.bind (hv u hab) fun φ3 l3 r r' e => ?_
      cases e
      exact fin (l1.trans (l2.trans l3)) r
    · refine Same.bind (hrec u (RefR.at _ (hxy.ptr))) fun φ2 l2 r r' e => ?_
      cases e
      exact fin (l1.trans l2) r

theorem Same.scan {U : Type} {visit : U → Link → M K V (U × Bool)}
    (hv : ∀ {φ : Ren} u {x y}, LinkR φ x y → Same h k φ EqR (visit u x) (visit u y)) (fuel : Nat) :
    ∀ {φ : Ren} u {l l' : Ref}, RefR φ l l' → Same h k φ EqR (scan visit fuel u l) (scan visit fuel u l') := by
  induction fuel with
  | zero => intros; exact Same.fail _
  | succ fuel ih =>
    intro φ u l l' hl
    unfold Amt.scan
    refine Same.bind (Same.load hl) fun φ1 l1 x y hxy => ?_
    rw [hxy.pmap, hxy.tmap]
    exact Same.scanItems hv ih _ _ (hl.mono l1) _ _ _

theorem Same.visitMap {U : Type} (c : Cfg K) (f : U → K → V → U × V × Bool) (u : U) {x y : Link} (hx : LinkR φ x y) :
    Same h k φ EqR (visitMap c f u x) (visitMap c f u y) := by
  unfold Amt.visitMap
  refine Same.bind (Same.readKey c hx) fun φ1 l1 a b e => ?_
  cases e
  refine Same.bind (Same.loadKv (hx.ptr.mono l1)) fun φ2 l2 p q e => ?_
  cases e
  exact Same.bind (Same.storeVal (hx.ptr.mono (l1.trans l2)) _) fun φ3 l3 _ _ _ => Same.pure rfl

theorem Same.visitSet {U : Type} (c : Cfg K) (f : U → K → U × Bool) (u : U) {x y : Link} (hx : LinkR φ x y) :
    Same h k φ EqR (visitSet c f u x : M K V (U × Bool)) (visitSet c f u y) := by
  unfold Amt.visitSet
  refine Same.bind (Same.readKey c hx) fun φ1 l1 a b e => ?_
  cases e
  exact Same.pure rfl

end

end Amt
