/-
How many accesses to memory a whole history makes (C92).
-/
import Verif.PropsCostHist
import Verif.ParProg

set_option linter.unusedVariables false
set_option linter.unusedSectionVars false

namespace Spec
open Amt

section
variable {K V : Type} [DecidableEq K]

/-- The most accesses to memory that a call makes if the keys `ks` are stored. -/
def MOp.accesses (H : K → Nat → BitVec 64) (ks : List K) : MOp K V → Nat
  | .get k => 10 + 13 * levels H ks k
  | .val k => 10 + 13 * levels H ks k
  | .ptr k => 10 + 13 * levels H ks k
  | .write k _ => 10 + 13 * levels H ks k
  | .set k _ => 900 + 21 * levels H (if k ∈ ks then ks else k :: ks) k
  | .mod k _ => 902 + 21 * levels H (if k ∈ ks then ks else k :: ks) k
  | .del k => 700 + 52 * levels H ks k
  | .len => 1
  | .dep => 1
  | .all _ => 6 + 14 * ks.length + 5 * depthSum H ks

/-- The sum over a sequence of calls. -/
def accesses (H : K → Nat → BitVec 64) : List K → List (MOp K V) → Nat
  | _, [] => 0
  | ks, op :: ops => op.accesses H ks + accesses H (op.after ks) ops

/-- As `accesses`, for sets; `inv` as in `elemsAfterX`. -/
noncomputable def accessesX (H : K → Nat → BitVec 64) (inv : Bool) : List K → List (SOp K) → Nat
  | _, [] => 0
  | ks, op :: ops => op.asMap.accesses H ks + accessesX H inv (op.afterX H inv ks) ops

/-- The keys that a call is given. -/
def MOp.given : MOp K V → List K
  | .get k => [k]
  | .val k => [k]
  | .ptr k => [k]
  | .write k _ => [k]
  | .set k _ => [k]
  | .mod k _ => [k]
  | .del k => [k]
  | _ => []

def MOp.isAll : MOp K V → Bool
  | .all _ => true
  | _ => false

theorem accesses_append (H : K → Nat → BitVec 64) (ops : List (MOp K V)) (op : MOp K V) :
    ∀ ks, accesses H ks (ops ++ [op]) = accesses H ks ops + op.accesses H (keysAfter ks ops) := by
  induction ops with
  | nil => intro ks; simp [accesses, keysAfter]
  | cons o ops ih => intro ks; simp only [List.cons_append, accesses, ih, keysAfter, List.foldl_cons]; omega

theorem accessesX_append (H : K → Nat → BitVec 64) (inv : Bool) (ops : List (SOp K)) (op : SOp K) :
    ∀ ks, accessesX H inv ks (ops ++ [op]) = accessesX H inv ks ops + op.asMap.accesses H (elemsAfterX H inv ks ops) := by
  induction ops with
  | nil => intro ks; simp [accessesX, elemsAfterX]
  | cons o ops ih => intro ks; simp only [List.cons_append, accessesX, ih, elemsAfterX, List.foldl_cons]; omega

theorem accessesX_false (H : K → Nat → BitVec 64) (ops : List (SOp K)) : ∀ ks, accessesX H false ks ops = accesses H ks (ops.map SOp.asMap) := by
  induction ops with
  | nil => intro ks; rfl
  | cons op ops ih =>
    intro ks
    have : op.afterX H false ks = op.after ks := by cases op <;> rfl
    rw [accessesX, List.map_cons, accesses, SOp.after_asMap, ih, this]

end

end Spec

namespace Amt.Par
open Amt Spec

section
variable {K V : Type}

/-- A sequence of calls, as `Go.MapCode.run`. -/
def MapTree.run [Inhabited V] (G : MapTree K V) (n : Nat) (m : Handle) : List PathLink → List (MOp K V) → T K V (List (MOut K V))
  | _, [] => pure []
  | path, op :: ops => G.exec n m path op >>= fun r => MapTree.run G n m r.2 ops >>= fun os => pure (r.1 :: os)

/-- A new map, and calls on it, as `Go.MapCode.session`. -/
def MapTree.session [Inhabited V] (G : MapTree K V) (n : Nat) (sd : Seed) (ops : List (MOp K V)) : T K V (Handle × List (MOut K V)) :=
  New sd >>= fun m => G.run n m blank ops >>= fun os => pure (m, os)

/-- A sequence of calls, as `Go.SetCode.run`. -/
def SetTree.run (G : SetTree K) (n : Nat) (m : Handle) : List PathLink → List (SOp K) → T K Unit (List (SOut K))
  | _, [] => pure []
  | path, op :: ops => G.exec n m path op >>= fun r => SetTree.run G n m r.2 ops >>= fun os => pure (r.1 :: os)

/-- A new set, and calls on it, as `Go.SetCode.session`. -/
def SetTree.session (G : SetTree K) (n : Nat) (sd : Seed) (ops : List (SOp K)) : T K Unit (Handle × List (SOut K)) :=
  New sd >>= fun m => G.run n m blank ops >>= fun os => pure (m, os)

theorem MapTree.Of.run [Inhabited V] {G : MapTree K V} {C : Go.MapCode K V} (h : G.Of C) (n : Nat) (m : Handle) (ops : List (MOp K V)) :
    ∀ path, Den (G.run n m path ops) (C.run n m path ops) := by
  induction ops with
  | nil => intro path; exact Den.pure _
  | cons op ops ih => intro path; exact Den.bind (h.exec n m path op) fun r => Den.bind (ih _) fun _ => Den.pure _

theorem MapTree.Of.session [Inhabited V] {G : MapTree K V} {C : Go.MapCode K V} (h : G.Of C) (n : Nat) (sd : Seed) (ops : List (MOp K V)) :
    Den (G.session n sd ops) (C.session n sd ops) :=
  Den.bind (New_den sd) fun m => Den.bind (h.run n m ops _) fun _ => Den.pure _

theorem SetTree.Of.run {G : SetTree K} {C : Go.SetCode K} (h : G.Of C) (n : Nat) (m : Handle) (ops : List (SOp K)) :
    ∀ path, Den (G.run n m path ops) (C.run n m path ops) := by
  induction ops with
  | nil => intro path; exact Den.pure _
  | cons op ops ih => intro path; exact Den.bind (h.exec n m path op) fun r => Den.bind (ih _) fun _ => Den.pure _

theorem SetTree.Of.session {G : SetTree K} {C : Go.SetCode K} (h : G.Of C) (n : Nat) (sd : Seed) (ops : List (SOp K)) :
    Den (G.session n sd ops) (C.session n sd ops) :=
  Den.bind (New_den sd) fun m => Den.bind (h.run n m ops _) fun _ => Den.pure _

theorem cost_map {α β : Type} (w : Price) (t : T K V α) (f : α → β) (s : St K V) : (t >>= fun x => pure (f x)).cost w s = t.cost w s := by
  rw [T.cost_bind]
  cases t.denote s with
  | error e => rfl
  | ok r => rfl

theorem New_cost (sd : Seed) (s : St K V) : (New sd : T K V Handle).cost Price.access s ≤ 4 := by
  refine T.Pays.cost (Φ := fun _ => 0) (p := 4) ?_ s
  refine ⟨by decide, fun x => ?_⟩
  cases x with
  | nil => trivial
  | blk h => exact ⟨by decide, by decide, fun q => ⟨by decide, Nat.zero_le _⟩⟩

end

section
variable {K V : Type} [Inhabited V] {G : MapTree K V} {C : Go.MapCode K V} {I : MapImpl K V} {GS : SetTree K} {CS : Go.SetCode K} {IS : SetImpl K}

theorem exec_keeps (hG : Go.Mirrors C I) {h n : Nat} {path : List PathLink} {op : MOp K V} {s s' : St K V} {r} (hp : path.length = 12) (hs : Go.Tidy s)
    (e : C.exec n (some h) path op s = .ok (r, s')) : r.2.length = 12 ∧ Go.Tidy s' := by
  have := (Go.exec_between hG h n path op s hp hs).hi
  rw [e] at this
  have := this.resolve_left (by simp)
  cases h1 : Go.lateExec I h (n + 301) op s with
  | error e => rw [h1] at this; exact this.elim
  | ok y => rw [h1] at this; exact this.2.2

theorem execS_keeps (hG : Go.SetMirrors CS IS) {h n : Nat} {path : List PathLink} {op : SOp K} {s s' : St K Unit} {r} (hp : path.length = 12) (hs : Go.Tidy s)
    (e : CS.exec n (some h) path op s = .ok (r, s')) : r.2.length = 12 ∧ Go.Tidy s' := by
  have := (Go.execS_between hG h n path op s hp hs).hi
  rw [e] at this
  have := this.resolve_left (by simp)
  cases h1 : Go.lateExecS IS h (n + 301) op s with
  | error e => rw [h1] at this; exact this.elim
  | ok y => rw [h1] at this; exact this.2.2

/-- The cost of the last call comes on top. -/
theorem run_cost (hG : Go.Mirrors C I) (hD : G.Of C) {h n B : Nat} {op : MOp K V} (w : Price) : ∀ {ops : List (MOp K V)} {path : List PathLink} {s : St K V},
    path.length = 12 → Go.Tidy s →
    (∀ os s₁ path', path'.length = 12 → C.run n (some h) path ops s = .ok (os, s₁) → (G.exec n (some h) path' op).cost w s₁ ≤ B) →
    (G.run n (some h) path (ops ++ [op])).cost w s ≤ (G.run n (some h) path ops).cost w s + B := by
  intro ops
  induction ops with
  | nil =>
    intro path s hp hs hB
    have h1 := hB [] s path hp rfl
    rw [List.nil_append, MapTree.run]
    refine Nat.le_trans (T.cost_bind_le (b := 0) h1 fun x s => Nat.le_refl 0) ?_
    omega
  | cons o ops ih =>
    intro path s hp hs hB
    rw [List.cons_append, MapTree.run, MapTree.run, T.cost_bind, T.cost_bind]
    cases e1 : (G.exec n (some h) path o).denote s with
    | error e => exact Nat.le_add_right _ _
    | ok y =>
      obtain ⟨r, s'⟩ := y
      rw [(hD.exec n (some h) path o).eq] at e1
      obtain ⟨h1, h2⟩ := exec_keeps hG hp hs e1
      dsimp only
      rw [cost_map, cost_map]
      have h3 := ih h1 h2 fun os s₁ path' hp' e2 => hB (r.1 :: os) s₁ path' hp' (by
        rw [Go.MapCode.run, bind_ok e1, bind_ok e2]
        rfl)
      omega

theorem runS_cost (hG : Go.SetMirrors CS IS) (hD : GS.Of CS) {h n B : Nat} {op : SOp K} (w : Price) : ∀ {ops : List (SOp K)} {path : List PathLink} {s : St K Unit},
    path.length = 12 → Go.Tidy s →
    (∀ os s₁ path', path'.length = 12 → CS.run n (some h) path ops s = .ok (os, s₁) → (GS.exec n (some h) path' op).cost w s₁ ≤ B) →
    (GS.run n (some h) path (ops ++ [op])).cost w s ≤ (GS.run n (some h) path ops).cost w s + B := by
  intro ops
  induction ops with
  | nil =>
    intro path s hp hs hB
    have h1 := hB [] s path hp rfl
    rw [List.nil_append, SetTree.run]
    refine Nat.le_trans (T.cost_bind_le (b := 0) h1 fun x s => Nat.le_refl 0) ?_
    omega
  | cons o ops ih =>
    intro path s hp hs hB
    rw [List.cons_append, SetTree.run, SetTree.run, T.cost_bind, T.cost_bind]
    cases e1 : (GS.exec n (some h) path o).denote s with
    | error e => exact Nat.le_add_right _ _
    | ok y =>
      obtain ⟨r, s'⟩ := y
      rw [(hD.exec n (some h) path o).eq] at e1
      obtain ⟨h1, h2⟩ := execS_keeps hG hp hs e1
      dsimp only
      rw [cost_map, cost_map]
      have h3 := ih h1 h2 fun os s₁ path' hp' e2 => hB (r.1 :: os) s₁ path' hp' (by
        rw [Go.SetCode.run, bind_ok e1, bind_ok e2]
        rfl)
      omega

end

section
variable {K V : Type} [DecidableEq K] [Inhabited V] {G : MapTree K V} {C : Go.MapCode K V} {I : MapImpl K V} {GS : SetTree K} {CS : Go.SetCode K} {IS : SetImpl K}

/-- What a single call makes, after a history. -/
theorem exec_cost {sd : Seed} {H : K → Nat → BitVec 64} {P : Bool → List K → K → Prop} {lossy : V → V} {ex : Prop} {n : Nat}
    (hA : MapAll G C I) (hc : MapContainer I sd H P lossy ex) (hex : ex) {ops : List (MOp K V)} {op : MOp K V} (h1 : EachNew P [] ops)
    (hP : ∀ k ∈ op.stores, k ∉ keysAfter [] ops → P op.isMod (keysAfter [] ops) k) (hn : 256 ≤ n) {s s₁ : St K V} (hs : Go.Tidy s) {os : List (MOut K V)}
    {path : List PathLink} (hp : path.length = 12) (e2 : C.session n sd ops s = .ok ((some s.next, os), s₁)) :
    (G.exec n (some s.next) path op).cost Price.access s₁ ≤ op.accesses H (keysAfter [] ops) := by
  obtain ⟨_, _, _, f1, f2⟩ := C85_map hA hc hex h1 hn hs
  rw [e2] at f1
  cases f1
  have val : ∀ p (s : St K V), (kvVal p : T K V V).cost Price.access s ≤ 1 := fun p s =>
    T.Pays.cost (Φ := fun _ => 0) (p := 1) (show T.Pays Price.access (kvVal p) 1 _ from ⟨by decide, fun _ => Nat.zero_le _⟩) s
  have stv : ∀ p v (s : St K V), (storeVal p v : T K V Unit).cost Price.access s ≤ 1 := fun p v s =>
    T.Pays.cost (Φ := fun _ => 0) (p := 1) (show T.Pays Price.access (storeVal p v) 1 _ from ⟨by decide, Nat.zero_le _⟩) s
  have root : ∀ {α : Type} (f : Meta → α) (s : St K V) (a : Nat), (getRoot a >>= fun r => pure (f r) : T K V α).cost Price.access s ≤ 1 := fun f s a =>
    T.Pays.cost (Φ := fun _ => 0) (p := 1) (show T.Pays Price.access (getRoot a >>= fun r => pure (f r)) 1 _ from ⟨by decide, fun _ => Nat.zero_le _⟩) s
  cases op with
  | get k => exact T.cost_bind_le (b := 0) (f2 k).2.1 fun _ _ => Nat.le_refl 0
  | val k => exact T.cost_bind_le (b := 0) (f2 k).2.2.1 fun _ _ => Nat.le_refl 0
  | ptr k =>
    refine Nat.le_trans (T.cost_bind_le (b := 1) (f2 k).1 fun p s => ?_) (by show _ ≤ 10 + 13 * levels H (keysAfter [] ops) k; omega)
    split
    · exact Nat.zero_le _
    · exact T.cost_bind_le (b := 0) (val p s) fun _ _ => Nat.le_refl 0
  | write k v =>
    refine Nat.le_trans (T.cost_bind_le (b := 1) (f2 k).1 fun p s => ?_) (by show _ ≤ 10 + 13 * levels H (keysAfter [] ops) k; omega)
    split
    · exact Nat.zero_le _
    · exact T.cost_bind_le (b := 0) (stv p v s) fun _ _ => Nat.le_refl 0
  | set k v =>
    obtain ⟨_, _, _, g1, g2⟩ := C87_map hA hc hex h1 hn hs
    rw [e2] at g1
    cases g1
    have := (g2 k v (hP k (List.mem_singleton.2 rfl))).1
    rw [show keysAfter [] (ops ++ [.set k v]) = if k ∈ keysAfter [] ops then keysAfter [] ops else k :: keysAfter [] ops by
      rw [keysAfter, List.foldl_append]; rfl] at this
    exact T.cost_bind_le (b := 0) this fun _ _ => Nat.le_refl 0
  | mod k f =>
    obtain ⟨_, _, _, g1, g2⟩ := C87_mod hA hc hex h1 hn hs
    rw [e2] at g1
    cases g1
    have := (g2 k f (hP k (List.mem_singleton.2 rfl))).1
    rw [show keysAfter [] (ops ++ [.mod k f]) = if k ∈ keysAfter [] ops then keysAfter [] ops else k :: keysAfter [] ops by
      rw [keysAfter, List.foldl_append]; rfl] at this
    exact T.cost_bind_le (b := 0) this fun _ _ => Nat.le_refl 0
  | del k => exact T.cost_bind_le (b := 0) ((f2 k).2.2.2 path hp) fun _ _ => Nat.le_refl 0
  | len =>
    refine T.cost_bind_le (b := 0) (a := 1) (f := fun l => pure (MOut.num l, path)) ?_ fun _ _ => Nat.le_refl 0
    exact root _ _ _
  | dep =>
    refine T.cost_bind_le (b := 0) (a := 1) (f := fun q => pure (MOut.rat q, path)) ?_ fun _ _ => Nat.le_refl 0
    refine T.Pays.cost (Φ := fun _ => 0) (p := 1) ?_ s₁
    refine ⟨by decide, fun x => ?_⟩
    exact Pays.ite (fun _ => Nat.zero_le _) (fun _ => Nat.zero_le _)
  | all f =>
    obtain ⟨_, _, _, l, g1, _, _, g2, g3⟩ := C89_map hA hc hex h1 hn hs
    rw [e2] at g1
    cases g1
    have := g3 (allCb f) [] 2 (fun u k p s => allCb_cost f u k p s) (fun u k p => Keeps.allCb f u k p)
    refine Nat.le_trans (T.cost_bind_le (b := 0) this fun _ _ => Nat.le_refl 0) ?_
    show _ ≤ 6 + 14 * (keysAfter [] ops).length + 5 * depthSum H (keysAfter [] ops)
    omega

/-- C92.  A history, with the creation of the container, makes at most four accesses to memory and those that `accesses` gives: `10 + 13 L` for a call
that looks for a key, `700 + 52 L` for `Del`, `900 + 21 L` for `Set` and `902 + 21 L` for `Mod`, `L` being the number of levels, and for `All` a multiple
of the number of keys and one of the sum of their depths.  The tree `G.session` is the history as accesses. -/
theorem C92_map {sd : Seed} {H : K → Nat → BitVec 64} {P : Bool → List K → K → Prop} {lossy : V → V} {ex : Prop} {n : Nat}
    (hA : MapAll G C I) (hc : MapContainer I sd H P lossy ex) (hex : ex) {ops : List (MOp K V)} (h : EachNew P [] ops) (hn : 256 ≤ n)
    {s : St K V} (hs : Go.Tidy s) :
    (∃ r, (G.session n sd ops).denote s = .ok r ∧ C.session n sd ops s = .ok r) ∧ (G.session n sd ops).cost Price.access s ≤ 4 + accesses H [] ops := by
  have hD := hA.tree.of
  have hG := hA.code.mirrors
  refine ⟨?_, ?_⟩
  · obtain ⟨m, os, s₁, e, e'⟩ := C90_map_after hA hc h hn hs
    exact ⟨_, by rw [(hD.session n sd ops).eq]; exact e, e⟩
  obtain ⟨s', e0⟩ : ∃ s', (newRoot sd : M K V Handle) s = .ok (some s.next, s') := ⟨_, rfl⟩
  have hs' : Go.Tidy s' := Go.newRoot_neat sd _ _ _ hs e0
  have hrun : (G.run n (some s.next) blank ops).cost Price.access s' ≤ accesses H [] ops := by
    revert h
    induction ops using snoc_induction with
    | nil => intro _; exact Nat.le_refl _
    | snoc ops op ih =>
      intro h
      obtain ⟨h1, hP⟩ := EachNew.split h
      rw [accesses_append]
      refine Nat.le_trans (run_cost hG hD Price.access (by simp [blank]) hs' (B := op.accesses H (keysAfter [] ops)) ?_) (Nat.add_le_add_right (ih h1) _)
      intro os s₁ path hp e1
      have e2 : C.session n sd ops s = .ok ((some s.next, os), s₁) := by
        rw [Go.MapCode.session, bind_ok e0, bind_ok e1]
        rfl
      exact exec_cost hA hc hex h1 hP hn hs hp e2
  rw [MapTree.session, T.cost_bind, (New_den sd).eq, e0]
  dsimp only
  rw [cost_map]
  exact Nat.add_le_add (New_cost sd s) hrun

/-- As `exec_cost`, for sets. -/
theorem execS_cost {sd : Seed} {H : K → Nat → BitVec 64} {P : List K → K → Prop} {inv : Bool} {ex : Prop} {n : Nat}
    (hA : SetAll GS CS IS) (hc : SetContainer IS sd H P inv ex) (hex : ex) {ops : List (SOp K)} {op : SOp K} (h1 : SEachNew H inv P [] ops)
    (hP : ∀ k ∈ op.stores, k ∉ elemsAfterX H inv [] ops → P (elemsAfterX H inv [] ops) k) (hn : 256 ≤ n) {s s₁ : St K Unit} (hs : Go.Tidy s) {os : List (SOut K)}
    {path : List PathLink} (hp : path.length = 12) (e2 : CS.session n sd ops s = .ok ((some s.next, os), s₁)) :
    (GS.exec n (some s.next) path op).cost Price.access s₁ ≤ op.asMap.accesses H (elemsAfterX H inv [] ops) := by
  obtain ⟨_, _, _, f1, f2⟩ := C85_set hA hc hex h1 hn hs
  rw [e2] at f1
  cases f1
  cases op with
  | has k => exact Nat.le_trans (T.cost_bind_le (b := 0) (f2 k).1 fun _ _ => Nat.le_refl 0) (by
      show _ ≤ 10 + 13 * levels H (elemsAfterX H inv [] ops) k; omega)
  | add k =>
    obtain ⟨_, _, _, g1, g2⟩ := C87_set hA hc hex h1 hn hs
    rw [e2] at g1
    cases g1
    have := (g2 k (hP k (List.mem_singleton.2 rfl))).1
    rw [show elemsAfterX H inv [] (ops ++ [.add k]) = if k ∈ elemsAfterX H inv [] ops then elemsAfterX H inv [] ops else k :: elemsAfterX H inv [] ops by
      rw [elemsAfterX, List.foldl_append]; rfl] at this
    exact T.cost_bind_le (b := 0) this fun _ _ => Nat.le_refl 0
  | del k => exact T.cost_bind_le (b := 0) ((f2 k).2 path hp) fun _ _ => Nat.le_refl 0
  | len =>
    refine T.cost_bind_le (b := 0) (a := 1) (f := fun l => pure (SOut.num l, path)) ?_ fun _ _ => Nat.le_refl 0
    refine T.Pays.cost (Φ := fun _ => 0) (p := 1) ?_ s₁
    exact ⟨by decide, fun x => Nat.zero_le _⟩
  | dep =>
    refine T.cost_bind_le (b := 0) (a := 1) (f := fun q => pure (SOut.rat q, path)) ?_ fun _ _ => Nat.le_refl 0
    refine T.Pays.cost (Φ := fun _ => 0) (p := 1) ?_ s₁
    refine ⟨by decide, fun x => ?_⟩
    exact Pays.ite (fun _ => Nat.zero_le _) (fun _ => Nat.zero_le _)
  | all f =>
    obtain ⟨_, _, _, l, g1, _, _, g2, g3⟩ := C89_set hA hc hex h1 hn hs
    rw [e2] at g1
    cases g1
    have := g3 (allCbS f) [] 0 (fun u k s => Nat.le_refl 0) (fun u k => Keeps.ret _)
    refine Nat.le_trans (T.cost_bind_le (b := 0) this fun _ _ => Nat.le_refl 0) ?_
    show _ ≤ 6 + 14 * (elemsAfterX H inv [] ops).length + 5 * depthSum H (elemsAfterX H inv [] ops)
    omega

/-- C92 for sets. -/
theorem C92_set {sd : Seed} {H : K → Nat → BitVec 64} {P : List K → K → Prop} {inv : Bool} {ex : Prop} {n : Nat}
    (hA : SetAll GS CS IS) (hc : SetContainer IS sd H P inv ex) (hex : ex) {ops : List (SOp K)} (h : SEachNew H inv P [] ops) (hn : 256 ≤ n)
    {s : St K Unit} (hs : Go.Tidy s) :
    (∃ r, (GS.session n sd ops).denote s = .ok r ∧ CS.session n sd ops s = .ok r) ∧ (GS.session n sd ops).cost Price.access s ≤ 4 + accessesX H inv [] ops := by
  have hD := hA.tree.of
  have hG := hA.code.mirrors
  refine ⟨?_, ?_⟩
  · obtain ⟨m, os, s₁, e, e'⟩ := C90_set_after hA hc h hn hs
    exact ⟨_, by rw [(hD.session n sd ops).eq]; exact e, e⟩
  obtain ⟨s', e0⟩ : ∃ s', (newRoot sd : M K Unit Handle) s = .ok (some s.next, s') := ⟨_, rfl⟩
  have hs' : Go.Tidy s' := Go.newRoot_neat sd _ _ _ hs e0
  have hrun : (GS.run n (some s.next) blank ops).cost Price.access s' ≤ accessesX H inv [] ops := by
    revert h
    induction ops using snoc_induction with
    | nil => intro _; exact Nat.le_refl _
    | snoc ops op ih =>
      intro h
      obtain ⟨h1, hP⟩ := SEachNew.split h
      rw [accessesX_append]
      refine Nat.le_trans (runS_cost hG hD Price.access (by simp [blank]) hs' (B := op.asMap.accesses H (elemsAfterX H inv [] ops)) ?_)
        (Nat.add_le_add_right (ih h1) _)
      intro os s₁ path hp e1
      have e2 : CS.session n sd ops s = .ok ((some s.next, os), s₁) := by
        rw [Go.SetCode.session, bind_ok e0, bind_ok e1]
        rfl
      exact execS_cost hA hc hex h1 hP hn hs hp e2
  rw [SetTree.session, T.cost_bind, (New_den sd).eq, e0]
  dsimp only
  rw [cost_map]
  exact Nat.add_le_add (New_cost sd s) hrun

theorem le_std {W : Type} {c m L : Nat} {Ω : List W} (hm : m ≤ 256) {a b : Nat} (ha : a ≤ 902) (hb : b ≤ 52) :
    (Ω.length : Rat) * (a + b * (1 + depthBound c m L)) ≤ Ω.length * (902 + 52 * (1 + depthBound c m L)) := by
  have h0 : (0 : Rat) ≤ Ω.length := by exact_mod_cast Nat.zero_le _
  have h1 := depthBound_nonneg (c := c) (L := L) (Ω := Ω) hm
  have h2 : (a : Rat) ≤ 902 := by exact_mod_cast ha
  have h3 : (b : Rat) ≤ 52 := by exact_mod_cast hb
  have h4 : (0 : Rat) ≤ Ω.length * (1 + depthBound c m L) := by grind
  have h5 := Rat.mul_le_mul_of_nonneg_left h2 h0
  have h6 := Rat.mul_le_mul_of_nonneg_left h3 h4
  grind

theorem op_accesses_avg {W : Type} {c m L : Nat} {Ω : List W} {H : W → K → Nat → BitVec 64} {U : List K} (hsp : Spread c m Ω H U) (hL : L ≤ m) (hm : m ≤ 256)
    (op : MOp K V) (ha : op.isAll = false) {ks : List K} (hn : ks.Nodup) (hU : ∀ x ∈ ks, x ∈ U) (hop : ∀ x ∈ op.given, x ∈ U) (hN : ks.length ≤ 16 ^ L) :
    ((Ω.map fun w => op.accesses (H w) ks).sum : Rat) ≤ Ω.length * (902 + 52 * (1 + depthBound c m L)) := by
  have old : ∀ k ∈ U, ∀ {a b : Nat}, a ≤ 902 → b ≤ 52 →
      ((Ω.map fun w => a + b * levels (H w) ks k).sum : Rat) ≤ Ω.length * (902 + 52 * (1 + depthBound c m L)) := fun k hk a b ha hb =>
    Rat.le_trans (mean_of (List.Sublist.refl Ω) hn (spread_sub hsp fun x hx => by
      rcases List.mem_cons.1 hx with rfl | hx
      · exact hk
      · exact hU x hx) (Nat.le_trans (List.length_filter_le _ _) hN) hL hm fun w _ => Nat.le_refl _) (le_std hm ha hb)
  have new : ∀ k ∈ U, ∀ {a b : Nat}, a ≤ 902 → b ≤ 52 →
      ((Ω.map fun w => a + b * levels (H w) (if k ∈ ks then ks else k :: ks) k).sum : Rat) ≤ Ω.length * (902 + 52 * (1 + depthBound c m L)) := fun k hk a b ha hb => by
    by_cases h : k ∈ ks
    · simp only [if_pos h]; exact old k hk ha hb
    · simp only [if_neg h]
      exact Rat.le_trans (mean_of (List.Sublist.refl Ω) (List.nodup_cons.2 ⟨h, hn⟩) (spread_sub hsp fun x hx => by
        simp only [List.mem_cons] at hx
        rcases hx with rfl | rfl | hx
        · exact hk
        · exact hk
        · exact hU x hx)
        (by rw [List.filter_cons_of_neg (by simp)]; exact Nat.le_trans (List.length_filter_le _ _) hN) hL hm fun w _ => Nat.le_refl _) (le_std hm ha hb)
  have one : ((Ω.map fun _ => 1).sum : Nat) ≤ (Ω.length : Rat) * (902 + 52 * (1 + depthBound c m L)) := by
    have := le_std (c := c) (L := L) (Ω := Ω) hm (a := 1) (b := 0) (by decide) (by decide)
    rw [sum_const, Nat.one_mul]
    have e0 : ((0 : Nat) : Rat) = 0 := rfl
    have e1 : ((1 : Nat) : Rat) = 1 := rfl
    rw [e0, e1] at this
    grind
  have hop' : ∀ {k}, op.given = [k] → k ∈ U := fun h => hop _ (by rw [h]; exact List.mem_singleton.2 rfl)
  cases op with
  | get k => exact old k (hop' rfl) (by decide) (by decide)
  | val k => exact old k (hop' rfl) (by decide) (by decide)
  | ptr k => exact old k (hop' rfl) (by decide) (by decide)
  | write k v => exact old k (hop' rfl) (by decide) (by decide)
  | set k v => exact new k (hop' rfl) (by decide) (by decide)
  | mod k f => exact new k (hop' rfl) (by decide) (by decide)
  | del k => exact old k (hop' rfl) (by decide) (by decide)
  | len => exact one
  | dep => exact one
  | all => cases ha

theorem accesses_avg {W : Type} {c m L : Nat} {Ω : List W} {H : W → K → Nat → BitVec 64} {U : List K} (hsp : Spread c m Ω H U) (hL : L ≤ m) (hm : m ≤ 256) :
    ∀ (ops : List (MOp K V)) {ks : List K}, ks.Nodup → (∀ x ∈ ks, x ∈ U) → (∀ op ∈ ops, op.isAll = false ∧ ∀ x ∈ op.given, x ∈ U) →
      (∀ i, (keysAfter ks (ops.take i)).length ≤ 16 ^ L) →
      ((Ω.map fun w => accesses (H w) ks ops).sum : Rat) ≤ Ω.length * (ops.length * (902 + 52 * (1 + depthBound c m L))) := by
  intro ops
  induction ops with
  | nil =>
    intro ks _ _ _ _
    simp only [accesses, sum_const, List.length_nil, Nat.zero_mul]
    have e : ((0 : Nat) : Rat) = 0 := rfl
    rw [e]
    grind
  | cons op ops ih =>
    intro ks hn hU hst hN
    obtain ⟨ha, hg⟩ := hst op List.mem_cons_self
    have h1 := op_accesses_avg hsp hL hm op ha hn hU hg (hN 0)
    have h2 := ih (ks := op.after ks) (nodup_keysAfter hn [op]) (fun x hx => by
        have : x ∈ ks ∨ x ∈ op.given := by
          cases op <;> simp only [MOp.after, MOp.given] at hx ⊢ <;> first
            | exact Or.inl hx
            | exact Or.inl (List.mem_filter.1 hx).1
            | (split at hx
               · exact Or.inl hx
               · rcases List.mem_cons.1 hx with rfl | hx
                 · exact Or.inr (List.mem_singleton.2 rfl)
                 · exact Or.inl hx)
        rcases this with h | h
        · exact hU x h
        · exact hg x h)
      (fun o ho => hst o (List.mem_cons_of_mem _ ho)) (fun i => hN (i + 1))
    simp only [accesses, sum_add, List.length_cons, Rat.natCast_add] at h1 h2 ⊢
    have e1 : ((1 : Nat) : Rat) = 1 := rfl
    rw [e1]
    grind

/-- C92 on average: a history of `N` calls other than `All`, which never stores more than `16^L` keys, makes on average at most
`4 + N (902 + 52 (1 + depthBound c m L))` accesses over a family of hash functions that spreads the keys: a number of the order of the number of calls
times the logarithm of the number of keys. -/
theorem C92_map_mean {W : Type} {c m L n : Nat} {Ω cov : List W} {G : W → MapTree K V} {C : W → Go.MapCode K V} {I : W → MapImpl K V} {sd : W → Seed}
    {H : W → K → Nat → BitVec 64} {P : W → Bool → List K → K → Prop} {lossy : V → V} {ex : Prop} (hA : ∀ w, MapAll (G w) (C w) (I w))
    (hc : ∀ w, MapContainer (I w) (sd w) (H w) (P w) lossy ex) (hex : ex) {ops : List (MOp K V)} (hcov : cov.Sublist Ω)
    (h : ∀ w ∈ cov, EachNew (P w) [] ops) {U : List K} (hU : ∀ op ∈ ops, op.isAll = false ∧ ∀ x ∈ op.given, x ∈ U) (hsp : Spread c m Ω H U)
    (hN : ∀ i, (keysAfter [] (ops.take i)).length ≤ 16 ^ L) (hL : L ≤ m) (hm : m ≤ 256) (hn : 256 ≤ n) {s : W → St K V} (hs : ∀ w, Go.Tidy (s w)) :
    ((cov.map fun w => ((G w).session n (sd w) ops).cost Price.access (s w)).sum : Rat) ≤ Ω.length * (4 + ops.length * (902 + 52 * (1 + depthBound c m L))) := by
  have h1 : (cov.map fun w => ((G w).session n (sd w) ops).cost Price.access (s w)).sum ≤ (Ω.map fun w => 4 + accesses (H w) [] ops).sum :=
    Nat.le_trans (sum_le_sum fun w hw => (C92_map (hA w) (hc w) hex (h w hw) hn (hs w)).2) (sum_sublist hcov _)
  rw [sum_add, sum_const] at h1
  have h2 := Rat.natCast_le_natCast.2 h1
  have h3 := accesses_avg hsp hL hm ops (ks := []) (by simp) (by simp) hU hN
  rw [Rat.natCast_add, Rat.natCast_mul] at h2
  have e : ((4 : Nat) : Rat) = 4 := rfl
  rw [e] at h2
  grind

/-- C92 on average for sets whose `Del` does what it should. -/
theorem C92_set_mean {W : Type} {c m L n : Nat} {Ω cov : List W} {G : W → SetTree K} {C : W → Go.SetCode K} {I : W → SetImpl K} {sd : W → Seed}
    {H : W → K → Nat → BitVec 64} {P : W → List K → K → Prop} {ex : Prop} (hA : ∀ w, SetAll (G w) (C w) (I w))
    (hc : ∀ w, SetContainer (I w) (sd w) (H w) (P w) false ex) (hex : ex) {ops : List (SOp K)} (hcov : cov.Sublist Ω)
    (h : ∀ w ∈ cov, SEachNew (H w) false (P w) [] ops) {U : List K} (hU : ∀ op ∈ ops, op.asMap.isAll = false ∧ ∀ x ∈ op.asMap.given, x ∈ U) (hsp : Spread c m Ω H U)
    (hN : ∀ i, (elemsAfter [] (ops.take i)).length ≤ 16 ^ L) (hL : L ≤ m) (hm : m ≤ 256) (hn : 256 ≤ n) {s : W → St K Unit} (hs : ∀ w, Go.Tidy (s w)) :
    ((cov.map fun w => ((G w).session n (sd w) ops).cost Price.access (s w)).sum : Rat) ≤ Ω.length * (4 + ops.length * (902 + 52 * (1 + depthBound c m L))) := by
  have h1 : (cov.map fun w => ((G w).session n (sd w) ops).cost Price.access (s w)).sum ≤ (Ω.map fun w => 4 + accesses (H w) [] (ops.map SOp.asMap)).sum :=
    Nat.le_trans (sum_le_sum fun w hw => by
      have := (C92_set (hA w) (hc w) hex (h w hw) hn (hs w)).2
      rwa [accessesX_false] at this) (sum_sublist hcov _)
  rw [sum_add, sum_const] at h1
  have h2 := Rat.natCast_le_natCast.2 h1
  have h3 := accesses_avg hsp hL hm (ops.map SOp.asMap) (ks := []) (by simp) (by simp)
    (fun o ho => by obtain ⟨op, hop, rfl⟩ := List.mem_map.1 ho; exact hU op hop)
    (fun i => by rw [← List.map_take, keysAfter_asMap]; exact hN i)
  rw [List.length_map] at h3
  rw [Rat.natCast_add, Rat.natCast_mul] at h2
  have e : ((4 : Nat) : Rat) = 4 := rfl
  rw [e] at h2
  grind

end

/-! ### Instances -/

example := C92_map (MapAll.string (V := Nat) toyHash) (MapContainer.string (V := Nat) toyHash 0#64) trivial exOps_str (Nat.le_refl 256) Go.init_tidy
example := C92_map (MapAll.bytes (V := Nat) toyHash) (MapContainer.bytes (V := Nat) toyHash 0#64) trivial exOps_str (Nat.le_refl 256) Go.init_tidy
example := C92_set (SetAll.string toyHash) (SetContainer.string toyHash 0#64) trivial exOpsS_str (Nat.le_refl 256) Go.init_tidy

/-- What the bound is for this history. -/
example : accesses (byteStream toyHash 0#64 id) [] (exOps strKey) = 7305 := by decide +kernel

/-- A history without `All`, covered for every seed of a family. -/
def noAll : List (MOp (List UInt8) Nat) := (exOps strKey).filter fun op => !op.isAll && !op.given.contains (strKey 0x41)

def noAllS : List (SOp (List UInt8)) := (exOpsS strKey).filter fun op => !op.asMap.isAll && !op.asMap.given.contains (strKey 0x41)

theorem affine_noAll : ∀ sd ∈ exSeeds, EachNew (fun _ => ByteFits (byteStream affineHash sd id)) [] noAll := by
  have : exSeeds.all (fun sd => decide (EachNew (fun _ => Soon (byteStream affineHash sd id)) [] noAll)) = true := by
    decide +kernel
  exact fun sd h => EachNew.mono (fun _ _ _ => Soon.fits) (of_decide_eq_true (List.all_eq_true.1 this sd h))

theorem affine_noAllS : ∀ sd ∈ exSeeds,
    SEachNew (byteStream affineHash sd id) false (ByteFits (byteStream affineHash sd id)) [] noAllS := by
  have : exSeeds.all (fun sd => decide (SEachNew' (Soon (byteStream affineHash sd id)) [] noAllS)) = true := by
    decide +kernel
  exact fun sd h => SEachNew'.toX _ (SEachNew'.mono (fun _ _ => Soon.fits) (of_decide_eq_true (List.all_eq_true.1 this sd h)))

example := C92_map_mean (c := 1) (m := 1) (L := 1) (fun sd => MapAll.string (V := Nat) affineHash) (fun sd => MapContainer.string (V := Nat) affineHash sd) trivial
  (List.Sublist.refl exSeeds) affine_noAll
  (by decide +kernel : ∀ op ∈ noAll, op.isAll = false ∧ ∀ x ∈ op.given, x ∈ strKey 0x12 :: keysAfter [] (exOps strKey)) spread_affine
  (take_few (by decide)) (by decide) (by decide) (Nat.le_refl 256) (s := fun _ => St.init) fun _ => Go.init_tidy

example := C92_set_mean (c := 1) (m := 1) (L := 1) (fun sd => SetAll.string affineHash) (fun sd => SetContainer.string affineHash sd) trivial
  (List.Sublist.refl exSeeds) affine_noAllS
  (by decide +kernel : ∀ op ∈ noAllS, op.asMap.isAll = false ∧ ∀ x ∈ op.asMap.given, x ∈ strKey 0x12 :: keysAfter [] (exOps strKey)) spread_affine
  (fun i => by
    rw [← keysAfter_asMap, List.map_take]
    exact take_few (by decide) i) (by decide) (by decide) (Nat.le_refl 256) (s := fun _ => St.init) fun _ => Go.init_tidy

end Amt.Par
