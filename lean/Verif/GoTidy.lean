/-
Memories in which no chain of links leads back to where it started.  Every operation keeps them so.  The translated programs read `l.ptr` again
in each iteration of the loops that move items; here is why that makes no difference.  Used only in proofs.
-/
import Verif.GoLoop

set_option linter.unusedVariables false
set_option linter.unusedSectionVars false

namespace Amt.Go
open Amt

section
variable {K V α β R : Type}

/-- There is an array of links at `b`. -/
def IsL (s : St K V) (b : Nat) : Prop := ∃ xs, s.mem b = some (.links xs)

/-- A link with pointer `q` may be stored at `p`. -/
def Up (rk : Nat → Nat) (s : St K V) (p q : Ptr) : Prop :=
  ∀ b, q = .blk b → b < s.next ∧ (IsL s b → ∀ a, p = .blk a → rk a < rk b)

/-- Every array points to arrays of higher rank only. -/
structure Ranked (rk : Nat → Nat) (s : St K V) : Prop where
  fits : ∀ a, s.next ≤ a → s.mem a = none
  up : ∀ a xs x, s.mem a = some (.links xs) → x ∈ xs → Up rk s (.blk a) x.ptr

/-- See the head of this file. -/
def Tidy (s : St K V) : Prop := ∃ rk, Ranked rk s

/-- `x` keeps the memory tidy. -/
def Neat {α : Type} (x : M K V α) : Prop := ∀ s a t, Tidy s → run x s = .ok (a, t) → Tidy t

/-- From `s` to `t` the links have changed, the kinds of the objects have not. -/
structure Step (rk : Nat → Nat) (s t : St K V) : Prop where
  rank : Ranked rk t
  next : t.next = s.next
  isL : ∀ b, IsL t b ↔ IsL s b

theorem Step.refl {rk : Nat → Nat} {s : St K V} (h : Ranked rk s) : Step rk s s := ⟨h, rfl, fun _ => Iff.rfl⟩

theorem Step.trans {rk : Nat → Nat} {s t u : St K V} (h : Step rk s t) (h' : Step rk t u) : Step rk s u :=
  ⟨h'.rank, h'.next.trans h.next, fun b => (h'.isL b).trans (h.isL b)⟩

theorem Up.step {rk : Nat → Nat} {s t : St K V} (h : Step rk s t) {p q : Ptr} (hu : Up rk s p q) : Up rk t p q := by
  intro b hb
  obtain ⟨h1, h2⟩ := hu b hb
  exact ⟨by rw [h.next]; exact h1, fun hl => h2 ((h.isL b).1 hl)⟩

theorem Up.nil {rk : Nat → Nat} {s : St K V} {p : Ptr} : Up rk s p .nil := fun b hb => by cases hb

theorem Up.kept (c : Cfg K) {rk : Nat → Nat} {s : St K V} {p q : Ptr} (h : Up rk s p q) : Up rk s p (c.kept q) := by
  unfold Cfg.kept
  split
  · exact Up.nil
  · exact h

/-- A bind that succeeds. -/
theorem ok_bind {x : M K V α} {f : α → M K V β} {s : St K V} {r : β × St K V} (h : run (x >>= f) s = .ok r) :
    ∃ a t, run x s = .ok (a, t) ∧ run (f a) t = .ok r := by
  rw [run_bind] at h
  cases hx : run x s with
  | error e => rw [hx] at h; cases h
  | ok p => rw [hx] at h; exact ⟨p.1, p.2, rfl, h⟩

theorem ok_pure {a : α} {s : St K V} {r : α × St K V} (h : run (pure a : M K V α) s = .ok r) : r = (a, s) := by
  cases h; rfl

/-! ### Accesses -/

/-- A load that succeeds. -/
theorem load_inv {r : Ref} {s t : St K V} {x : Link} (h : run (load r) s = .ok (x, t)) :
    t = s ∧ ∃ b xs, r.base = .blk b ∧ s.mem b = some (.links xs) ∧ xs[r.idx]? = some x := by
  refine ⟨run_load_state h, ?_⟩
  unfold run load at h
  cases hb : r.base with
  | nil => rw [hb] at h; cases h
  | blk b =>
    rw [hb] at h
    dsimp only at h
    cases hm : s.mem b with
    | none => rw [hm] at h; cases h
    | some o =>
      rw [hm] at h
      cases o with
      | kv k v => cases h
      | links xs =>
        dsimp only at h
        cases hx : xs[r.idx]? with
        | none => rw [hx] at h; cases h
        | some y => rw [hx] at h; cases h; exact ⟨b, xs, rfl, hm, hx⟩

/-- The memory after a store. -/
def put (s : St K V) (r : Ref) (x : Link) : St K V :=
  match r.base with
  | .nil => s
  | .blk b => { s with mem := fun a => if a = b then (match s.mem b with | some (.links xs) => some (.links (xs.set r.idx x)) | o => o) else s.mem a }

theorem store_run {r : Ref} {s : St K V} {y : Link} (h : run (load r) s = .ok (y, s)) (x : Link) : run (store r x) s = .ok ((), put s r x) := by
  obtain ⟨-, b, xs, h1, h2, h3⟩ := load_inv h
  unfold run store put
  rw [h1]
  simp only [h2]
  rw [if_pos (List.getElem?_eq_some_iff.1 h3).1]

theorem store_err {r : Ref} {s : St K V} {e : Fault} (h : run (load r) s = .error e) (x : Link) : run (store r x) s = .error e := by
  unfold run load at h
  unfold run store
  split <;> simp_all
  split <;> simp_all
  split <;> simp_all

/-- A store that succeeds. -/
theorem store_inv {r : Ref} {s t : St K V} {x : Link} {u : Unit} (h : run (store r x) s = .ok (u, t)) :
    t = put s r x ∧ ∃ y, run (load r) s = .ok (y, s) := by
  unfold run store at h
  cases hb : r.base with
  | nil => rw [hb] at h; cases h
  | blk b =>
    rw [hb] at h
    dsimp only at h
    cases hm : s.mem b with
    | none => rw [hm] at h; cases h
    | some o =>
      rw [hm] at h
      cases o with
      | kv k v => cases h
      | links xs =>
        dsimp only at h
        split at h
        · next hlt =>
          cases h
          have hl : run (load (K := K) (V := V) r) s = .ok (xs[r.idx], s) := by
            unfold run load
            rw [hb]
            simp only [hm, List.getElem?_eq_getElem hlt]
          refine ⟨?_, _, hl⟩
          unfold put
          rw [hb]
          simp only [hm]
        · cases h

theorem put_mem {r : Ref} {s : St K V} {b : Nat} (hb : r.base = .blk b) (x : Link) (a : Nat) :
    (put s r x).mem a = if a = b then (match s.mem b with | some (.links xs) => some (.links (xs.set r.idx x)) | o => o) else s.mem a := by
  unfold put; rw [hb]

theorem put_next (s : St K V) (r : Ref) (x : Link) : (put s r x).next = s.next := by
  unfold put; split <;> rfl

theorem put_roots (s : St K V) (r : Ref) (x : Link) : (put s r x).roots = s.roots := by
  unfold put; split <;> rfl

theorem put_isL (s : St K V) (r : Ref) (x : Link) (b : Nat) : IsL (put s r x) b ↔ IsL s b := by
  unfold IsL
  cases hr : r.base with
  | nil => unfold put; rw [hr]
  | blk c =>
    rw [put_mem hr]
    by_cases h : b = c
    · subst h
      rw [if_pos rfl]
      cases hm : s.mem b with
      | none => simp
      | some o => cases o <;> simp
    · rw [if_neg h]

/-- Reading what was stored. -/
theorem load_put {r : Ref} {s : St K V} {y : Link} (h : run (load r) s = .ok (y, s)) (x : Link) : run (load r) (put s r x) = .ok (x, put s r x) := by
  obtain ⟨-, b, xs, h1, h2, h3⟩ := load_inv h
  have hm : (put s r x).mem b = some (.links (xs.set r.idx x)) := by
    rw [put_mem h1, if_pos rfl, h2]
  unfold run load
  rw [h1]
  simp only [hm]
  rw [List.getElem?_set_self (List.getElem?_eq_some_iff.1 h3).1]

/-- Reading elsewhere. -/
theorem load_put_ne {r q : Ref} {s : St K V} {y : Link} (hne : q.base ≠ r.base ∨ q.idx ≠ r.idx) (h : run (load q) s = .ok (y, s)) (x : Link) :
    run (load q) (put s r x) = .ok (y, put s r x) := by
  obtain ⟨-, b, xs, h1, h2, h3⟩ := load_inv h
  cases hr : r.base with
  | nil =>
    have : put s r x = s := by unfold put; rw [hr]
    rw [this]; exact h
  | blk c =>
    unfold run load
    rw [h1]
    dsimp only
    rw [put_mem hr]
    by_cases hc : b = c
    · subst hc
      rw [if_pos rfl, h2]
      dsimp only
      have : q.idx ≠ r.idx := by
        rcases hne with hne | hne
        · rw [h1, hr] at hne; exact absurd rfl hne
        · exact hne
      rw [List.getElem?_set_ne (Ne.symm this), h3]
    · rw [if_neg hc, h2]
      dsimp only
      rw [h3]

theorem Ranked.load {rk : Nat → Nat} {s t : St K V} (h : Ranked rk s) {r : Ref} {x : Link} (hl : run (load r) s = .ok (x, t)) :
    Up rk s r.base x.ptr := by
  obtain ⟨-, b, xs, h1, h2, h3⟩ := load_inv hl
  rw [h1]
  exact h.up b xs x h2 (List.mem_of_getElem? h3)

theorem Ranked.put {rk : Nat → Nat} {s : St K V} (h : Ranked rk s) {r : Ref} {x : Link} (hu : Up rk s r.base x.ptr) : Step rk s (Go.put s r x) := by
  cases hr : r.base with
  | nil =>
    have : Go.put s r x = s := by unfold Go.put; rw [hr]
    rw [this]; exact Step.refl h
  | blk c =>
    refine ⟨⟨fun a ha => ?_, fun a xs y hm hy => ?_⟩, put_next s r x, put_isL s r x⟩
    · rw [put_next] at ha
      rw [put_mem hr]
      by_cases hc : a = c
      · subst hc; rw [if_pos rfl, h.fits a ha]
      · rw [if_neg hc, h.fits a ha]
    · have key : Up rk s (.blk a) y.ptr := by
        rw [put_mem hr] at hm
        by_cases hc : a = c
        · subst hc
          rw [if_pos rfl] at hm
          cases hs : s.mem a with
          | none => rw [hs] at hm; cases hm
          | some o =>
            rw [hs] at hm
            cases o with
            | kv k v => cases hm
            | links zs =>
              cases hm
              rcases List.mem_or_eq_of_mem_set hy with h1 | h1
              · exact h.up a zs y hs h1
              · rw [h1, ← hr]; exact hu
        · rw [if_neg hc] at hm
          exact h.up a xs y hm hy
      intro b hb
      obtain ⟨h1, h2⟩ := key b hb
      exact ⟨by rw [put_next]; exact h1, fun hl => h2 ((put_isL s r x b).1 hl)⟩

theorem Ranked.store {rk : Nat → Nat} {s t : St K V} (h : Ranked rk s) {r : Ref} {x : Link} {u : Unit} (hu : Up rk s r.base x.ptr)
    (he : run (store r x) s = .ok (u, t)) : Step rk s t := by
  rw [(store_inv he).1]
  exact h.put hu

/-- A read-modify-write. -/
theorem modLink_run {r : Ref} {s : St K V} {y : Link} (h : run (load r) s = .ok (y, s)) (f : Link → Link) :
    run (modLink r f) s = .ok ((), put s r (f y)) := by
  unfold modLink
  rw [run_bind, h, thenE_ok]
  exact store_run h _

theorem modLink_inv {r : Ref} {s t : St K V} {f : Link → Link} {u : Unit} (h : run (modLink r f) s = .ok (u, t)) :
    ∃ y, run (load r) s = .ok (y, s) ∧ t = put s r (f y) := by
  obtain ⟨y, s1, h1, h2⟩ := ok_bind h
  cases run_load_state h1
  exact ⟨y, h1, (store_inv h2).1⟩

theorem Ranked.modLink {rk : Nat → Nat} {s t : St K V} (h : Ranked rk s) {r : Ref} {f : Link → Link} {u : Unit}
    (hu : ∀ x, run (Amt.load r) s = .ok (x, s) → Up rk s r.base (f x).ptr) (he : run (Amt.modLink r f) s = .ok (u, t)) : Step rk s t := by
  obtain ⟨y, h1, rfl⟩ := modLink_inv he
  exact h.put (hu y h1)

/-- Only the maps of a link change. -/
theorem Ranked.modMaps {rk : Nat → Nat} {s t : St K V} (h : Ranked rk s) {r : Ref} {f : Link → Link} {u : Unit}
    (hf : ∀ x, (f x).ptr = x.ptr) (he : run (Amt.modLink r f) s = .ok (u, t)) : Step rk s t :=
  h.modLink (fun x hx => by rw [hf]; exact h.load hx) he

theorem Ranked.modRoot {rk : Nat → Nat} {s t : St K V} (h : Ranked rk s) {i : Nat} {f : Meta → Meta} {u : Unit}
    (he : run (Amt.modRoot i f) s = .ok (u, t)) : Step rk s t := by
  cases he
  exact ⟨⟨h.fits, h.up⟩, rfl, fun _ => Iff.rfl⟩

/-- The memory after an allocation. -/
def grow (s : St K V) (o : Obj K V) : St K V := { s with mem := fun a => if a = s.next then some o else s.mem a, next := s.next + 1 }

theorem alloc_eq (s : St K V) (o : Obj K V) : run (alloc o) s = .ok (.blk s.next, grow s o) := rfl

/-- An object that points nowhere. -/
def Blank : Obj K V → Prop
  | .links xs => ∀ x ∈ xs, x.ptr = .nil
  | .kv _ _ => True

theorem grow_isL {s : St K V} {o : Obj K V} {b : Nat} (hb : b < s.next) : IsL (grow s o) b ↔ IsL s b := by
  unfold IsL grow
  dsimp only
  rw [if_neg (by omega)]

/-- A new object can be given any rank. -/
theorem Ranked.grow {rk : Nat → Nat} {s : St K V} (h : Ranked rk s) {o : Obj K V} (ho : Blank o) {rk' : Nat → Nat} (hrk : ∀ a, a ≠ s.next → rk' a = rk a) :
    Ranked rk' (grow s o) := by
  refine ⟨fun a ha => ?_, fun a xs x hm hx b hb => ?_⟩
  · have ha : s.next + 1 ≤ a := ha
    show (if a = s.next then some o else s.mem a) = none
    rw [if_neg (by omega)]
    exact h.fits a (by omega)
  · change (if a = s.next then some o else s.mem a) = _ at hm
    by_cases ha : a = s.next
    · rw [if_pos ha] at hm
      cases hm
      rw [ho x hx] at hb
      cases hb
    · rw [if_neg ha] at hm
      obtain ⟨h1, h2⟩ := h.up a xs x hm hx b hb
      refine ⟨Nat.lt_succ_of_lt h1, fun hl c hc => ?_⟩
      rw [grow_isL h1] at hl
      have h3 := h2 hl c hc
      cases hc
      rw [hrk _ ha, hrk _ (by omega)]
      exact h3

theorem Up.grow {rk rk' : Nat → Nat} {s : St K V} {o : Obj K V} {p q : Ptr} (h : Up rk s p q) (hrk : ∀ a, a ≠ s.next → rk' a = rk a)
    (hp : ∀ a, p = .blk a → a < s.next) : Up rk' (grow s o) p q := by
  intro b hb
  obtain ⟨h1, h2⟩ := h b hb
  refine ⟨Nat.lt_succ_of_lt h1, fun hl a ha => ?_⟩
  rw [grow_isL h1] at hl
  rw [hrk _ (by have := hp a ha; omega), hrk _ (by omega)]
  exact h2 hl a ha

/-- A pointer to a cell may be stored anywhere. -/
theorem Up.cell (rk : Nat → Nat) {s : St K V} {p : Ptr} {k : Option K} {v : V} : Up rk (Go.grow s (.kv k v)) p (.blk s.next) := by
  intro b hb
  cases hb
  refine ⟨Nat.lt_succ_self _, fun hl => ?_⟩
  obtain ⟨xs, hx⟩ := hl
  simp [Go.grow] at hx

theorem Step.grow_kv {rk : Nat → Nat} {s : St K V} (h : Ranked rk s) (k : Option K) (v : V) : Ranked rk (grow s (.kv k v)) :=
  h.grow (o := .kv k v) trivial fun _ _ => rfl

theorem load_lt {rk : Nat → Nat} {s t : St K V} (h : Ranked rk s) {r : Ref} {x : Link} (hl : run (load r) s = .ok (x, t)) :
    ∀ a, r.base = .blk a → a < s.next := by
  obtain ⟨-, b, xs, h1, h2, h3⟩ := load_inv hl
  intro a ha
  rw [h1] at ha
  cases ha
  refine Nat.lt_of_not_le fun hle => ?_
  rw [h.fits _ hle] at h2
  cases h2

/-- A link does not point to the array it is in. -/
theorem Ranked.noSelf {rk : Nat → Nat} {s t : St K V} (h : Ranked rk s) {r : Ref} {x : Link} (hl : run (Amt.load r) s = .ok (x, t)) : x.ptr ≠ r.base := by
  obtain ⟨-, b, xs, h1, h2, h3⟩ := load_inv hl
  intro he
  rw [h1] at he
  exact Nat.lt_irrefl _ ((h.load hl b he).2 ⟨xs, h2⟩ b h1)

/-! ### Moving items -/

theorem Ranked.shiftUp {rk : Nat → Nat} (arr : Ptr) (idx : Nat) : ∀ (n : Nat) {s t : St K V} {u : Unit}, Ranked rk s →
    run (shiftUp arr idx n) s = .ok (u, t) → Step rk s t := by
  intro n
  induction n with
  | zero => intro s t u h he; cases he; exact Step.refl h
  | succ n ih =>
    intro s t u h he
    rw [Amt.shiftUp] at he
    split at he
    · obtain ⟨x, s1, h1, he⟩ := ok_bind he
      cases run_load_state h1
      obtain ⟨_, s2, h2, he⟩ := ok_bind he
      have h3 := h.store (r := ⟨arr, n + 1⟩) (h.load (r := ⟨arr, n⟩) h1) h2
      exact h3.trans (ih h3.rank he)
    · cases he; exact Step.refl h

/-- Items of the array `src` may be stored at `dst`. -/
def Over (rk : Nat → Nat) (s : St K V) (dst src : Ptr) : Prop := ∀ a, src = .blk a → IsL s a → ∀ b, dst = .blk b → rk b ≤ rk a

theorem Ranked.copyUp {rk : Nat → Nat} (dst src : Ptr) (doff soff : Nat) : ∀ (n i : Nat) {s t : St K V} {u : Unit}, Ranked rk s →
    Over rk s dst src → run (copyUp dst src doff soff n i) s = .ok (u, t) → Step rk s t := by
  intro n
  induction n with
  | zero => intro i s t u h ho he; cases he; exact Step.refl h
  | succ n ih =>
    intro i s t u h ho he
    rw [Amt.copyUp] at he
    obtain ⟨x, s1, h1, he⟩ := ok_bind he
    cases run_load_state h1
    obtain ⟨_, s2, h2, he⟩ := ok_bind he
    have hu : Up rk s dst x.ptr := by
      obtain ⟨-, b, xs, hb, hm, hx⟩ := load_inv h1
      intro c hc
      obtain ⟨h3, h4⟩ := h.load h1 c hc
      refine ⟨h3, fun hl a ha => ?_⟩
      exact Nat.lt_of_le_of_lt (ho b hb ⟨xs, hm⟩ a ha) (h4 hl b hb)
    have h3 := h.store hu h2
    exact h3.trans (ih (i + 1) h3.rank (fun a ha hl b hb => ho a ha ((h3.isL a).1 hl) b hb) he)

theorem blank_links (n : Nat) : Blank (K := K) (V := V) (.links (List.replicate n {})) := by
  intro x hx
  rw [List.eq_of_mem_replicate hx]

theorem newLinkArray_inv {n : Nat} {s t : St K V} {p : Ptr} (h : run (Amt.newLinkArray n) s = .ok (p, t)) :
    p = .blk s.next ∧ ∃ m, 4 ≤ m ∧ t = grow s (.links (List.replicate m {})) := by
  unfold Amt.newLinkArray at h
  split at h
  · cases h; exact ⟨rfl, 4, by omega, rfl⟩
  · split at h
    · cases h; exact ⟨rfl, 8, by omega, rfl⟩
    · split at h
      · cases h; exact ⟨rfl, 12, by omega, rfl⟩
      · cases h; exact ⟨rfl, 16, by omega, rfl⟩

/-- The rank given to a new array that takes the place of `src` behind a link in the array `p`. -/
noncomputable def rankFor (rk : Nat → Nat) (s : St K V) (p src : Ptr) : Nat :=
  open Classical in
  match src with
  | .blk a => if IsL s a then rk a else (match p with | .blk b => rk b + 1 | .nil => 0)
  | .nil => match p with | .blk b => rk b + 1 | .nil => 0

/-- `l.ptr = newLinkArray(..)`: the new array takes the place of the old one. -/
theorem Ranked.replace {rk : Nat → Nat} {s t : St K V} (h : Ranked rk s) {l : Ref} {lk : Link} (hl : run (Amt.load l) s = .ok (lk, s)) {n : Nat} {u : Unit}
    (hm : run (Amt.modLink l fun x => { x with ptr := .blk s.next }) (Go.grow s (.links (List.replicate n {}))) = .ok (u, t)) :
    ∃ rk', Ranked rk' t ∧ t.next = s.next + 1 ∧ IsL t s.next ∧ Over rk' t (.blk s.next) lk.ptr ∧ (∀ b, b < s.next → (IsL t b ↔ IsL s b)) := by
  let rk' : Nat → Nat := fun a => if a = s.next then rankFor rk s l.base lk.ptr else rk a
  have hrk : ∀ a, a ≠ s.next → rk' a = rk a := fun a ha => if_neg ha
  have hnew : rk' s.next = rankFor rk s l.base lk.ptr := if_pos rfl
  have h1 : Ranked rk' (Go.grow s (.links (List.replicate n {})) : St K V) := h.grow (blank_links n) hrk
  have hlt := load_lt h hl
  have h2 : Step rk' (Go.grow s (.links (List.replicate n {}))) t := by
    refine h1.modLink (fun x hx => ?_) hm
    intro b hb
    cases hb
    refine ⟨Nat.lt_succ_self _, fun _ a ha => ?_⟩
    rw [hnew, hrk a (by have := hlt a ha; omega)]
    unfold rankFor
    rw [ha]
    cases hp : lk.ptr with
    | nil => exact Nat.lt_succ_self _
    | blk c =>
      dsimp only
      split
      · next hc => exact (h.load hl c hp).2 hc a ha
      · exact Nat.lt_succ_self _
  refine ⟨rk', h2.rank, h2.next, (h2.isL _).2 ⟨_, if_pos rfl⟩, fun a ha hla b hb => ?_, fun b hb => (h2.isL b).trans (grow_isL hb)⟩
  have h3 := (h.load hl a ha).1
  rw [h2.isL a, grow_isL h3] at hla
  cases hb
  rw [hnew, hrk a (by omega)]
  unfold rankFor
  rw [ha]
  dsimp only
  rw [if_pos hla]
  exact Nat.le_refl _

end

end Amt.Go
