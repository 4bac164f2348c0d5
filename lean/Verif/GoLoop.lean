/-
The loops of the translated programs, and the arithmetic of `uint8` against the natural numbers of `Model.lean`.
Used only in proofs.
-/
import Verif.Go
import Verif.PropsPanic

set_option linter.unusedVariables false
set_option linter.unusedSectionVars false

namespace Amt.Go
open Amt

/-! ### `uint8` -/

theorem popcount_le (x : BitVec 32) : popcount x ≤ 32 := by
  unfold popcount
  exact Nat.le_trans List.countP_le_length (by simp)

theorem rankOf_le (p : BitVec 32) (r : Nat) : rankOf p r ≤ 32 := popcount_le _

/-- `uint8(hd & 0xF)`. -/
theorem radix_toNat (hd : BitVec 64) : ((hd &&& 15#64).setWidth 8).toNat = radixOf hd := by
  have h : (hd &&& 15#64).toNat < 16 := radixOf_lt hd
  rw [BitVec.toNat_setWidth, Nat.mod_eq_of_lt (by omega)]
  rfl

theorem radix_eq (hd : BitVec 64) : (hd &&& 15#64).setWidth 8 = BitVec.ofNat 8 (radixOf hd) := by
  apply BitVec.eq_of_toNat_eq
  rw [radix_toNat, BitVec.toNat_ofNat, Nat.mod_eq_of_lt]
  have := radixOf_lt hd
  omega

theorem ofNat_toNat {n : Nat} (h : n < 256) : (BitVec.ofNat 8 n).toNat = n := by
  rw [BitVec.toNat_ofNat, Nat.mod_eq_of_lt (by omega)]

theorem bit_eq {r : Nat} (h : r < 256) : 1#32 <<< BitVec.ofNat 8 r = bitOf r := by
  show 1#32 <<< (BitVec.ofNat 8 r).toNat = _
  rw [ofNat_toNat h]
  rfl

theorem lit_bit (hd : BitVec 64) : (1#32 <<< ((hd &&& 15#64).setWidth 8 : BitVec 8)) = bitOf (radixOf hd) := by
  show 1#32 <<< ((hd &&& 15#64).setWidth 8 : BitVec 8).toNat = _
  rw [radix_toNat]
  rfl

theorem rank_eq (p : BitVec 32) {r : Nat} (h : r < 256) :
    popcount (p &&& ~~~((~~~0#32) <<< BitVec.ofNat 8 r)) = rankOf p r := by
  show popcount (p &&& ~~~((~~~0#32) <<< (BitVec.ofNat 8 r).toNat)) = _
  rw [ofNat_toNat h]
  rfl

theorem lit_rank (p : BitVec 32) (hd : BitVec 64) :
    popcount (p &&& ~~~((~~~0#32) <<< ((hd &&& 15#64).setWidth 8 : BitVec 8))) = rankOf p (radixOf hd) := by
  show popcount (p &&& ~~~((~~~0#32) <<< ((hd &&& 15#64).setWidth 8 : BitVec 8).toNat)) = _
  rw [radix_toNat]
  rfl

theorem rank_toNat (p : BitVec 32) (r : Nat) : (BitVec.ofNat 8 (rankOf p r)).toNat = rankOf p r :=
  ofNat_toNat (by have := rankOf_le p r; omega)

theorem count_toNat (p : BitVec 32) : (BitVec.ofNat 8 (popcount p)).toNat = popcount p :=
  ofNat_toNat (by have := popcount_le p; omega)

theorem succ_eq (d : Nat) : BitVec.ofNat 8 d + 1#8 = BitVec.ofNat 8 ((d + 1) % 256) := by
  apply BitVec.eq_of_toNat_eq
  simp only [BitVec.toNat_add, BitVec.toNat_ofNat]
  omega

theorem mod16 {d : Nat} (h : d < 256) : (BitVec.ofNat 8 d % 16#8 != 0#8) = decide (d % 16 ≠ 0) := by
  have e : BitVec.ofNat 8 d % 16#8 = BitVec.ofNat 8 (d % 16) := by
    apply BitVec.eq_of_toNat_eq
    rw [BitVec.toNat_umod, BitVec.toNat_ofNat, BitVec.toNat_ofNat]
    show d % 256 % 16 = d % 16 % 256
    omega
  rw [e]
  by_cases h' : d % 16 = 0
  · simp [h']
  · rw [decide_eq_true h', bne_iff_ne]
    intro e'
    have := congrArg BitVec.toNat e'
    rw [ofNat_toNat (by omega)] at this
    exact h' this

theorem and15 {d : Nat} (h : d < 256) : (BitVec.ofNat 8 d &&& 15#8 != 0#8) = decide (d % 16 ≠ 0) := by
  rw [← mod16 h]
  congr 1
  apply BitVec.eq_of_toNat_eq
  simp only [BitVec.toNat_and, BitVec.toNat_umod, BitVec.toNat_ofNat]
  exact Nat.and_two_pow_sub_one_eq_mod _ 4

/-! ### Bytes written to a hash -/

/-- What `w` writes of `kb` leave in a hash. -/
def flat (kb : List UInt8) (w : Nat) : List UInt8 := (List.replicate w kb).flatten

theorem flat_succ (kb : List UInt8) (w : Nat) : flat kb w ++ kb = flat kb (w + 1) := by
  unfold flat
  rw [List.replicate_succ', List.flatten_append, List.flatten_singleton]

/-- A hash after writes of one key. -/
theorem write_flat (sd : Seed) (kb : List UInt8) (w : Nat) : (Hasher.mk sd (flat kb w)).write kb = ⟨sd, flat kb (w + 1)⟩ := by
  rw [← flat_succ]; rfl

theorem sum64_flat (sum : Maphash) (sd : Seed) (kb : List UInt8) (w : Nat) : (Hasher.mk sd (flat kb w)).sum64 sum = digestOf sum sd kb w := rfl

theorem flat_one (kb : List UInt8) : [] ++ kb = flat kb 1 := by simp [flat]

theorem write_new (x : Hasher) (sd : Seed) (kb : List UInt8) : (x.setSeed sd).write kb = ⟨sd, flat kb 1⟩ := by
  rw [← flat_one]; rfl

/-! ### Running programs -/

section
variable {K V α β : Type}

/-- `x s`, kept from unfolding. -/
def run (x : M K V α) (s : St K V) : Except Fault (α × St K V) := x s

theorem run_def (x : M K V α) (s : St K V) : run x s = x s := rfl

/-- Go on unless there was a fault. -/
def thenE {α β : Type} (x : Except Fault α) (f : α → Except Fault β) : Except Fault β :=
  match x with
  | .error e => .error e
  | .ok a => f a

theorem thenE_error {α β : Type} (e : Fault) (f : α → Except Fault β) : thenE (.error e) f = .error e := rfl

theorem thenE_ok {α β : Type} (a : α) (f : α → Except Fault β) : thenE (.ok a) f = f a := rfl

theorem thenE_assoc {α β γ : Type} (x : Except Fault α) (f : α → Except Fault β) (g : β → Except Fault γ) :
    thenE (thenE x f) g = thenE x fun a => thenE (f a) g := by
  cases x <;> rfl

theorem run_bind (x : M K V α) (f : α → M K V β) (s : St K V) :
    run (x >>= f) s = thenE (run x s) fun r => run (f r.1) r.2 := by
  unfold run
  rw [bind_run]
  cases x s <;> rfl

theorem run_pure (a : α) (s : St K V) : run (pure a : M K V α) s = .ok (a, s) := rfl

theorem run_fail (e : Fault) (s : St K V) : run (M.fail e : M K V α) s = .error e := rfl

theorem run_load_state {l : Ref} {s s' : St K V} {x : Link} (h : run (load l) s = .ok (x, s')) : s' = s := load_state h

theorem run_ite (p : Prop) [Decidable p] (x y : M K V α) (s : St K V) : run (if p then x else y) s = if p then run x s else run y s := by
  split <;> rfl

theorem thenE_ite {α β : Type} (p : Prop) [Decidable p] (x y : Except Fault α) (f : α → Except Fault β) :
    thenE (if p then x else y) f = if p then thenE x f else thenE y f := by
  split <;> rfl

theorem thenE_pair {α β : Type} (x : Except Fault (α × β)) : (thenE x fun a => .ok (a.1, a.2)) = x := by
  cases x <;> rfl

theorem run_root (h : Nat) (s : St K V) : run (getRoot h : M K V Meta) s = .ok (s.roots h, s) := rfl

theorem run_deref (h : Nat) (s : St K V) : run (deref (some h) : M K V Nat) s = .ok (h, s) := rfl

/-- Reading a link does not change the memory. -/
theorem run_load (l : Ref) (s : St K V) : (∃ e, run (load l) s = .error e) ∨ ∃ x, run (load l) s = .ok (x, s) := by
  cases h : run (load l) s with
  | error e => exact Or.inl ⟨e, rfl⟩
  | ok r =>
    obtain ⟨x, s'⟩ := r
    cases run_load_state h
    exact Or.inr ⟨x, rfl⟩

end

/-! ### Loops -/

section
variable {K V σ : Type}

theorem forIn_loop (n : Nat) (st : σ) (f : Unit → σ → M K V (ForInStep σ)) :
    forIn (budget n) st f = loop (f ()) (n + 300) st := rfl

/-- After an iteration. -/
def next (f : σ → M K V (ForInStep σ)) (n : Nat) : ForInStep σ → M K V σ
  | .done st => pure st
  | .yield st => loop f n st

theorem next_done (f : σ → M K V (ForInStep σ)) (n : Nat) (st : σ) : next f n (.done st) = pure st := rfl

theorem next_yield (f : σ → M K V (ForInStep σ)) (n : Nat) (st : σ) : next f n (.yield st) = loop f n st := rfl

theorem loop_succ (f : σ → M K V (ForInStep σ)) (n : Nat) (st : σ) : loop f (n + 1) st = f st >>= next f n := by
  rw [loop]
  congr 1

/-- The search loop.  As `search` (string_map.go:97-111), but it also returns the link read last and the iterations left,
does not append the last branch to the path, and reads a branch before it gives up. -/
def walk (c : Cfg K) (sd : Seed) (key : K) : (fuel : Nat) → Cur → M K V (Cur × Link × Bool × Nat)
  | 0, cur => do
    let _ ← load cur.l
    M.fail .diverge
  | fuel + 1, cur => do
    let lk ← load cur.l
    let radix := radixOf cur.hd
    if lk.pmap &&& bitOf radix ≠ 0#32 then
      if lk.tmap &&& bitOf radix = 0#32 then
        walk c sd key fuel (descend c sd key { cur with path := cur.path ++ [(radix, some cur.l)] } ⟨lk.ptr, rankOf lk.pmap radix⟩)
      else pure (cur, lk, true, fuel)
    else pure (cur, lk, false, fuel)

theorem descend_d (c : Cfg K) (sd : Seed) (key : K) (cur : Cur) (item : Ref) :
    (descend c sd key cur item).d = (cur.d + 1) % 256 := by
  unfold descend
  dsimp only
  split <;> rfl

theorem descend_l (c : Cfg K) (sd : Seed) (key : K) (cur : Cur) (item : Ref) :
    (descend c sd key cur item).l = item := by
  unfold descend
  dsimp only
  split <;> rfl

theorem descend_path (c : Cfg K) (sd : Seed) (key : K) (cur : Cur) (item : Ref) :
    (descend c sd key cur item).path = cur.path := by
  unfold descend
  dsimp only
  split <;> rfl

theorem walk_err (c : Cfg K) (sd : Seed) (key : K) (n : Nat) (cur : Cur) {s : St K V} {e : Fault} (h : run (load cur.l) s = .error e) :
    run (walk c sd key n cur) s = .error e := by
  cases n with
  | zero => exact bind_err h
  | succ n => exact bind_err h

/-- A loop that descends as the search loop does is the search loop, followed by one more iteration. -/
theorem loop_walk (c : Cfg K) (sd : Seed) (key : K) (mk : Cur → BitVec 8 → σ) {f : σ → M K V (ForInStep σ)} {s : St K V}
    (hstep : ∀ cur lk, cur.d < 256 → run (load cur.l) s = .ok (lk, s) → lk.pmap &&& bitOf (radixOf cur.hd) ≠ 0#32 →
      lk.tmap &&& bitOf (radixOf cur.hd) = 0#32 →
      run (f (mk cur (BitVec.ofNat 8 (rankOf lk.pmap (radixOf cur.hd))))) s
        = thenE (run (load ⟨lk.ptr, rankOf lk.pmap (radixOf cur.hd)⟩) s) fun r =>
            let cur' := descend c sd key { cur with path := cur.path ++ [(radixOf cur.hd, some cur.l)] }
              ⟨lk.ptr, rankOf lk.pmap (radixOf cur.hd)⟩
            .ok (ForInStep.yield (mk cur' (BitVec.ofNat 8 (rankOf r.1.pmap (radixOf cur'.hd)))), r.2)) :
    ∀ n cur lk st, cur.d < 256 → run (load cur.l) s = .ok (lk, s) → st = mk cur (BitVec.ofNat 8 (rankOf lk.pmap (radixOf cur.hd))) →
      run (loop f n st) s = thenE (run (walk c sd key n cur) s) fun r => run (f (mk r.1.1 (BitVec.ofNat 8 (rankOf r.1.2.1.pmap (radixOf r.1.1.hd)))) >>= next f r.1.2.2.2) r.2 := by
  intro n
  induction n with
  | zero =>
    intro cur lk st hd hl hst
    rw [walk, run_bind, hl]
    rfl
  | succ n ih =>
    intro cur lk st hd hl hst
    subst hst
    rw [walk, run_bind (load cur.l), hl]
    dsimp only [thenE_ok]
    by_cases hp : lk.pmap &&& bitOf (radixOf cur.hd) ≠ 0#32
    · rw [if_pos hp]
      by_cases ht : lk.tmap &&& bitOf (radixOf cur.hd) = 0#32
      · rw [if_pos ht, loop_succ, run_bind, hstep cur lk hd hl hp ht]
        rcases run_load (K := K) (V := V) ⟨lk.ptr, rankOf lk.pmap (radixOf cur.hd)⟩ s with ⟨e, he⟩ | ⟨lk', hl'⟩
        · rw [he, walk_err _ _ _ _ _ (by rw [descend_l]; exact he)]
          rfl
        · rw [hl']
          exact ih _ lk' _ (by rw [descend_d]; omega) (by rw [descend_l]; exact hl') rfl
      · rw [if_neg ht, loop_succ]
        rfl
    · rw [if_neg hp, loop_succ]
      rfl

/-- The position of the search loop. -/
structure CurAt (cur : Cur) : Prop where
  d : cur.d < 256
  path : cur.path.length % 256 = cur.d

theorem walk_ends (c : Cfg K) (sd : Seed) (key : K) {s s' : St K V} : ∀ n cur r, CurAt cur → run (walk c sd key n cur) s = .ok (r, s') →
    s' = s ∧ run (load r.1.l) s = .ok (r.2.1, s) ∧ CurAt r.1 ∧
      (r.2.2.1 = true → r.2.1.pmap &&& bitOf (radixOf r.1.hd) ≠ 0#32 ∧ r.2.1.tmap &&& bitOf (radixOf r.1.hd) ≠ 0#32) ∧
      (r.2.2.1 = false → r.2.1.pmap &&& bitOf (radixOf r.1.hd) = 0#32) := by
  intro n
  induction n with
  | zero =>
    intro cur r hc h
    rw [walk, run_bind] at h
    cases hl : run (load (K := K) (V := V) cur.l) s with
    | error e => rw [hl] at h; cases h
    | ok r => rw [hl] at h; cases h
  | succ n ih =>
    intro cur r hc h
    rw [walk, run_bind] at h
    rcases run_load (K := K) (V := V) cur.l s with ⟨e, he⟩ | ⟨lk, hl⟩
    · rw [he] at h; cases h
    · rw [hl] at h
      dsimp only [thenE] at h
      split at h
      · next hp =>
        split at h
        · next ht =>
          refine ih _ r ?_ h
          exact ⟨by rw [descend_d]; omega, by rw [descend_path, descend_d]; have := hc.path; simp only [List.length_append, List.length_singleton]; omega⟩
        · next ht =>
          cases h
          exact ⟨rfl, hl, hc, fun _ => ⟨hp, ht⟩, fun e => by cases e⟩
      · next hp =>
        cases h
        exact ⟨rfl, hl, hc, (fun e => by cases e), fun _ => Classical.not_not.mp hp⟩

theorem ne_test {x : BitVec 32} (h : x ≠ 0#32) : (!(x != 0#32)) = false := by simp [h]

theorem eq_test {x : BitVec 32} (h : x = 0#32) : (x == 0#32) = true := by simp [h]

theorem ne_test' {x : BitVec 32} (h : x ≠ 0#32) : (x == 0#32) = false := by simp [h]

theorem eq_test' {x : BitVec 32} (h : x = 0#32) : (!(x != 0#32)) = true := by simp [h]

end

/-- Runs straight-line code. -/
macro "lit" "[" ts:Lean.Parser.Tactic.simpLemma,* "]" : tactic =>
  `(tactic| simp only [$ts,*, thenE_ok, thenE_error, thenE_assoc, thenE_ite, thenE_pair, next_done, next_yield, if_true, if_false, Bool.false_eq_true,
    run_bind, run_pure, run_fail, run_ite, run_deref, run_root, elem])

end Amt.Go
