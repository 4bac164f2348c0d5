/-
The part of the translated `Set`, `Mod` and `Add` that puts a key into a free slot.  Used only in proofs.
-/
import Verif.GoTidy

set_option linter.unusedVariables false
set_option linter.unusedSectionVars false
set_option linter.unusedSimpArgs false

namespace Amt.Go
open Amt

section
variable {K V R : Type}

/-! ### Programs that add cells -/

/-- `x` leaves the objects alone that there are. -/
def Keeps {α : Type} (x : M K V α) : Prop := ∀ rk s a t, Ranked rk s → run x s = .ok (a, t) →
  Ranked rk t ∧ s.next ≤ t.next ∧ ∀ b, b < s.next → t.mem b = s.mem b

theorem load_same {rk : Nat → Nat} {s t : St K V} (h : Ranked rk s) (hm : ∀ b, b < s.next → t.mem b = s.mem b) {l : Ref} {x : Link}
    (hl : run (load l) s = .ok (x, s)) : run (load l) t = .ok (x, t) := by
  have hlt := load_lt h hl
  obtain ⟨-, b, xs, h1, h2, h3⟩ := load_inv hl
  unfold run load
  rw [h1]
  simp only [hm b (hlt b h1), h2, h3]

theorem grow_keeps (s : St K V) (o : Obj K V) : ∀ b, b < s.next → (grow s o).mem b = s.mem b := by
  intro b hb
  exact if_neg (by omega)

theorem Keeps.kv (k : Option K) (v : V) : Keeps (alloc (.kv k v) : M K V Ptr) := by
  intro rk s a t h he
  cases he
  exact ⟨Step.grow_kv h k v, Nat.le_succ _, grow_keeps _ _⟩

theorem Keeps.pure {α : Type} (a : α) : Keeps (Pure.pure a : M K V α) := by
  intro rk s a t h he
  cases he
  exact ⟨h, Nat.le_refl _, fun _ _ => rfl⟩

/-! ### The loops that move items -/

theorem shiftUp_keeps (p : Ptr) (idx : Nat) {l : Ref} {lk : Link} (hne : p ≠ l.base) : ∀ n {s t : St K V} {u : Unit},
    run (load l) s = .ok (lk, s) → run (shiftUp p idx n) s = .ok (u, t) → run (load l) t = .ok (lk, t) := by
  intro n
  induction n with
  | zero => intro s t u h he; cases he; exact h
  | succ n ih =>
    intro s t u h he
    rw [shiftUp] at he
    split at he
    · obtain ⟨x, s1, h1, he⟩ := ok_bind he
      cases run_load_state h1
      obtain ⟨_, s2, h2, he⟩ := ok_bind he
      rw [(store_inv h2).1] at he
      exact ih (load_put_ne (Or.inl (Ne.symm hne)) h _) he
    · cases he; exact h

theorem copyUp_keeps (dst src : Ptr) (doff soff : Nat) {l : Ref} {lk : Link} (hne : dst ≠ l.base) : ∀ n i {s t : St K V} {u : Unit},
    run (load l) s = .ok (lk, s) → run (copyUp dst src doff soff n i) s = .ok (u, t) → run (load l) t = .ok (lk, t) := by
  intro n
  induction n with
  | zero => intro i s t u h he; cases he; exact h
  | succ n ih =>
    intro i s t u h he
    rw [copyUp] at he
    obtain ⟨x, s1, h1, he⟩ := ok_bind he
    cases run_load_state h1
    obtain ⟨_, s2, h2, he⟩ := ok_bind he
    rw [(store_inv h2).1] at he
    exact ih _ (load_put_ne (Or.inl (Ne.symm hne)) h _) he

/-- A store that may fail. -/
theorem store_cases (r : Ref) (x : Link) (s : St K V) : (∃ e, run (store r x) s = .error e) ∨ run (store r x) s = .ok ((), put s r x) := by
  cases h : run (store r x) s with
  | error e => exact Or.inl ⟨e, rfl⟩
  | ok r => obtain ⟨u, t⟩ := r; rw [(store_inv h).1]; exact Or.inr rfl

/-- `for after := count - 1; after >= idx; after--`. -/
theorem shift_loop {β : Type} (l : Ref) (lk : Link) (idx : Nat) (hne : lk.ptr ≠ l.base) {f : Int → M K V (ForInStep Int)}
    (hf : ∀ a s, run (f a) s = if (!decide (a ≥ (idx : Int))) = true then .ok (.done a, s)
      else thenE (run (load l) s) fun x => thenE (run (load l) x.2) fun y => thenE (run (load ⟨y.1.ptr, a.toNat⟩) y.2) fun z =>
        thenE (run (store ⟨x.1.ptr, (a + 1).toNat⟩ z.1) z.2) fun w => .ok (.yield (a - 1), w.2))
    {F : Int × St K V → Except Fault β} (hF : ∀ a s, F (a, s) = F (0, s)) :
    ∀ n m s, n < m → run (load l) s = .ok (lk, s) →
      thenE (run (loop f m ((n : Int) - 1)) s) F = thenE (run (shiftUp lk.ptr idx n) s) fun r => F (0, r.2) := by
  intro n
  induction n with
  | zero =>
    intro m s hm hl
    obtain ⟨m, rfl⟩ : ∃ k, m = k + 1 := ⟨m - 1, by omega⟩
    have : (!decide (((0 : Nat) : Int) - 1 ≥ (idx : Int))) = true := by
      rw [decide_eq_false (by omega)]; rfl
    rw [loop_succ, run_bind, hf, if_pos this, thenE_ok, next_done, run_pure, thenE_ok, hF]
    rfl
  | succ n ih =>
    intro m s hm hl
    obtain ⟨m, rfl⟩ : ∃ k, m = k + 1 := ⟨m - 1, by omega⟩
    rw [loop_succ, run_bind, hf, shiftUp]
    by_cases hi : idx ≤ n
    · have e1 : (!decide (((n + 1 : Nat) : Int) - 1 ≥ (idx : Int))) = false := by
        rw [decide_eq_true (by omega)]; rfl
      have e2 : (((n + 1 : Nat) : Int) - 1).toNat = n := by omega
      have e3 : (((n + 1 : Nat) : Int) - 1 + 1).toNat = n + 1 := by omega
      have e4 : (((n + 1 : Nat) : Int) - 1 - 1) = (n : Int) - 1 := by omega
      rw [e1, e2, e3, e4, if_pos hi]
      lit [hl]
      rcases run_load (K := K) (V := V) ⟨lk.ptr, n⟩ s with ⟨e, he⟩ | ⟨x, hx⟩
      · lit [he]
      lit [hx]
      rcases store_cases ⟨lk.ptr, n + 1⟩ x s with ⟨e, he⟩ | hs
      · lit [he]
      lit [hs]
      exact ih _ _ (by omega) (load_put_ne (Or.inl (Ne.symm hne)) hl _)
    · have e1 : (!decide (((n + 1 : Nat) : Int) - 1 ≥ (idx : Int))) = true := by
        rw [decide_eq_false (by omega)]; rfl
      rw [e1, if_neg hi]
      lit [hF]

/-- `for ; i < n; i++ { dst[i+doff] = src[i+soff] }`, where `dst` is read from `l`. -/
theorem copy_loop {β : Type} (l : Ref) (lk : Link) (src : Ptr) (doff soff : Nat) (N : Nat) (hN : N ≤ 32) (hd : doff ≤ 1) (hs : soff ≤ 1)
    (hne : lk.ptr ≠ l.base) {f : BitVec 8 → M K V (ForInStep (BitVec 8))}
    (hf : ∀ i s, i ≤ 32 → run (f (BitVec.ofNat 8 i)) s = if (!decide (BitVec.ofNat 8 i < BitVec.ofNat 8 N)) = true then .ok (.done (BitVec.ofNat 8 i), s)
      else thenE (run (load l) s) fun x => thenE (run (load ⟨src, i + soff⟩) x.2) fun y =>
        thenE (run (store ⟨x.1.ptr, i + doff⟩ y.1) y.2) fun w => .ok (.yield (BitVec.ofNat 8 i + 1#8), w.2))
    {F : BitVec 8 × St K V → Except Fault β} (hF : ∀ a s, F (a, s) = F (0#8, s)) :
    ∀ n i m s, n = N - i → i ≤ 32 → n < m → run (load l) s = .ok (lk, s) →
      thenE (run (loop f m (BitVec.ofNat 8 i)) s) F = thenE (run (copyUp lk.ptr src doff soff n i) s) fun r => F (0#8, r.2) := by
  have hlt : ∀ i, i ≤ 32 → (!decide (BitVec.ofNat 8 i < BitVec.ofNat 8 N)) = decide (N ≤ i) := by
    intro i hi
    have : BitVec.ofNat 8 i < BitVec.ofNat 8 N ↔ i < N := by
      rw [BitVec.lt_def, ofNat_toNat (by omega), ofNat_toNat (by omega)]
    by_cases h : N ≤ i
    · rw [decide_eq_true h, decide_eq_false (by rw [this]; omega)]; rfl
    · rw [decide_eq_false h, decide_eq_true (by rw [this]; omega)]; rfl
  intro n
  induction n with
  | zero =>
    intro i m s hn hi hm hl
    obtain ⟨m, rfl⟩ : ∃ k, m = k + 1 := ⟨m - 1, by omega⟩
    rw [loop_succ, run_bind, hf i s hi, hlt i hi, if_pos (decide_eq_true (by omega)), thenE_ok, next_done, run_pure, thenE_ok, hF]
    rfl
  | succ n ih =>
    intro i m s hn hi hm hl
    obtain ⟨m, rfl⟩ : ∃ k, m = k + 1 := ⟨m - 1, by omega⟩
    rw [loop_succ, run_bind, hf i s hi, hlt i hi, decide_eq_false (by omega), copyUp]
    lit [hl]
    rcases run_load (K := K) (V := V) ⟨src, i + soff⟩ s with ⟨e, he⟩ | ⟨x, hx⟩
    · lit [he]
    lit [hx]
    rcases store_cases ⟨lk.ptr, i + doff⟩ x s with ⟨e, he⟩ | hs
    · lit [he]
    lit [hs]
    rw [succ_eq, Nat.mod_eq_of_lt (by omega)]
    exact ih _ _ _ (by omega) (by omega) (by omega) (load_put_ne (Or.inl (Ne.symm hne)) hl _)

/-! ### A free slot -/

theorem succ_small {i n : Nat} (h : i ≤ n) (hn : n ≤ 32) : BitVec.ofNat 8 i + 1#8 = BitVec.ofNat 8 (i + 1) := by
  rw [succ_eq, Nat.mod_eq_of_lt (by omega)]

/-- The end of `Set`, `Mod` and `Add` as translated (e.g. string_map.go:189-216).  `cell` makes the new cell, `mk` the link to it. -/
def slotTail (fuel : Nat) (m : Handle) (l : Ref) (d idx : BitVec 8) (bit : BitVec 32) (cell : M K V Ptr) (mk : Ptr → Link) (r : R) : M K V R := do
  let count : BitVec 8 := BitVec.ofNat 8 (popcount (← load l).pmap)
  if ((count != 0#8) && ((count % 4#8) != 0#8)) || (d == 0#8) then
    let mut after : Int := ((count.toNat : Int) - 1)
    for _ in budget fuel do
      if !(decide (after ≥ (idx.toNat : Int))) then break
      store (elem (← load l).ptr ((after + 1).toNat)) ((← load (elem (← load l).ptr after.toNat)))
      after := after - 1
    store (elem (← load l).ptr idx.toNat) (mk (← cell))
  else
    let src : Ptr := (← load l).ptr
    setPtr l (← newLinkArray (count + 1#8))
    let mut before : BitVec 8 := 0#8
    for _ in budget fuel do
      if !(decide (before < idx)) then break
      store (elem (← load l).ptr before.toNat) (← load (elem src before.toNat))
      before := before + 1#8
    store (elem (← load l).ptr idx.toNat) (mk (← cell))
    let mut after : BitVec 8 := idx
    for _ in budget fuel do
      if !(decide (after < count)) then break
      store (elem (← load l).ptr ((after + 1#8).toNat)) (← load (elem src after.toNat))
      after := after + 1#8
  setPmap l ((← load l).pmap ||| bit)
  setTmap l ((← load l).tmap ||| bit)
  modRoot (← deref m) fun r => { r with len := r.len + 1#64 }
  modRoot (← deref m) fun r => { r with dep := r.dep + d.setWidth 64 }
  return r

/-- The same, as in `insertSlot`, with the cell made as late as in Go. -/
def slotL (h : Nat) (l : Ref) (d idx : Nat) (bit : BitVec 32) (cell : M K V Ptr) (mk : Ptr → Link) (r : R) : M K V R := do
  let lk ← load l
  let count := popcount lk.pmap
  if (count ≠ 0 ∧ count % 4 ≠ 0) ∨ d = 0 then
    shiftUp lk.ptr idx count
    let kvp ← cell
    store ⟨lk.ptr, idx⟩ (mk kvp)
  else
    let arr ← Amt.newLinkArray (count + 1)
    modLink l fun x => { x with ptr := arr }
    copyUp arr lk.ptr 0 0 idx 0
    let kvp ← cell
    store ⟨arr, idx⟩ (mk kvp)
    copyUp arr lk.ptr 1 0 (count - idx) idx
  modLink l fun x => { x with pmap := x.pmap ||| bit, tmap := x.tmap ||| bit }
  modRoot h fun m => { m with len := m.len + 1, dep := m.dep + BitVec.ofNat 64 d }
  pure r

theorem newLinkArray_eq {n : Nat} (h : n < 256) : (newLinkArray (BitVec.ofNat 8 n) : M K V Ptr) = Amt.newLinkArray n := by
  have e : ∀ k, k < 256 → (BitVec.ofNat 8 n ≤ BitVec.ofNat 8 k ↔ n ≤ k) := by
    intro k hk
    rw [BitVec.le_def, ofNat_toNat h, ofNat_toNat hk]
  unfold newLinkArray Amt.newLinkArray
  simp only [e 4 (by omega), e 8 (by omega), e 12 (by omega)]

theorem newLinkArray_ok (n : Nat) (s : St K V) : ∃ m, 4 ≤ m ∧ run (Amt.newLinkArray n) s = .ok (.blk s.next, grow s (.links (List.replicate m {}))) := by
  unfold Amt.newLinkArray
  split
  · exact ⟨4, by omega, rfl⟩
  · split
    · exact ⟨8, by omega, rfl⟩
    · split
      · exact ⟨12, by omega, rfl⟩
      · exact ⟨16, by omega, rfl⟩

theorem full_test {p : BitVec 32} {d : Nat} (hd : d < 256) :
    ((((BitVec.ofNat 8 (popcount p) != 0#8) && ((BitVec.ofNat 8 (popcount p) % 4#8) != 0#8)) || (BitVec.ofNat 8 d == 0#8)) = true) ↔
      ((popcount p ≠ 0 ∧ popcount p % 4 ≠ 0) ∨ d = 0) := by
  have hp := popcount_le p
  have e0 : ∀ n, n < 256 → (BitVec.ofNat 8 n = 0#8 ↔ n = 0) := by
    intro n hn
    constructor
    · intro h
      have := congrArg BitVec.toNat h
      rwa [ofNat_toNat hn] at this
    · intro h; rw [h]
  have e4 : BitVec.ofNat 8 (popcount p) % 4#8 = BitVec.ofNat 8 (popcount p % 4) := by
    apply BitVec.eq_of_toNat_eq
    rw [BitVec.toNat_umod, ofNat_toNat (n := popcount p) (by omega), ofNat_toNat (n := popcount p % 4) (by omega)]
    rfl
  rw [e4]
  simp only [Bool.or_eq_true, Bool.and_eq_true, bne_iff_ne, beq_iff_eq, ne_eq, e0 (popcount p) (by omega), e0 (popcount p % 4) (by omega), e0 d hd]

theorem setWidth_dep {d : Nat} (hd : d < 256) : (BitVec.ofNat 8 d).setWidth 64 = BitVec.ofNat 64 d := by
  apply BitVec.eq_of_toNat_eq
  rw [BitVec.toNat_setWidth, ofNat_toNat hd, BitVec.toNat_ofNat]

/-- The memory after `modRoot`. -/
def rootSt (s : St K V) (h : Nat) (f : Meta → Meta) : St K V := { s with roots := fun a => if a = h then f (s.roots a) else s.roots a }

theorem run_modRoot (h : Nat) (f : Meta → Meta) (s : St K V) : run (modRoot h f) s = .ok ((), rootSt s h f) := rfl

theorem rootSt_rootSt (s : St K V) (h : Nat) (f g : Meta → Meta) : rootSt (rootSt s h f) h g = rootSt s h fun m => g (f m) := by
  unfold rootSt
  congr 1
  funext a
  dsimp only
  split <;> rfl

theorem put_put {s : St K V} {r : Ref} {y : Link} (h : run (load r) s = .ok (y, s)) (x z : Link) : put (put s r x) r z = put s r z := by
  obtain ⟨-, b, xs, h1, h2, h3⟩ := load_inv h
  unfold put
  rw [h1]
  simp only
  congr 1
  funext a
  by_cases ha : a = b
  · subst ha
    simp only [if_pos, h2, if_true, List.set_set]
  · simp only [if_neg ha]

/-- The two last assignments and the counters. -/
theorem slot_end {h : Nat} {l : Ref} {d : Nat} (hd : d < 256) (bit : BitVec 32) (r : R) {s : St K V} {lk : Link} (hl : run (load l) s = .ok (lk, s)) :
    run (do
      setPmap l ((← load l).pmap ||| bit)
      setTmap l ((← load l).tmap ||| bit)
      modRoot (← deref (some h)) fun r => { r with len := r.len + 1#64 }
      modRoot (← deref (some h)) fun r => { r with dep := r.dep + (BitVec.ofNat 8 d).setWidth 64 }
      return r : M K V R) s = run (do
      modLink l fun x => { x with pmap := x.pmap ||| bit, tmap := x.tmap ||| bit }
      modRoot h fun m => { m with len := m.len + 1, dep := m.dep + BitVec.ofNat 64 d }
      pure r) s := by
  unfold setPmap setTmap
  lit [hl, modLink_run hl, load_put hl, modLink_run (load_put hl _), put_put hl, run_modRoot, rootSt_rootSt, setWidth_dep hd]
  rfl


theorem slotTail_err {s : St K V} {cell : M K V Ptr} {mk : Ptr → Link} {n : Nat} {m : Handle} {l : Ref} {e : Fault} (he : run (load l) s = .error e)
    {d idx : BitVec 8} {bit : BitVec 32} {r : R} : run (slotTail n m l d idx bit cell mk r) s = .error e := by
  unfold slotTail
  rw [run_bind, he, thenE_error]

theorem slotL_err {s : St K V} {cell : M K V Ptr} {mk : Ptr → Link} {h : Nat} {l : Ref} {e : Fault} (he : run (load l) s = .error e)
    {d idx : Nat} {bit : BitVec 32} {r : R} : run (slotL h l d idx bit cell mk r) s = .error e := by
  unfold slotL
  rw [run_bind, he, thenE_error]

/-- `slotTail` does what `slotL` does. -/
theorem slotTail_eq {rk : Nat → Nat} {s : St K V} (hs : Ranked rk s) {cell : M K V Ptr} (hc : Keeps cell) (mk : Ptr → Link) (n h : Nat) {l : Ref} {lk : Link}
    (hl : run (load l) s = .ok (lk, s)) {d idx : Nat} (hd : d < 256) (hi : idx ≤ 32) (bit : BitVec 32) (r : R) :
    run (slotTail n (some h) l (BitVec.ofNat 8 d) (BitVec.ofNat 8 idx) bit cell mk r) s = run (slotL h l d idx bit cell mk r) s := by
  have hcnt := popcount_le lk.pmap
  have hne := hs.noSelf hl
  unfold slotTail slotL
  rw [run_bind, hl, thenE_ok, run_bind, hl, thenE_ok]
  dsimp only
  by_cases hfull : (popcount lk.pmap ≠ 0 ∧ popcount lk.pmap % 4 ≠ 0) ∨ d = 0
  · rw [if_pos ((full_test hd).2 hfull), if_pos hfull]
    lit [forIn_loop, count_toNat]
    rw [shift_loop l lk idx hne ?_ ?_ _ _ _ (by omega) hl]
    · rcases hsh : run (shiftUp lk.ptr idx (popcount lk.pmap)) s with e | ⟨u, t⟩
      · rfl
      have h1 := shiftUp_keeps _ _ hne _ hl hsh
      have h2 := hs.shiftUp _ _ _ hsh
      lit [h1]
      rcases hce : run cell t with e | ⟨p, t'⟩
      · rfl
      obtain ⟨h3, h4, h5⟩ := hc _ _ _ _ h2.rank hce
      have h6 := load_same h2.rank h5 h1
      lit [ofNat_toNat (show idx < 256 by omega)]
      rcases store_cases ⟨lk.ptr, idx⟩ (mk p) t' with ⟨e, he⟩ | hst
      · lit [he]
      have h7 := load_put_ne (r := ⟨lk.ptr, idx⟩) (Or.inl (Ne.symm hne)) h6 (mk p)
      lit [hst, h7, setPmap, setTmap, modLink_run h7, load_put h7, modLink_run (load_put h7 _), put_put h7, run_modRoot, rootSt_rootSt, setWidth_dep hd]
      rfl
    · intro a s
      rw [ofNat_toNat (show idx < 256 by omega)]
      lit [thenE_ok]
    · intro a s; rfl
  · rw [if_neg (fun h => hfull ((full_test hd).1 h)), if_neg hfull]
    lit [forIn_loop, hl, succ_small hcnt (Nat.le_refl 32), newLinkArray_eq (show popcount lk.pmap + 1 < 256 by omega), setPtr]
    obtain ⟨m, -, hnew⟩ := newLinkArray_ok (K := K) (V := V) (popcount lk.pmap + 1) s
    have g1 := load_same hs (grow_keeps s (.links (List.replicate m {}))) hl
    have g2 := modLink_run g1 fun x => { x with ptr := .blk s.next }
    have g3 := load_put g1 { lk with ptr := .blk s.next }
    obtain ⟨rk', g4, g5, g6, g7, -⟩ := hs.replace hl g2
    have hne' : Ptr.blk s.next ≠ l.base := fun e => Nat.lt_irrefl _ (load_lt hs hl _ e.symm)
    lit [hnew, g2]
    rw [copy_loop l { lk with ptr := .blk s.next } lk.ptr 0 0 idx hi (by omega) (by omega) hne' ?_ ?_ idx 0 _ _ rfl (by omega) (by omega) g3]
    · rcases hc1 : run (copyUp (.blk s.next) lk.ptr 0 0 idx 0) (put (grow s (.links (List.replicate m {}))) l { lk with ptr := .blk s.next }) with e | ⟨u, t⟩
      · rfl
      have h1 := copyUp_keeps _ _ _ _ hne' _ _ g3 hc1
      have h2 := g4.copyUp _ _ _ _ _ _ g7 hc1
      lit [h1]
      rcases hce : run cell t with e | ⟨p, t'⟩
      · rfl
      obtain ⟨h3, h4, h5⟩ := hc _ _ _ _ h2.rank hce
      have h6 := load_same h2.rank h5 h1
      lit [ofNat_toNat (show idx < 256 by omega)]
      rcases store_cases ⟨.blk s.next, idx⟩ (mk p) t' with ⟨e, he⟩ | hst
      · lit [he]
      have h7 := load_put_ne (r := ⟨.blk s.next, idx⟩) (Or.inl (Ne.symm hne')) h6 (mk p)
      lit [hst]
      rw [copy_loop l { lk with ptr := .blk s.next } lk.ptr 1 0 (popcount lk.pmap) hcnt (by omega) (by omega) hne' ?_ ?_ (popcount lk.pmap - idx) idx _ _ rfl hi (by omega) h7]
      · dsimp only
        rcases hc2 : run (copyUp (.blk s.next) lk.ptr 1 0 (popcount lk.pmap - idx) idx) (put t' ⟨.blk s.next, idx⟩ (mk p)) with e | ⟨u, t''⟩
        · rfl
        have h8 := copyUp_keeps _ _ _ _ hne' _ _ h7 hc2
        lit [h8, setPmap, setTmap, modLink_run h8, load_put h8, modLink_run (load_put h8 _), put_put h8, run_modRoot, rootSt_rootSt, setWidth_dep hd]
        rfl
      · intro i s hi
        rw [succ_small hi (Nat.le_refl 32), ofNat_toNat (show i < 256 by omega), ofNat_toNat (show i + 1 < 256 by omega)]
        lit [Nat.add_zero]
      · intro a s; rfl
    · intro i s hi
      rw [ofNat_toNat (show i < 256 by omega)]
      lit [Nat.add_zero]
    · intro a s; rfl

end

end Amt.Go
