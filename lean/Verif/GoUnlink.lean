/-
The part of the translated `Del` that takes a key out.  Used only in proofs.
-/
import Verif.GoLevel

set_option linter.unusedVariables false
set_option linter.unusedSectionVars false
set_option linter.unusedSimpArgs false

namespace Amt.Go
open Amt

section
variable {K V α β R : Type}

/-! ### The path -/

/-- The radices in the slice are less than 16. -/
def Radices (p : Slice) : Prop := ∀ e ∈ p.view, e.1 < 16

theorem clear_radices {p q : Slice} {d : Nat} {s t : St K V} (hp : Radices p) (h : run (p.clear d) s = .ok (q, t)) : t = s ∧ Radices q := by
  have hc : ∀ (xs : List PathLink) (n : Nat), (∀ e ∈ xs.take n, e.1 < 16) → ∀ e ∈ (pathClear xs d).take n, e.1 < 16 := by
    intro xs n hx e he
    obtain ⟨i, hi⟩ := List.getElem?_of_mem he
    rw [List.getElem?_take] at hi
    split at hi
    · next hlt =>
      rw [pathClear, List.getElem?_modify] at hi
      cases hxi : xs[i]? with
      | none => rw [hxi] at hi; cases hi
      | some y =>
        have hy : y ∈ xs.take n := List.mem_of_getElem? (i := i) (by rw [List.getElem?_take, if_pos hlt]; exact hxi)
        rw [hxi] at hi
        have := hx y hy
        simp only [Option.map_eq_map, Option.map_some, Option.some.injEq] at hi
        split at hi
        · rw [← hi]; exact this
        · rw [← hi]; exact this
    · cases hi
  unfold run Slice.clear at h
  unfold Radices Slice.view at hp ⊢
  by_cases hd : d < p.len
  · rw [if_pos hd] at h
    cases hb : p.big with
    | none =>
      simp only [hb] at h hp
      cases h
      refine ⟨rfl, ?_⟩
      simp only [hb]
      exact hc _ _ hp
    | some b =>
      simp only [hb] at h hp
      cases h
      exact ⟨rfl, hc _ _ hp⟩
  · rw [if_neg hd] at h
    cases h

theorem view_lt {p : Slice} {d : Nat} {e : PathLink} (h : p.view[d]? = some e) : d < p.len := by
  unfold Slice.view at h
  split at h
  · rw [List.getElem?_take] at h
    split at h
    · assumption
    · cases h
  · rw [List.getElem?_take] at h
    split at h
    · assumption
    · cases h

theorem clear_ok {p : Slice} {d : Nat} (h : d < p.len) (s : St K V) : ∃ q, run (p.clear d) s = .ok (q, s) := by
  unfold Slice.clear
  rw [if_pos h]
  split
  · exact ⟨_, rfl⟩
  · exact ⟨_, rfl⟩

/-- Where the path leads. -/
theorem path_cases (p : Slice) {d : Nat} (hd : d < 256) (hp : Radices p) (s : St K V) :
    (∃ e, run (p.linkAt (BitVec.ofNat 8 d)) s = .error e ∧ run (p.at' d) s = .error e) ∨
    (∃ r q, run (p.linkAt (BitVec.ofNat 8 d)) s = .ok (⟨.nil, 0⟩, s) ∧ run (p.radixAt (BitVec.ofNat 8 d)) s = .ok (r, s) ∧
      run (p.clearAt (BitVec.ofNat 8 d)) s = .ok (q, s) ∧ run (p.at' d) s = .error .nilDeref) ∨
    (∃ r l q, r < 16 ∧ run (p.linkAt (BitVec.ofNat 8 d)) s = .ok (l, s) ∧ run (p.radixAt (BitVec.ofNat 8 d)) s = .ok (BitVec.ofNat 8 r, s) ∧
      run (p.clearAt (BitVec.ofNat 8 d)) s = .ok (q, s) ∧ run (p.clear d) s = .ok (q, s) ∧ run (p.at' d) s = .ok ((r, l), s)) := by
  unfold Slice.linkAt Slice.radixAt Slice.at' pathAt Slice.clearAt
  rw [ofNat_toNat hd]
  cases hv : p.view[d]? with
  | none => exact Or.inl ⟨_, rfl, rfl⟩
  | some e =>
    obtain ⟨q, hq⟩ := clear_ok (view_lt hv) s
    obtain ⟨r, l⟩ := e
    cases l with
    | none => exact Or.inr (Or.inl ⟨_, q, rfl, rfl, hq, rfl⟩)
    | some l => exact Or.inr (Or.inr ⟨r, l, q, hp _ (List.mem_of_getElem? hv), rfl, rfl, hq, hq, rfl⟩)

theorem load_nil (s : St K V) : run (load ⟨.nil, 0⟩) s = .error .nilDeref := rfl

theorem pred_eq {d : Nat} : BitVec.ofNat 8 (d + 1) - 1#8 = BitVec.ofNat 8 d := by
  apply BitVec.eq_of_toNat_eq
  simp only [BitVec.toNat_sub, BitVec.toNat_ofNat]
  omega

theorem zero_iff {n : Nat} (h : n < 256) : BitVec.ofNat 8 n = 0#8 ↔ n = 0 := by
  constructor
  · intro h'
    have := congrArg BitVec.toNat h'
    rwa [ofNat_toNat h] at this
  · intro h; rw [h]

theorem one_iff {n : Nat} (h : n < 256) : BitVec.ofNat 8 n = 1#8 ↔ n = 1 := by
  constructor
  · intro h'
    have := congrArg BitVec.toNat h'
    rwa [ofNat_toNat h] at this
  · intro h; rw [h]

/-! ### Empty branches -/

/-- `for count == 0 && d != 0` (string_map.go:356-365). -/
def emptyS : (d : Nat) → Slice → (l : Ref) → (idx count : Nat) → M K V (Nat × Slice × Ref × Nat × Nat)
  | 0, p, l, idx, count => pure (0, p, l, idx, count)
  | d + 1, p, l, idx, count =>
    if count = 0 then do
      modLink l fun y => { y with ptr := .nil }
      let (radix, l') ← p.at' d
      let p ← p.clear d
      let lk ← load l'
      let idx' := rankOf lk.pmap radix
      modLink l' fun y => { y with pmap := y.pmap &&& ~~~bitOf radix, tmap := y.tmap &&& ~~~bitOf radix }
      let lk' ← load l'
      emptyS d p l' idx' (popcount lk'.pmap)
    else pure (d + 1, p, l, idx, count)

theorem unlinkS_emptyS (h : Nat) : ∀ d p l idx count, (unlinkS h d p l idx count : M K V Slice) =
    emptyS d p l idx count >>= fun r => (shiftBack r.1 r.2.2.1 r.2.2.2.1 r.2.2.2.2 >>= fun _ => collapseS h r.1 r.2.1 r.2.2.1 r.2.2.2.2) := by
  intro d
  induction d with
  | zero => intros; rfl
  | succ d ih =>
    intro p l idx count
    rw [unlinkS, emptyS]
    split
    · funext s
      show run _ s = run _ s
      lit [ih]
    · rfl

/-- An iteration of the loop as translated. -/
def emptyG {σ : Type} (mk : Slice → Ref → BitVec 8 → BitVec 8 → BitVec 32 → BitVec 8 → BitVec 8 → σ) (path : Slice) (l : Ref) (d radix : BitVec 8) (bit : BitVec 32)
    (idx count : BitVec 8) : M K V (ForInStep σ) := do
  if !((count == 0#8) && (d != 0#8)) then pure (.done (mk path l d radix bit idx count))
  else
    setPtr l .nil
    let d := d - 1#8
    let l ← path.linkAt d
    let radix ← path.radixAt d
    let path ← path.clearAt d
    let bit : BitVec 32 := 1#32 <<< radix
    let idx := BitVec.ofNat 8 (popcount ((← load l).pmap &&& ~~~((~~~0#32) <<< radix)))
    setPmap l ((← load l).pmap &&& ~~~bit)
    setTmap l ((← load l).tmap &&& ~~~bit)
    let count := BitVec.ofNat 8 (popcount (← load l).pmap)
    pure (.yield (mk path l d radix bit idx count))

theorem empty_loop {σ : Type} (mk : Slice → Ref → BitVec 8 → BitVec 8 → BitVec 32 → BitVec 8 → BitVec 8 → σ) {f : σ → M K V (ForInStep σ)}
    (hf : ∀ p l d radix bit idx count s, run (f (mk p l d radix bit idx count)) s = run (emptyG mk p l d radix bit idx count) s)
    {F : σ × St K V → Except Fault β} :
    ∀ d m p l radix bit idx count s, d < m → d < 256 → count ≤ 32 → Radices p → ∃ r' b',
      thenE (run (loop f m (mk p l (BitVec.ofNat 8 d) radix bit (BitVec.ofNat 8 idx) (BitVec.ofNat 8 count))) s) F
        = thenE (run (emptyS d p l idx count) s) fun r => F (mk r.1.2.1 r.1.2.2.1 (BitVec.ofNat 8 r.1.1) r' b' (BitVec.ofNat 8 r.1.2.2.2.1) (BitVec.ofNat 8 r.1.2.2.2.2), r.2) := by
  intro d
  induction d with
  | zero =>
    intro m p l radix bit idx count s hm hd hc hp
    obtain ⟨m, rfl⟩ : ∃ k, m = k + 1 := ⟨m - 1, by omega⟩
    have ht : (!((BitVec.ofNat 8 count == 0#8) && (BitVec.ofNat 8 0 != 0#8))) = true := by simp
    refine ⟨radix, bit, ?_⟩
    rw [loop_succ, run_bind, hf, emptyG, if_pos ht, emptyS]
    lit [thenE_ok]
  | succ d ih =>
    intro m p l radix bit idx count s hm hd hc hp
    obtain ⟨m, rfl⟩ : ∃ k, m = k + 1 := ⟨m - 1, by omega⟩
    have hd0 : BitVec.ofNat 8 (d + 1) ≠ 0#8 := fun h => by have := (zero_iff hd).1 h; omega
    rw [loop_succ, run_bind, hf, emptyG, emptyS]
    by_cases h0 : count = 0
    · subst h0
      have ht : (!((BitVec.ofNat 8 0 == 0#8) && (BitVec.ofNat 8 (d + 1) != 0#8))) = false := by simp [hd0]
      rw [ht, if_neg Bool.false_ne_true, if_pos rfl, pred_eq]
      unfold setPtr
      lit [thenE_ok]
      rcases hm1 : run (modLink l fun y => { y with ptr := .nil }) s with e | ⟨u, s1⟩
      · exact ⟨0, 0, rfl⟩
      dsimp only [thenE_ok]
      rcases path_cases p (show d < 256 by omega) hp s1 with ⟨e, h1, h2⟩ | ⟨r, q, h1, h2, h3, h4⟩ | ⟨r, l', q, hr, h1, h2, h3, h4, h5⟩
      · refine ⟨0, 0, ?_⟩; lit [h1, h2]
      · refine ⟨0, 0, ?_⟩; lit [h1, h2, h3, h4, load_nil]
      · lit [h1, h2, h3, h4, h5]
        rcases run_load l' s1 with ⟨e, he⟩ | ⟨lk, hl⟩
        · refine ⟨0, 0, ?_⟩; lit [he]
        unfold setPmap setTmap
        lit [hl, modLink_run hl, load_put hl, modLink_run (load_put hl _), put_put hl, bit_eq (show r < 256 by omega), rank_eq _ (show r < 256 by omega), load_put hl]
        exact ih _ _ _ _ _ _ _ _ (by omega) (by omega) (popcount_le _) (clear_radices hp h4).2
    · have ht : (!((BitVec.ofNat 8 count == 0#8) && (BitVec.ofNat 8 (d + 1) != 0#8))) = true := by
        have : BitVec.ofNat 8 count ≠ 0#8 := fun h => h0 ((zero_iff (by omega)).1 h)
        simp [this]
      rw [if_pos ht, if_neg h0]
      refine ⟨radix, bit, ?_⟩
      lit [thenE_ok]

theorem empty_loop' {σ : Type} (mk : Slice → Ref → BitVec 8 → BitVec 8 → BitVec 32 → BitVec 8 → BitVec 8 → σ) {f : σ → M K V (ForInStep σ)}
    {F : σ × St K V → Except Fault β} {d m : Nat} {p : Slice} {l : Ref} {radix : BitVec 8} {bit : BitVec 32} {idx count : Nat} {s : St K V} {x : Except Fault β}
    (hf : ∀ p l d radix bit idx count s, run (f (mk p l d radix bit idx count)) s = run (emptyG mk p l d radix bit idx count) s)
    (hm : d < m) (hd : d < 256) (hc : count ≤ 32) (hp : Radices p)
    (hx : ∀ r' b', (thenE (run (emptyS d p l idx count) s) fun r => F (mk r.1.2.1 r.1.2.2.1 (BitVec.ofNat 8 r.1.1) r' b' (BitVec.ofNat 8 r.1.2.2.2.1) (BitVec.ofNat 8 r.1.2.2.2.2), r.2)) = x) :
    thenE (run (loop f m (mk p l (BitVec.ofNat 8 d) radix bit (BitVec.ofNat 8 idx) (BitVec.ofNat 8 count))) s) F = x := by
  obtain ⟨r', b', e⟩ := empty_loop mk (F := F) hf d m p l radix bit idx count s hm hd hc hp
  exact e.trans (hx r' b')

/-- Where the loop stops. -/
theorem emptyS_ends : ∀ d p (l : Ref) idx count {s t : St K V} {r : Nat × Slice × Ref × Nat × Nat} {lk : Link} {rk : Nat → Nat}, d < 256 → idx ≤ 32 → count ≤ 32 →
    Radices p → Ranked rk s → run (load l) s = .ok (lk, s) → run (emptyS d p l idx count) s = .ok (r, t) →
    r.1 < 256 ∧ r.2.2.2.1 ≤ 32 ∧ r.2.2.2.2 ≤ 32 ∧ Radices r.2.1 ∧ Ranked rk t ∧ ∃ lk', run (load r.2.2.1) t = .ok (lk', t) := by
  intro d
  induction d with
  | zero =>
    intro p l idx count s t r lk rk hd hi hc hp hs hl h
    cases h
    exact ⟨hd, hi, hc, hp, hs, _, hl⟩
  | succ d ih =>
    intro p l idx count s t r lk rk hd hi hc hp hs hl h
    rw [emptyS] at h
    split at h
    · obtain ⟨u, s1, h1, h⟩ := ok_bind h
      have k1 := hs.modLink (fun x hx => Up.nil) h1
      obtain ⟨⟨r', l'⟩, s2, h2, h⟩ := ok_bind h
      rcases path_cases p (show d < 256 by omega) hp s1 with ⟨e, g1, g2⟩ | ⟨r, q, g1, g2, g3, g4⟩ | ⟨r, l'', q, hr, g1, g2, g3, g4, g5⟩
      · rw [g2] at h2; cases h2
      · rw [g4] at h2; cases h2
      · rw [g5] at h2
        cases h2
        obtain ⟨q', s3, h3, h⟩ := ok_bind h
        rw [g4] at h3
        cases h3
        dsimp only at h
        obtain ⟨lk1, s4, h4, h⟩ := ok_bind h
        cases run_load_state h4
        obtain ⟨u, s5, h5, h⟩ := ok_bind h
        have k2 := k1.rank.modMaps (r := l') (by intro _; rfl) h5
        obtain ⟨lk2, s6, h6, h⟩ := ok_bind h
        cases run_load_state h6
        exact ih _ _ _ _ (by omega) (rankOf_le _ _) (popcount_le _) (clear_radices hp g4).2 k2.rank h6 h
    · cases h
      exact ⟨hd, hi, hc, hp, hs, _, hl⟩

/-! ### Branches with one key -/

/-- `for count == 1 && l.pmap == l.tmap && d != 0` (string_map.go:380-388). -/
def singleS (h : Nat) : (d : Nat) → Slice → (l : Ref) → (count : Nat) → M K V (Nat × Slice)
  | 0, p, _, _ => pure (0, p)
  | d + 1, p, l, count => do
    let lk ← load l
    if count = 1 ∧ lk.pmap = lk.tmap then
      let x ← load ⟨lk.ptr, 0⟩
      store l x
      modRoot h fun m => { m with dep := m.dep - 1 }
      let (radix, l') ← p.at' d
      let p ← p.clear d
      modLink l' fun y => { y with tmap := y.tmap ||| bitOf radix }
      let lk' ← load l'
      singleS h d p l' (popcount lk'.pmap)
    else pure (d + 1, p)

theorem collapseS_singleS (h : Nat) : ∀ d p l count, (collapseS h d p l count : M K V Slice) = singleS h d p l count >>= fun r => r.2.clearAll r.1 := by
  intro d
  induction d with
  | zero => intros; rfl
  | succ d ih =>
    intro p l count
    rw [collapseS, singleS]
    funext s
    show run _ s = run _ s
    lit [ih]

/-- An iteration of the loop as translated. -/
def singleG {σ : Type} (m : Handle) (mk : Slice → Ref → BitVec 8 → BitVec 8 → BitVec 8 → σ) (path : Slice) (l : Ref) (d radix count : BitVec 8) : M K V (ForInStep σ) := do
  if !((← andM (do pure (count == 1#8)) (do pure ((← load l).pmap == (← load l).tmap))) && (d != 0#8)) then pure (.done (mk path l d radix count))
  else
    store l ((← load (elem (← load l).ptr 0)))
    modRoot (← deref m) fun r => { r with dep := r.dep - 1#64 }
    let d := d - 1#8
    let l ← path.linkAt d
    let radix ← path.radixAt d
    let path ← path.clearAt d
    setTmap l ((← load l).tmap ||| (1#32 <<< radix))
    let count := BitVec.ofNat 8 (popcount (← load l).pmap)
    pure (.yield (mk path l d radix count))

theorem single_loop {σ : Type} (h : Nat) (mk : Slice → Ref → BitVec 8 → BitVec 8 → BitVec 8 → σ) {f : σ → M K V (ForInStep σ)}
    (hf : ∀ p l d radix count s, run (f (mk p l d radix count)) s = run (singleG (some h) mk p l d radix count) s)
    {F : σ × St K V → Except Fault β} (hF : ∀ p l d r c s, F (mk p l d r c, s) = F (mk p ⟨.nil, 0⟩ d 0 0, s)) :
    ∀ d m p l radix count s lk, d < m → d < 256 → count ≤ 32 → Radices p → run (load l) s = .ok (lk, s) →
      thenE (run (loop f m (mk p l (BitVec.ofNat 8 d) radix (BitVec.ofNat 8 count))) s) F
        = thenE (run (singleS h d p l count) s) fun r => F (mk r.1.2 ⟨.nil, 0⟩ (BitVec.ofNat 8 r.1.1) 0 0, r.2) := by
  intro d
  induction d with
  | zero =>
    intro m p l radix count s lk hm hd hc hp hl
    obtain ⟨m, rfl⟩ : ∃ k, m = k + 1 := ⟨m - 1, by omega⟩
    rw [loop_succ, run_bind, hf, singleG, singleS]
    unfold andM
    lit [hl]
    by_cases h1 : (BitVec.ofNat 8 count == 1#8) = true
    · simp only [if_pos h1]
      have e0 : ∀ b : Bool, (!(b && (BitVec.ofNat 8 0 != 0#8))) = true := by intro b; cases b <;> rfl
      lit [e0, hF]
    · simp only [if_neg h1]
      lit [Bool.false_and, Bool.not_false, hF]
  | succ d ih =>
    intro m p l radix count s lk hm hd hc hp hl
    obtain ⟨m, rfl⟩ : ∃ k, m = k + 1 := ⟨m - 1, by omega⟩
    have hd0 : BitVec.ofNat 8 (d + 1) ≠ 0#8 := fun h => by have := (zero_iff hd).1 h; omega
    have hd1 : (BitVec.ofNat 8 (d + 1) != 0#8) = true := by simp [hd0]
    rw [loop_succ, run_bind, hf, singleG, singleS]
    unfold andM
    by_cases h1 : count = 1
    · subst h1
      have e1 : (BitVec.ofNat 8 1 == 1#8) = true := rfl
      have e3 : (1 : BitVec 64) = 1#64 := rfl
      by_cases h2 : lk.pmap = lk.tmap
      · have e2 : (lk.pmap == lk.tmap) = true := by rw [h2]; exact beq_self_eq_true _
        lit [hl, e1, e2, hd1, e3, true_and, if_pos h2, Bool.and_self, Bool.not_true]
        rcases run_load ⟨lk.ptr, 0⟩ s with ⟨e, he⟩ | ⟨x, hx⟩
        · lit [he]
        lit [hx, store_run hl, run_modRoot, pred_eq]
        rcases path_cases p (show d < 256 by omega) hp (rootSt (put s l x) h fun r => { r with dep := r.dep - 1#64 }) with
          ⟨e, h1, h2⟩ | ⟨r, q, h1, h2, h3, h4⟩ | ⟨r, l', q, hr, h1, h2, h3, h4, h5⟩
        · lit [h1, h2]
        · lit [h1, h2, h3, h4, load_nil]
        · lit [h1, h2, h3, h4, h5]
          rcases run_load l' (rootSt (put s l x) h fun r => { r with dep := r.dep - 1#64 }) with ⟨e, he⟩ | ⟨lk', hl'⟩
          · lit [he, modLink_err he]
          unfold setTmap
          lit [hl', modLink_run hl', load_put hl', bit_eq (show r < 256 by omega)]
          exact ih _ _ _ _ _ _ _ (by omega) (by omega) (popcount_le _) (clear_radices hp h4).2 (load_put hl' _)
      · have e2 : (lk.pmap == lk.tmap) = false := by simpa using h2
        lit [hl, e1, e2, h2, and_false, Bool.false_and, Bool.not_false, hF]
    · have e1 : (BitVec.ofNat 8 count == 1#8) = false := by
        have : BitVec.ofNat 8 count ≠ 1#8 := fun h => h1 ((one_iff (by omega)).1 h)
        simpa using this
      lit [hl, e1, h1, false_and, Bool.false_and, Bool.not_false, hF]

/-- The path after the loop. -/
theorem singleS_ends (h : Nat) : ∀ d p (l : Ref) count {s t : St K V} {r : Nat × Slice} {rk : Nat → Nat}, d < 256 → Radices p → Ranked rk s →
    run (singleS h d p l count) s = .ok (r, t) → r.1 < 256 ∧ Ranked rk t := by
  intro d
  induction d with
  | zero =>
    intro p l count s t r rk hd hp hs he
    cases he
    exact ⟨hd, hs⟩
  | succ d ih =>
    intro p l count s t r rk hd hp hs he
    rw [singleS] at he
    obtain ⟨lk, s1, h1, he⟩ := ok_bind he
    cases run_load_state h1
    split at he
    · obtain ⟨x, s2, h2, he⟩ := ok_bind he
      cases run_load_state h2
      obtain ⟨u, s3, h3, he⟩ := ok_bind he
      have hu : Up rk s l.base x.ptr := by
        obtain ⟨-, a, xs, ha, hm, hx⟩ := load_inv h2
        intro c hc
        obtain ⟨g1, g2⟩ := hs.load h2 c hc
        refine ⟨g1, fun hl b hb => ?_⟩
        exact Nat.lt_trans ((hs.load h1 a ha).2 ⟨xs, hm⟩ b hb) (g2 hl a ha)
      have k1 := hs.store hu h3
      obtain ⟨u, s4, h4, he⟩ := ok_bind he
      have k2 := k1.rank.modRoot h4
      obtain ⟨⟨r', l'⟩, s5, h5, he⟩ := ok_bind he
      rcases path_cases p (show d < 256 by omega) hp s4 with ⟨e, g1, g2⟩ | ⟨r, q, g1, g2, g3, g4⟩ | ⟨r, l'', q, hr, g1, g2, g3, g4, g5⟩
      · rw [g2] at h5; cases h5
      · rw [g4] at h5; cases h5
      · rw [g5] at h5
        cases h5
        obtain ⟨q', s6, h6, he⟩ := ok_bind he
        rw [g4] at h6
        cases h6
        obtain ⟨u, s7, h7, he⟩ := ok_bind he
        have k3 := k2.rank.modMaps (r := l') (by intro _; rfl) h7
        obtain ⟨lk2, s8, h8, he⟩ := ok_bind he
        cases run_load_state h8
        exact ih _ _ _ (by omega) (clear_radices hp g4).2 k3.rank he
    · cases he
      exact ⟨hd, hs⟩

/-- `for d != 0 { d--; path[d].link = nil }`. -/
theorem clear_loop {σ : Type} (mk : Slice → BitVec 8 → σ) {f : σ → M K V (ForInStep σ)}
    (hf : ∀ p d s, run (f (mk p d)) s = if (!(d != 0#8)) = true then .ok (.done (mk p d), s)
      else thenE (run (p.clearAt (d - 1#8)) s) fun q => .ok (.yield (mk q.1 (d - 1#8)), q.2)) :
    ∀ d m p s, d < m → d < 256 →
      run (loop f m (mk p (BitVec.ofNat 8 d))) s = thenE (run (p.clearAll d) s) fun r => .ok (mk r.1 0#8, r.2) := by
  intro d
  induction d with
  | zero =>
    intro m p s hm hd
    obtain ⟨m, rfl⟩ : ∃ k, m = k + 1 := ⟨m - 1, by omega⟩
    rw [loop_succ, run_bind, hf]
    rfl
  | succ d ih =>
    intro m p s hm hd
    obtain ⟨m, rfl⟩ : ∃ k, m = k + 1 := ⟨m - 1, by omega⟩
    have hd0 : BitVec.ofNat 8 (d + 1) ≠ 0#8 := fun h => by have := (zero_iff hd).1 h; omega
    have hd1 : (!(BitVec.ofNat 8 (d + 1) != 0#8)) = false := by simp [hd0]
    rw [loop_succ, run_bind, hf, hd1, pred_eq, Slice.clearAll, Slice.clearAt, ofNat_toNat (show d < 256 by omega)]
    lit [thenE_ok]
    rcases run (p.clear d) s with e | ⟨q, s1⟩
    · rfl
    lit [thenE_ok]
    exact ih _ _ _ (by omega) (by omega)

/-! ### All of it -/

/-- The end of `Del` as translated (e.g. string_map.go:349-394). -/
def delTail (fuel : Nat) (m : Handle) (path₀ : Slice) (l₀ : Ref) (d₀ radix₀ : BitVec 8) (bit₀ : BitVec 32) (idx₀ : BitVec 8) : M K V (List PathLink) := do
  let mut path := path₀
  let mut l := l₀
  let mut d := d₀
  let mut radix := radix₀
  let mut bit := bit₀
  let mut idx := idx₀
  setPmap l ((← load l).pmap &&& ~~~bit)
  setTmap l ((← load l).tmap &&& ~~~bit)
  modRoot (← deref m) fun r => { r with len := r.len - 1#64 }
  modRoot (← deref m) fun r => { r with dep := r.dep - d.setWidth 64 }
  path ← path.clearAt d
  let mut count : BitVec 8 := BitVec.ofNat 8 (popcount (← load l).pmap)
  for _ in budget fuel do
    if !((count == 0#8) && (d != 0#8)) then break
    setPtr l .nil
    d := d - 1#8
    l := (← path.linkAt d)
    radix := (← path.radixAt d)
    path ← path.clearAt d
    bit := 1#32 <<< radix
    idx := BitVec.ofNat 8 (popcount ((← load l).pmap &&& ~~~((~~~0#32) <<< radix)))
    setPmap l ((← load l).pmap &&& ~~~bit)
    setTmap l ((← load l).tmap &&& ~~~bit)
    count := BitVec.ofNat 8 (popcount (← load l).pmap)
  let src : Ptr := (← load l).ptr
  if ((count % 4#8) == 0#8) && (d != 0#8) then
    setPtr l (← newLinkArray count)
    let mut before : BitVec 8 := 0#8
    for _ in budget fuel do
      if !(decide (before < idx)) then break
      store (elem (← load l).ptr before.toNat) (← load (elem src before.toNat))
      before := before + 1#8
  let mut after : BitVec 8 := idx
  for _ in budget fuel do
    if !(decide (after < count)) then break
    store (elem (← load l).ptr after.toNat) ((← load (elem src ((after + 1#8).toNat))))
    after := after + 1#8
  for _ in budget fuel do
    if !((← andM (do pure (count == 1#8)) (do pure ((← load l).pmap == (← load l).tmap))) && (d != 0#8)) then break
    store l ((← load (elem (← load l).ptr 0)))
    modRoot (← deref m) fun r => { r with dep := r.dep - 1#64 }
    d := d - 1#8
    l := (← path.linkAt d)
    radix := (← path.radixAt d)
    path ← path.clearAt d
    setTmap l ((← load l).tmap ||| (1#32 <<< radix))
    count := BitVec.ofNat 8 (popcount (← load l).pmap)
  for _ in budget fuel do
    if !(d != 0#8) then break
    d := d - 1#8
    path ← path.clearAt d
  return path.arr

/-- The same, as in `removeS`. -/
def delL (h : Nat) (p : Slice) (l : Ref) (d idx : Nat) (bit : BitVec 32) : M K V Slice := do
  modLink l fun y => { y with pmap := y.pmap &&& ~~~bit, tmap := y.tmap &&& ~~~bit }
  modRoot h fun m => { m with len := m.len - 1, dep := m.dep - BitVec.ofNat 64 d }
  let p ← p.clear d
  let lk' ← load l
  unlinkS h d p l idx (popcount lk'.pmap)

theorem clearAt_eq (p : Slice) {d : Nat} (hd : d < 256) : (p.clearAt (BitVec.ofNat 8 d) : M K V Slice) = p.clear d := by
  rw [Slice.clearAt, ofNat_toNat hd]

theorem load_rootSt {l : Ref} {lk : Link} {s : St K V} (hl : run (load l) s = .ok (lk, s)) (h : Nat) (f : Meta → Meta) :
    run (load l) (rootSt s h f) = .ok (lk, rootSt s h f) := by
  obtain ⟨-, b, xs, h1, h2, h3⟩ := load_inv hl
  unfold run load
  rw [h1]
  simp only [rootSt, h2, h3]

theorem shrink_test {c d : Nat} (hc : c < 256) (hd : d < 256) :
    ((((BitVec.ofNat 8 c % 4#8) == 0#8) && (BitVec.ofNat 8 d != 0#8)) = true) = (c % 4 = 0 ∧ d ≠ 0) := by
  have e4 : BitVec.ofNat 8 c % 4#8 = BitVec.ofNat 8 (c % 4) := by
    apply BitVec.eq_of_toNat_eq
    rw [BitVec.toNat_umod, ofNat_toNat hc, ofNat_toNat (n := c % 4) (by omega)]
    rfl
  rw [e4]
  simp only [Bool.and_eq_true, bne_iff_ne, beq_iff_eq, ne_eq, zero_iff hd, zero_iff (n := c % 4) (by omega)]

/-- The two last loops. -/
theorem end_loops (h n : Nat) {fS : Slice × Ref × BitVec 8 × BitVec 8 × BitVec 8 → M K V (ForInStep (Slice × Ref × BitVec 8 × BitVec 8 × BitVec 8))}
    {fC : Slice × BitVec 8 → M K V (ForInStep (Slice × BitVec 8))}
    (hS : ∀ p l d radix count s, run (fS (p, l, d, radix, count)) s = run (singleG (some h) (fun p l d r c => (p, l, d, r, c)) p l d radix count) s)
    (hC : ∀ p d s, run (fC (p, d)) s = if (!(d != 0#8)) = true then .ok (.done (p, d), s)
      else thenE (run (p.clearAt (d - 1#8)) s) fun q => .ok (.yield (q.1, d - 1#8), q.2))
    {d : Nat} {p : Slice} {l : Ref} (radix : BitVec 8) {count : Nat} {s : St K V} {lk : Link} {rk : Nat → Nat} (hd : d < 256) (hc : count ≤ 32) (hp : Radices p)
    (hs : Ranked rk s) (hl : run (load l) s = .ok (lk, s)) :
    (thenE (run (loop fS (n + 300) (p, l, BitVec.ofNat 8 d, radix, BitVec.ofNat 8 count)) s) fun r =>
      thenE (run (loop fC (n + 300) (r.1.1, r.1.2.2.1)) r.2) fun r => .ok (r.1.1.arr, r.2))
      = thenE (run (collapseS h d p l count) s) fun r => .ok (r.1.arr, r.2) := by
  rw [single_loop h (fun p l d r c => (p, l, d, r, c)) hS ?_ d (n + 300) p l radix count s lk (by omega) hd hc hp hl, collapseS_singleS]
  · rcases h1 : run (singleS h d p l count) s with e | ⟨⟨d', p'⟩, t⟩
    · lit [h1]
    have h2 := singleS_ends h _ _ _ _ hd hp hs h1
    lit [h1]
    rw [clear_loop (fun p d => (p, d)) hC d' (n + 300) p' t (by have := h2.1; omega) h2.1]
    lit [thenE_ok]
  · intro p l d r c s; rfl

theorem delTail_eq {rk : Nat → Nat} {s : St K V} (hs : Ranked rk s) (n h : Nat) {p : Slice} (hp : Radices p) {l : Ref} {lk : Link}
    (hl : run (load l) s = .ok (lk, s)) {d idx : Nat} (hd : d < 256) (hi : idx ≤ 32) (radix : BitVec 8) (bit : BitVec 32) :
    run (delTail n (some h) p l (BitVec.ofNat 8 d) radix bit (BitVec.ofNat 8 idx)) s
      = run (do let p ← delL h p l d idx bit; pure p.arr) s := by
  unfold delTail delL
  have e3 : (1 : BitVec 64) = 1#64 := rfl
  lit [forIn_loop, hl, setPmap, setTmap, modLink_run hl, load_put hl, modLink_run (load_put hl _), put_put hl, run_modRoot, rootSt_rootSt, setWidth_dep hd,
    clearAt_eq p hd, unlinkS_emptyS, e3]
  have g1 := hs.modMaps (r := l) (f := fun y => { y with pmap := y.pmap &&& ~~~bit, tmap := y.tmap &&& ~~~bit }) (by intro _; rfl) (modLink_run hl _)
  have g2 := (g1.rank.modRoot (run_modRoot h (fun m => { m with len := m.len - 1#64, dep := m.dep - BitVec.ofNat 64 d }) _)).rank
  have g3 := load_rootSt (load_put hl { lk with pmap := lk.pmap &&& ~~~bit, tmap := lk.tmap &&& ~~~bit }) h
    (fun m => { m with len := m.len - 1#64, dep := m.dep - BitVec.ofNat 64 d })
  generalize (rootSt (put s l { ptr := lk.ptr, pmap := lk.pmap &&& ~~~bit, tmap := lk.tmap &&& ~~~bit }) h fun m =>
          { seed := m.seed, len := m.len - 1#64, dep := m.dep - BitVec.ofNat 64 d }) = S at *
  rcases hc : run (p.clear d) S with e | ⟨q, S'⟩
  · rfl
  obtain ⟨rfl, hq⟩ := clear_radices hp hc
  lit [g3]
  refine empty_loop' (fun p l d r b i c => (p, l, d, r, b, i, c)) (count := popcount (lk.pmap &&& ~~~bit)) ?_ (by omega) hd (popcount_le _) hq ?_
  · intros
    unfold emptyG setPmap setTmap
    lit [thenE_ok]
  · intro r' b'
    rcases h1 : run (emptyS d q l idx (popcount (lk.pmap &&& ~~~bit))) S' with e | ⟨⟨d', p', l', idx', count'⟩, t⟩
    · rfl
    obtain ⟨k1, k2, k3, k4, k5, lk', k6⟩ := emptyS_ends _ _ _ _ _ hd hi (popcount_le _) hq g2 g3 h1
    dsimp only at k1 k2 k3 k4 k5 k6
    have hne := k5.noSelf k6
    unfold shiftBack
    lit [k6, shrink_test (show count' < 256 by omega) k1]
    by_cases hr : count' % 4 = 0 ∧ d' ≠ 0
    · simp only [if_pos hr]
      lit [newLinkArray_eq (show count' < 256 by omega), setPtr]
      obtain ⟨m, -, hnew⟩ := newLinkArray_ok (K := K) (V := V) count' t
      have j1 := load_same k5 (grow_keeps t (.links (List.replicate m {}))) k6
      have j2 := modLink_run j1 fun x => { x with ptr := .blk t.next }
      have j3 := load_put j1 { lk' with ptr := .blk t.next }
      obtain ⟨rk', j4, j5, j6, j7, -⟩ := k5.replace k6 j2
      have hne' : Ptr.blk t.next ≠ l'.base := fun e => Nat.lt_irrefl _ (load_lt k5 k6 _ e.symm)
      lit [hnew, j2]
      rw [copy_loop l' { lk' with ptr := .blk t.next } lk'.ptr 0 0 idx' k2 (by omega) (by omega) hne' ?_ ?_ idx' 0 _ _ rfl (by omega) (by omega) j3]
      · rcases hc1 : run (copyUp (.blk t.next) lk'.ptr 0 0 idx' 0) (put (grow t (.links (List.replicate m {}))) l' { lk' with ptr := .blk t.next }) with e | ⟨u, t1⟩
        · rfl
        have i1 := copyUp_keeps _ _ _ _ hne' _ _ j3 hc1
        have i2 := j4.copyUp _ _ _ _ _ _ j7 hc1
        lit [thenE_ok]
        rw [copy_loop l' { lk' with ptr := .blk t.next } lk'.ptr 0 1 count' k3 (by omega) (by omega) hne' ?_ ?_ (count' - idx') idx' _ _ rfl k2 (by omega) i1]
        · dsimp only
          rcases hc2 : run (copyUp (.blk t.next) lk'.ptr 0 1 (count' - idx') idx') t1 with e | ⟨u, t2⟩
          · rfl
          have i3 := copyUp_keeps _ _ _ _ hne' _ _ i1 hc2
          have i4 := i2.rank.copyUp _ _ _ _ _ _ (fun a ha hl b hb => j7 a ha ((i2.isL a).1 hl) b hb) hc2
          lit [thenE_ok]
          exact end_loops h n (by intros; unfold singleG setTmap; lit [thenE_ok]) (by intros; lit [thenE_ok]) r' k1 k3 k4 i4.rank i3
        · intro i s hi
          rw [succ_small hi (Nat.le_refl 32), ofNat_toNat (show i < 256 by omega), ofNat_toNat (show i + 1 < 256 by omega)]
          lit [Nat.add_zero]
        · intro a s; rfl
      · intro i s hi
        rw [ofNat_toNat (show i < 256 by omega)]
        lit [Nat.add_zero]
      · intro a s; rfl
    · simp only [if_neg hr]
      rw [copy_loop l' lk' lk'.ptr 0 1 count' k3 (by omega) (by omega) hne ?_ ?_ (count' - idx') idx' _ _ rfl k2 (by omega) k6]
      · dsimp only
        rcases hc2 : run (copyUp lk'.ptr lk'.ptr 0 1 (count' - idx') idx') t with e | ⟨u, t2⟩
        · rfl
        have i3 := copyUp_keeps _ _ _ _ hne _ _ k6 hc2
        have i4 := k5.copyUp _ _ _ _ _ _ (fun a ha hl b hb => by rw [ha] at hb; cases hb; exact Nat.le_refl _) hc2
        lit [thenE_ok]
        exact end_loops h n (by intros; unfold singleG setTmap; lit [thenE_ok]) (by intros; lit [thenE_ok]) r' k1 k3 k4 i4.rank i3
      · intro i s hi
        rw [succ_small hi (Nat.le_refl 32), ofNat_toNat (show i < 256 by omega), ofNat_toNat (show i + 1 < 256 by omega)]
        lit [Nat.add_zero]
      · intro a s; rfl

end

end Amt.Go
