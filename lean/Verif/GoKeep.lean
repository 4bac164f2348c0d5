/-
Every operation keeps the memory tidy (see `GoTidy.lean`).  Used only in proofs.
-/
import Verif.GoSimDel

set_option linter.unusedVariables false
set_option linter.unusedSectionVars false
set_option linter.unusedSimpArgs false

namespace Amt.Go
open Amt

section
variable {K V R α β : Type}

theorem Neat.bind {x : M K V α} {f : α → M K V β} (hx : Neat x) (hf : ∀ a, Neat (f a)) : Neat (x >>= f) := by
  intro s b t hs he
  obtain ⟨a, s1, h1, h2⟩ := ok_bind he
  exact hf a _ _ _ (hx _ _ _ hs h1) h2

theorem Neat.pure (a : α) : Neat (Pure.pure a : M K V α) := by
  intro s b t hs he
  cases he; exact hs

theorem Neat.fail (e : Fault) : Neat (M.fail e : M K V α) := by
  intro s b t hs he
  cases he

theorem Neat.ite {p : Prop} [Decidable p] {x y : M K V α} (hx : Neat x) (hy : Neat y) : Neat (if p then x else y) := by
  split
  · exact hx
  · exact hy

/-- `x` reads only. -/
def Reads (x : M K V α) : Prop := ∀ s a t, run x s = .ok (a, t) → t = s

theorem Reads.neat {x : M K V α} (h : Reads x) : Neat x := by
  intro s a t hs he
  rw [h _ _ _ he]; exact hs

theorem Reads.bind {x : M K V α} {f : α → M K V β} (hx : Reads x) (hf : ∀ a, Reads (f a)) : Reads (x >>= f) := by
  intro s b t he
  obtain ⟨a, s1, h1, h2⟩ := ok_bind he
  rw [hf a _ _ _ h2, hx _ _ _ h1]

theorem Reads.pure (a : α) : Reads (Pure.pure a : M K V α) := by
  intro s b t he; cases he; rfl

theorem Reads.fail (e : Fault) : Reads (M.fail e : M K V α) := by
  intro s b t he; cases he

theorem Reads.ite {p : Prop} [Decidable p] {x y : M K V α} (hx : Reads x) (hy : Reads y) : Reads (if p then x else y) := by
  split
  · exact hx
  · exact hy

theorem Reads.load (r : Ref) : Reads (Amt.load r : M K V Link) := fun _ _ _ h => run_load_state h

theorem Reads.loadKv (p : Ptr) : Reads (Amt.loadKv p : M K V (Option K × V)) := by
  intro s a t h
  unfold run Amt.loadKv at h
  split at h
  · cases h
  · split at h <;> cases h
    rfl

theorem Reads.getRoot (h : Nat) : Reads (Amt.getRoot h : M K V Meta) := by
  intro s a t he; cases he; rfl

theorem Reads.liftE (x : Except Fault α) : Reads (Amt.liftE x : M K V α) := by
  intro s a t he
  unfold run Amt.liftE at he
  cases x <;> cases he
  rfl

theorem Reads.readKey (c : Cfg K) (x : Link) : Reads (Amt.readKey c x : M K V K) := by
  unfold Amt.readKey
  split
  · refine Reads.bind (Reads.loadKv _) fun a => ?_
    split
    · exact Reads.fail _
    · exact Reads.pure _
  · split
    · exact Reads.fail _
    · exact Reads.pure _
  · split
    · exact Reads.fail _
    · exact Reads.pure _

theorem Reads.itemRef (cur : Cur) : Reads (Amt.itemRef cur : M K V Ref) :=
  Reads.bind (Reads.load _) fun _ => Reads.pure _

theorem Reads.walk (c : Cfg K) (sd : Seed) (key : K) : ∀ n cur, Reads (Go.walk c sd key n cur : M K V _) := by
  intro n
  induction n with
  | zero => intro cur; rw [Go.walk]; exact Reads.bind (Reads.load _) fun _ => Reads.fail _
  | succ n ih =>
    intro cur
    rw [Go.walk]
    refine Reads.bind (Reads.load _) fun lk => ?_
    dsimp only
    exact Reads.ite (Reads.ite (ih _) (Reads.pure _)) (Reads.pure _)

theorem Reads.searchX (c : Cfg K) (sd : Seed) (key : K) (n : Nat) (cur : Cur) : Reads (Go.searchX c sd key n cur : M K V _) :=
  Reads.bind (Reads.walk c sd key n cur) fun _ => Reads.pure _

theorem Neat.storeVal (p : Ptr) (v : V) : Neat (Amt.storeVal p v : M K V Unit) := by
  intro s a t hs he
  obtain ⟨rk, hs⟩ := hs
  unfold run Amt.storeVal at he
  cases p with
  | nil => cases he
  | blk b =>
    dsimp only at he
    cases hm : s.mem b with
    | none => rw [hm] at he; cases he
    | some o =>
      rw [hm] at he
      cases o with
      | links xs => cases he
      | kv k w =>
        cases he
        have hl : ∀ c xs, (if c = b then some (Obj.kv k v) else s.mem c) = some (.links xs) → s.mem c = some (.links xs) := by
          intro c xs h
          by_cases hc : c = b
          · rw [if_pos hc] at h; cases h
          · rwa [if_neg hc] at h
        refine ⟨rk, fun a ha => ?_, fun a xs x hx hm' c hc => ?_⟩
        · have h1 := hs.fits a ha
          show (if a = b then _ else _) = none
          rw [if_neg (by rintro rfl; rw [h1] at hm; cases hm)]
          exact h1
        · obtain ⟨h1, h2⟩ := hs.up a xs x (hl _ _ hx) hm' c hc
          exact ⟨h1, fun ⟨ys, hy⟩ => h2 ⟨ys, hl _ _ hy⟩⟩

/-! ### Free slots -/

/-- No array. -/
def Leaf (s : St K V) (p : Ptr) : Prop := ∀ b, p = .blk b → b < s.next ∧ ¬ IsL s b

theorem Leaf.up {s : St K V} {p : Ptr} (h : Leaf s p) (rk : Nat → Nat) (q : Ptr) : Up rk s q p :=
  fun b hb => ⟨(h b hb).1, fun hl => absurd hl (h b hb).2⟩

theorem Leaf.of_up {rk : Nat → Nat} {s : St K V} {p : Ptr} (h : ∀ q, Up rk s q p) : Leaf s p := by
  intro b hb
  exact ⟨(h .nil b hb).1, fun hl => Nat.lt_irrefl _ ((h (.blk b) b hb).2 hl b rfl)⟩

/-- What a cell for a free slot must be like when it is made later than in `s`. -/
def Later (s : St K V) (cell : M K V Ptr) : Prop := ∀ rk s' p t, Ranked rk s' → s.next ≤ s'.next → (∀ b, b < s.next → (IsL s' b ↔ IsL s b)) →
  run cell s' = .ok (p, t) → Ranked rk t ∧ s'.next ≤ t.next ∧ (∀ b, b < s'.next → t.mem b = s'.mem b) ∧ Leaf t p

theorem Later.pure {s : St K V} {p : Ptr} (h : Leaf s p) : Later s (Pure.pure p : M K V Ptr) := by
  intro rk s' q t hs hn hl he
  cases he
  refine ⟨hs, Nat.le_refl _, fun _ _ => rfl, fun b hb => ?_⟩
  obtain ⟨h1, h2⟩ := h b hb
  exact ⟨by omega, fun h3 => h2 ((hl b h1).1 h3)⟩

theorem Later.newKv (s : St K V) (c : Cfg K) (key : K) (v : V) : Later s (Amt.newKv c key v : M K V Ptr) := by
  intro rk s' p t hs hn hl he
  obtain ⟨h1, h2, h3, h4⟩ := Makes.kv c key v () rk s' (p, ()) t hs (by rw [run_bind, he]; rfl)
  exact ⟨h1, h2, h3, Leaf.of_up h4⟩

theorem slotL_tidy {rk : Nat → Nat} {s t : St K V} (hs : Ranked rk s) {cell : M K V Ptr} (hc : Later s cell) {mk : Ptr → Link} (hmk : ∀ p, (mk p).ptr = p)
    {h : Nat} {l : Ref} {d idx : Nat} {bit : BitVec 32} {r r' : R} (he : run (slotL h l d idx bit cell mk r) s = .ok (r', t)) : Tidy t := by
  unfold slotL at he
  obtain ⟨lk, s1, h1, he⟩ := ok_bind he
  cases run_load_state h1
  dsimp only at he
  have fin : ∀ {rk : Nat → Nat} {s1 : St K V}, Ranked rk s1 → run (do
      modLink l fun x => { x with pmap := x.pmap ||| bit, tmap := x.tmap ||| bit }
      modRoot h fun m => { m with len := m.len + 1, dep := m.dep + BitVec.ofNat 64 d }
      pure r) s1 = .ok (r', t) → Tidy t := by
    intro rk s1 k he
    obtain ⟨u, s2, h2, he⟩ := ok_bind he
    obtain ⟨u, s3, h3, he⟩ := ok_bind he
    cases he
    exact ⟨rk, ((k.modMaps (r := l) (by intro _; rfl) h2).rank.modRoot h3).rank⟩
  split at he
  · obtain ⟨u, s2, h2, he⟩ := ok_bind he
    have k1 := hs.shiftUp _ _ _ h2
    obtain ⟨p, s3, h3, he⟩ := ok_bind he
    obtain ⟨k2, k3, k4, k5⟩ := hc _ _ _ _ k1.rank (Nat.le_of_eq k1.next.symm) (fun b _ => k1.isL b) h3
    obtain ⟨u, s4, h4, he⟩ := ok_bind he
    exact fin (k2.store (r := ⟨lk.ptr, idx⟩) (by rw [hmk]; exact k5.up rk _) h4).rank he
  · obtain ⟨arr, s2, h2, he⟩ := ok_bind he
    obtain ⟨rfl, m, -, rfl⟩ := newLinkArray_inv h2
    obtain ⟨u, s3, h3, he⟩ := ok_bind he
    obtain ⟨rk', g4, g5, g6, g7, g8⟩ := hs.replace h1 h3
    obtain ⟨u, s4, h4, he⟩ := ok_bind he
    have k1 := g4.copyUp _ _ _ _ _ _ g7 h4
    obtain ⟨p, s5, h5, he⟩ := ok_bind he
    obtain ⟨k2, k3, k4, k5⟩ := hc _ _ _ _ k1.rank (by rw [k1.next]; omega) (fun b hb => (k1.isL b).trans (g8 b hb)) h5
    obtain ⟨u, s6, h6, he⟩ := ok_bind he
    have k6 := k2.store (r := ⟨.blk s.next, idx⟩) (by rw [hmk]; exact k5.up rk' _) h6
    obtain ⟨u, s7, h7, he⟩ := ok_bind he
    have k7 := k6.rank.copyUp _ _ _ _ _ _ ?_ h7
    · exact fin k7.rank he
    · intro a ha hl b hb
      rw [k6.isL] at hl
      refine g7 a ha ?_ b hb
      have ha' := (hs.load h1 a ha).1
      obtain ⟨xs, hx⟩ := hl
      rw [k4 a (by rw [k1.next]; omega)] at hx
      exact (k1.isL a).1 ⟨xs, hx⟩

/-! ### Conflicts -/

/-- The hooks keep the memory tidy. -/
structure InsNeat (ins : Ins K V R) : Prop where
  hit : ∀ p, Neat (ins.hit p)
  newSplit : Makes ins.newSplit
  newSlot : Makes ins.newSlot

theorem conflict_neat (c : Cfg K) (sd : Seed) (h n : Nat) (key : K) {ins : Ins K V R} (hi : InsNeat ins) (cur : Cur) : Neat (conflict c sd h n key ins cur) := by
  unfold conflict
  intro s r t hs he
  obtain ⟨item, s1, h1, he⟩ := ok_bind he
  cases Reads.itemRef _ _ _ _ h1
  obtain ⟨x, s2, h2, he⟩ := ok_bind he
  cases run_load_state h2
  obtain ⟨ckey, s3, h3, he⟩ := ok_bind he
  cases Reads.readKey _ _ _ _ _ h3
  split at he
  · exact hi.hit _ _ _ _ hs he
  · obtain ⟨⟨chd, cw⟩, s4, h4, he⟩ := ok_bind he
    cases Reads.liftE _ _ _ _ h4
    obtain ⟨rk, hs⟩ := hs
    dsimp only at he
    split at he
    · obtain ⟨⟨kvp, res⟩, s5, h5, he⟩ := ok_bind he
      obtain ⟨k1, k2, k3, k4⟩ := hi.newSlot _ _ _ _ hs h5
      obtain ⟨u, s6, h6, he⟩ := ok_bind he
      cases he
      exact ⟨rk, (k1.modLink (fun x _ => k4 _) h6).rank⟩
    · obtain ⟨u, s5, h5, he⟩ := ok_bind he
      have k1 := hs.modMaps (r := cur.l) (by intro _; rfl) h5
      obtain ⟨u, s6, h6, he⟩ := ok_bind he
      have k2 := k1.rank.modRoot h6
      exact split_tidy hi.newSplit n ⟨item, cur.d, cur.hd, chd, cur.w, cw⟩ k2.rank (Up.kept c (((hs.load h2).step k1).step k2)) he

theorem upsertL_neat (c : Cfg K) (h n : Nat) (key : K) {ins : Ins K V R} (hi : InsNeat ins) (v : V) (r : R) :
    Neat (upsertL c h n key ins (newKv c key v) r) := by
  unfold upsertL
  refine Neat.bind (Reads.getRoot _).neat fun m => Neat.bind (Reads.searchX _ _ _ _ _).neat fun x => ?_
  refine Neat.ite (conflict_neat c _ h n key hi _) ?_
  intro s a t hs he
  obtain ⟨lk, s1, h1, he⟩ := ok_bind he
  cases run_load_state h1
  obtain ⟨rk, hs⟩ := hs
  exact slotL_tidy hs (Later.newKv s c key v) (fun _ => rfl) he

theorem upsertX_neat (c : Cfg K) (h n : Nat) (key : K) {ins : Ins K V R} (hi : InsNeat ins) : Neat (upsertX c h n key ins) := by
  unfold upsertX
  refine Neat.bind (Reads.getRoot _).neat fun m => Neat.bind (Reads.searchX _ _ _ _ _).neat fun x => ?_
  refine Neat.ite (conflict_neat c _ h n key hi _) ?_
  intro s a t hs he
  obtain ⟨rk, hs⟩ := hs
  rcases run_load x.1.l s with ⟨e, hl⟩ | ⟨lk, hl⟩
  · unfold insertSlot at he
    rw [run_bind, hl] at he
    cases he
  rw [insertSlot_slotL _ _ _ _ _ hl] at he
  rcases hn : run ins.newSlot s with e | ⟨⟨kv, u⟩, s1⟩
  · rw [hn] at he; cases he
  rw [hn, thenE_ok] at he
  obtain ⟨k1, k2, k3, k4⟩ := hi.newSlot _ _ _ _ hs hn
  exact slotL_tidy k1 (Later.pure (Leaf.of_up k4)) (fun _ => rfl) he

/-! ### Deletion -/

theorem clear_state {p q : Slice} {d : Nat} {s t : St K V} (h : run (p.clear d) s = .ok (q, t)) : t = s := by
  rw [Slice.clear] at h
  split at h
  · split at h <;> cases h <;> rfl
  · cases h

theorem clearAll_state : ∀ d {p q : Slice} {s t : St K V}, run (p.clearAll d) s = .ok (q, t) → t = s := by
  intro d
  induction d with
  | zero => intro p q s t h; cases h; rfl
  | succ d ih =>
    intro p q s t h
    rw [Slice.clearAll] at h
    obtain ⟨q', s1, h1, h⟩ := ok_bind h
    cases clear_state h1
    exact ih h

theorem unlinkS_tidy (h : Nat) {d idx count : Nat} {p q : Slice} {l : Ref} {lk : Link} {s t : St K V} {rk : Nat → Nat} (hd : d < 256) (hi : idx ≤ 32) (hc : count ≤ 32) (hp : Radices p)
    (hs : Ranked rk s) (hl : run (load l) s = .ok (lk, s)) (he : run (unlinkS h d p l idx count) s = .ok (q, t)) : Tidy t := by
  rw [unlinkS_emptyS] at he
  obtain ⟨⟨d', p', l', idx', count'⟩, s1, h1, he⟩ := ok_bind he
  obtain ⟨k1, k2, k3, k4, k5, lk', k6⟩ := emptyS_ends _ _ _ _ _ hd hi hc hp hs hl h1
  dsimp only at k1 k2 k3 k4 k5 k6 he
  obtain ⟨u, s2, h2, he⟩ := ok_bind he
  have key : Tidy s2 := by
    unfold shiftBack at h2
    rw [run_bind, k6, thenE_ok] at h2
    dsimp only at h2
    split at h2
    · obtain ⟨arr, s3, h3, h2⟩ := ok_bind h2
      obtain ⟨rfl, m, -, rfl⟩ := newLinkArray_inv h3
      obtain ⟨u, s4, h4, h2⟩ := ok_bind h2
      obtain ⟨rk', g4, g5, g6, g7, g8⟩ := k5.replace k6 h4
      obtain ⟨u, s5, h5, h2⟩ := ok_bind h2
      have j1 := g4.copyUp _ _ _ _ _ _ g7 h5
      have j2 := j1.rank.copyUp _ _ _ _ _ _ (fun a ha hl b hb => g7 a ha ((j1.isL a).1 hl) b hb) h2
      exact ⟨rk', j2.rank⟩
    · exact ⟨rk, (k5.copyUp _ _ _ _ _ _ (fun a ha hl b hb => by rw [ha] at hb; cases hb; exact Nat.le_refl _) h2).rank⟩
  obtain ⟨rk', key⟩ := key
  rw [collapseS_singleS] at he
  obtain ⟨r, s3, h3, he⟩ := ok_bind he
  obtain ⟨j1, j2⟩ := singleS_ends h _ _ _ _ k1 k4 key h3
  rw [clearAll_state _ he]
  exact ⟨rk', j2⟩

theorem deleteX_neat (c : Cfg K) (h n : Nat) (skip : Bool → Bool) (key : K) (scratch : List PathLink) : Neat (deleteX c h n skip key scratch : M K V _) := by
  unfold deleteX
  refine Neat.bind (Reads.getRoot _).neat fun m => ?_
  intro s a t hs he
  obtain ⟨⟨cur, hit⟩, s1, h1, he⟩ := ok_bind he
  cases Reads.searchX _ _ _ _ _ _ _ _ h1
  unfold searchX at h1
  obtain ⟨r, s2, h2, h3⟩ := ok_bind h1
  cases Reads.walk _ _ _ _ _ _ _ _ h2
  obtain ⟨g1, g2, g3, g4, g5⟩ := walk_ends _ _ _ _ _ _ ⟨Nat.zero_lt_succ _, rfl⟩ h2
  have g6 := walk_radices _ _ _ _ _ _ (by intro e he; cases he) h2
  obtain ⟨cur', lk, hit', m'⟩ := r
  cases h3
  dsimp only at g1 g2 g3 g4 g5 g6 he
  cases hit' with
  | false => cases he; exact hs
  | true =>
    simp only [ended, if_true] at he
    obtain ⟨p, s3, h3, he⟩ := ok_bind he
    cases he
    unfold removeS at h3
    obtain ⟨item, s4, h4, he⟩ := ok_bind h3
    cases Reads.itemRef _ _ _ _ h4
    obtain ⟨x, s5, h5, he⟩ := ok_bind he
    cases run_load_state h5
    obtain ⟨ckey, s6, h6, he⟩ := ok_bind he
    cases Reads.readKey _ _ _ _ _ h6
    dsimp only at he
    split at he
    · cases he; exact hs
    obtain ⟨rk, hs⟩ := hs
    rw [run_bind, g2, thenE_ok] at he
    obtain ⟨u, s7, h7, he⟩ := ok_bind he
    have k1 := hs.modMaps (r := cur'.l) (by intro _; rfl) h7
    obtain ⟨u, s8, h8, he⟩ := ok_bind he
    have k2 := k1.rank.modRoot h8
    obtain ⟨q, s9, h9, he⟩ := ok_bind he
    obtain ⟨e9, hq⟩ := clear_radices (sliceOf_radices scratch (snoc_radices g6 _ _)) h9
    rw [e9] at he
    obtain ⟨lk', s10, h10, he⟩ := ok_bind he
    cases run_load_state h10
    exact unlinkS_tidy h g3.d (rankOf_le _ _) (popcount_le _) hq k2.rank h10 he

/-! ### Iteration -/

theorem scanItems_neat {U : Type} {visit : U → Link → M K V (U × Bool)} {rec : U → Ref → M K V (U × Bool)} (hv : ∀ u x, Neat (visit u x))
    (hr : ∀ u l, Neat (rec u l)) (l : Ref) (tm : BitVec 32) : ∀ n i pm u, Neat (scanItems visit rec l tm n i pm u) := by
  intro n
  induction n with
  | zero => intro i pm u; exact Neat.pure _
  | succ n ih =>
    intro i pm u
    rw [scanItems]
    dsimp only
    refine Neat.bind (Reads.load _).neat fun lk => ?_
    split
    · refine Neat.bind (Reads.load _).neat fun x => Neat.bind (hv _ _) fun r => ?_
      exact Neat.ite (ih _ _ _) (Neat.pure _)
    · refine Neat.bind (hr _ _) fun r => ?_
      exact Neat.ite (ih _ _ _) (Neat.pure _)

theorem scan_neat {U : Type} {visit : U → Link → M K V (U × Bool)} (hv : ∀ u x, Neat (visit u x)) : ∀ n u l, Neat (scan visit n u l) := by
  intro n
  induction n with
  | zero => intro u l; exact Neat.fail _
  | succ n ih =>
    intro u l
    rw [scan]
    exact Neat.bind (Reads.load _).neat fun lk => scanItems_neat hv ih _ _ _ _ _ _

theorem newRoot_neat (sd : Seed) : Neat (newRoot sd : M K V Handle) := by
  intro s a t hs he
  obtain ⟨rk, hs⟩ := hs
  cases he
  refine ⟨fun a => if a = s.next then 0 else if a = s.next + 1 then 1 else rk a, fun a ha => ?_, fun a xs x hm hx b hb => ?_⟩
  · have ha : s.next + 2 ≤ a := ha
    show (if a = s.next then _ else if a = s.next + 1 then _ else s.mem a) = none
    rw [if_neg (by omega), if_neg (by omega)]
    exact hs.fits a (by omega)
  · change (if a = s.next then _ else if a = s.next + 1 then _ else s.mem a) = _ at hm
    by_cases h1 : a = s.next
    · rw [if_pos h1] at hm
      cases hm
      rw [List.mem_singleton] at hx
      subst hx
      cases hb
      refine ⟨Nat.lt_succ_self _, fun _ c hc => ?_⟩
      cases hc
      rw [if_pos h1, if_neg (by omega), if_pos rfl]
      exact Nat.zero_lt_one
    · rw [if_neg h1] at hm
      by_cases h2 : a = s.next + 1
      · rw [if_pos h2] at hm
        cases hm
        rw [List.eq_of_mem_replicate hx] at hb
        cases hb
      · rw [if_neg h2] at hm
        obtain ⟨h3, h4⟩ := hs.up a xs x hm hx b hb
        refine ⟨Nat.lt_succ_of_lt (Nat.lt_succ_of_lt h3), fun ⟨ys, hy⟩ c hc => ?_⟩
        cases hc
        change (if b = s.next then _ else if b = s.next + 1 then _ else s.mem b) = _ at hy
        rw [if_neg (by omega), if_neg (by omega)] at hy
        rw [if_neg h1, if_neg h2, if_neg (by omega), if_neg (by omega)]
        exact h4 ⟨ys, hy⟩ a rfl

end

end Amt.Go
