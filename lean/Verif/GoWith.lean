/-
Insertions with callbacks that may do anything that keeps the memory tidy: everything before the call of the callback and everything after
it, as two programs that do not depend on the callback.  For the containers whose keys are in cells.  Used only in proofs.
-/
import Verif.PropsGoCallback
import Verif.Kinds

set_option linter.unusedVariables false
set_option linter.unusedSectionVars false
set_option linter.unusedSimpArgs false

namespace Amt.Go
open Amt

section
variable {K V α β R : Type}

/-- There is a key-value cell at `p`. -/
def Cell (s : St K V) (p : Ptr) : Prop := ∃ b k v, p = .blk b ∧ b < s.next ∧ s.mem b = some (.kv k v)

/-- Cells stay cells. -/
def Keep (s t : St K V) : Prop := s.next ≤ t.next ∧ ∀ b k v, b < s.next → s.mem b = some (.kv k v) → ∃ k' v', t.mem b = some (.kv k' v')

theorem Keep.refl (s : St K V) : Keep s s := ⟨Nat.le_refl _, fun b k v _ h => ⟨k, v, h⟩⟩

theorem Keep.trans {s t u : St K V} (h : Keep s t) (h' : Keep t u) : Keep s u := by
  refine ⟨Nat.le_trans h.1 h'.1, fun b k v hb hm => ?_⟩
  obtain ⟨k', v', hm⟩ := h.2 b k v hb hm
  exact h'.2 b k' v' (Nat.lt_of_lt_of_le hb h.1) hm

theorem Cell.keep {s t : St K V} (h : Keep s t) {p : Ptr} (hp : Cell s p) : Cell t p := by
  obtain ⟨b, k, v, rfl, hb, hm⟩ := hp
  obtain ⟨k', v', hm⟩ := h.2 b k v hb hm
  exact ⟨b, k', v', rfl, Nat.lt_of_lt_of_le hb h.1, hm⟩

theorem Cell.leaf {s : St K V} {p : Ptr} (hp : Cell s p) : Leaf s p := by
  obtain ⟨b, k, v, rfl, hb, hm⟩ := hp
  intro a ha
  cases ha
  refine ⟨hb, fun ⟨xs, hx⟩ => ?_⟩
  rw [hm] at hx
  cases hx

theorem Cell.field {s : St K V} {p : Ptr} (hp : Cell s p) : (fieldAddr p : M K V Ptr) = pure p := by
  obtain ⟨b, k, v, rfl, hb, hm⟩ := hp
  rfl

/-- `x` turns no cell into something else. -/
def CellsStay (x : M K V α) : Prop := ∀ s a t, x s = .ok (a, t) → Keep s t

theorem CellsStay.bind {x : M K V α} {f : α → M K V β} (h1 : CellsStay x) (h2 : ∀ a, CellsStay (f a)) : CellsStay (x >>= f) := by
  intro s b t e
  obtain ⟨a, s1, e1, e2⟩ := ok_bind e
  exact (h1 _ _ _ e1).trans (h2 _ _ _ _ e2)

theorem CellsStay.ite {p : Prop} [Decidable p] {x y : M K V α} (h1 : CellsStay x) (h2 : CellsStay y) : CellsStay (if p then x else y) := by
  split
  · exact h1
  · exact h2

theorem CellsStay.reads {x : M K V α} (h : Reads x) : CellsStay x := by
  intro s a t e
  cases h _ _ _ e
  exact Keep.refl _

theorem CellsStay.pure (a : α) : CellsStay (Pure.pure a : M K V α) := CellsStay.reads (Reads.pure a)

theorem CellsStay.fail (e : Fault) : CellsStay (M.fail e : M K V α) := CellsStay.reads (Reads.fail e)

theorem CellsStay.struct {x : M K V α} (h : Struct x) : CellsStay x := by
  intro s a t e
  obtain ⟨h1, h2⟩ := h _ _ _ e
  exact ⟨h1, fun b k v hb hm => ⟨k, v, by rw [(h2 b hb).1 k v hm]; exact hm⟩⟩

theorem CellsStay.storeVal (p : Ptr) (v : V) : CellsStay (Amt.storeVal p v : M K V Unit) := by
  intro s a t e
  unfold Amt.storeVal at e
  cases p with
  | nil => cases e
  | blk b =>
    dsimp only at e
    cases hm : s.mem b with
    | none => rw [hm] at e; cases e
    | some o =>
      rw [hm] at e
      cases o with
      | links xs => cases e
      | kv k v0 =>
        cases e
        refine ⟨Nat.le_refl _, fun a k' v' ha hm' => ?_⟩
        dsimp only
        by_cases hab : a = b
        · subst hab; exact ⟨k, v, if_pos rfl⟩
        · exact ⟨k', v', by rw [if_neg hab]; exact hm'⟩

theorem newKv_cell {c : Cfg K} (hc : c.store = .boxed) {key : K} {v : V} {s t : St K V} {p : Ptr} (h : newKv c key v s = .ok (p, t)) : Cell t p := by
  unfold newKv at h
  rw [hc] at h
  cases h
  exact ⟨s.next, some key, v, rfl, Nat.lt_succ_self _, if_pos rfl⟩

/-- After a callback that has kept the memory tidy, `post` does so as well. -/
def PostOk (s : St K V) (post : Ptr → M K V Unit) : Prop := ∀ p t u t', Tidy t → Cell t p → Keep s t → run (post p) t = .ok (u, t') → Tidy t'

/-- What happens to both keys on one level. -/
theorem level_cb {c : Cfg K} (h : Nat) (key ckey : K) {cptr : Ptr} (item : Ref) (d : Nat) (hd chd : BitVec 64) {rk : Nat → Nat} {s : St K V} (hs : Ranked rk s)
    (hu : Up rk s item.base cptr) (hc : Cell s cptr) :
    (∃ e, ∀ (R : Type) (new : M K V (Ptr × R)), run (level c h key ckey cptr new item d hd chd) s = .error e) ∨
    (∃ it t rk', (∀ (R : Type) (new : M K V (Ptr × R)), run (level c h key ckey cptr new item d hd chd) s = .ok (.inr it, t)) ∧ Ranked rk' t ∧ Up rk' t it.base cptr ∧ Keep s t) ∨
    (∃ s1 post, Tidy s1 ∧ Keep s s1 ∧ (∀ p, CellsStay (post p)) ∧ PostOk s1 post ∧ ∀ (R : Type) (new : M K V (Ptr × R)),
      run (level c h key ckey cptr new item d hd chd) s = run (new >>= fun z => post z.1 >>= fun _ => pure (.inl z.2)) s1) := by
  unfold level
  dsimp only
  by_cases hb : bitOf (radixOf hd) ≠ bitOf (radixOf chd)
  · -- the keys part
    simp only [if_pos hb]
    rcases e1 : run (modLink item fun x => { x with pmap := bitOf (radixOf hd) ||| bitOf (radixOf chd) }) s with e | ⟨u1, s1⟩
    · exact Or.inl ⟨e, fun R new => by rw [run_bind, e1]; rfl⟩
    have k1 := hs.modMaps (by intro _; rfl) e1
    rcases e2 : run (modLink item fun x => { x with tmap := x.pmap }) s1 with e | ⟨u2, s2⟩
    · exact Or.inl ⟨e, fun R new => by rw [run_bind, e1, thenE_ok, run_bind, e2]; rfl⟩
    have k2 := k1.rank.modMaps (by intro _; rfl) e2
    rcases e3 : run (Amt.newLinkArray 2) s2 with e | ⟨arr, s3⟩
    · exact Or.inl ⟨e, fun R new => by rw [run_bind, e1, thenE_ok, run_bind, e2, thenE_ok, run_bind, e3]; rfl⟩
    rcases e4 : run (modLink item fun x => { x with ptr := arr }) s3 with e | ⟨u4, s4⟩
    · exact Or.inl ⟨e, fun R new => by rw [run_bind, e1, thenE_ok, run_bind, e2, thenE_ok, run_bind, e3, thenE_ok, run_bind, e4]; rfl⟩
    have hk : Keep s s4 := ((CellsStay.struct (Struct.modLink _ _) _ _ _ e1).trans (CellsStay.struct (Struct.modLink _ _) _ _ _ e2)).trans
      ((CellsStay.struct (Struct.newLinkArray _) _ _ _ e3).trans (CellsStay.struct (Struct.modLink _ _) _ _ _ e4))
    have ht : Tidy s4 := by
      obtain ⟨rfl, m, -, rfl⟩ := newLinkArray_inv e3
      have hx : ∃ x, run (load item) s2 = .ok (x, s2) := by
        obtain ⟨y, h5, rfl⟩ := modLink_inv e2
        exact ⟨_, load_put h5 _⟩
      obtain ⟨x, hx⟩ := hx
      obtain ⟨rk', k3, k4⟩ := k2.rank.between hx ((hu.step k1).step k2) e4
      exact ⟨rk', k3⟩
    refine Or.inr (Or.inr ⟨s4, fun kvp => do
      let y ← load item
      if bitOf (radixOf hd) < bitOf (radixOf chd) then
        modLink ⟨y.ptr, 0⟩ (putLink c key kvp)
        modLink ⟨y.ptr, 1⟩ (putLink c ckey cptr)
      else
        modLink ⟨y.ptr, 0⟩ (putLink c ckey cptr)
        modLink ⟨y.ptr, 1⟩ (putLink c key kvp)
      modRoot h fun m => { m with len := m.len + 1, dep := m.dep + BitVec.ofNat 64 d * 2 }, ht, hk, fun p => ?_, ?_, fun R new => ?_⟩)
    · refine CellsStay.struct (Struct.bind (Struct.load _) fun y => Struct.ite ?_ ?_)
      · exact Struct.bind (Struct.modLink _ _) fun _ => Struct.bind (Struct.modLink _ _) fun _ => Struct.modRoot _ _
      · exact Struct.bind (Struct.modLink _ _) fun _ => Struct.bind (Struct.modLink _ _) fun _ => Struct.modRoot _ _
    · intro p t u t' ht hp hkt he
      obtain ⟨rk, ht⟩ := ht
      obtain ⟨y, t1, h1, he⟩ := ok_bind he
      cases run_load_state h1
      have hc' : Cell t cptr := hc.keep (hk.trans hkt)
      dsimp only at he
      rw [run_ite] at he
      split at he
      · obtain ⟨u3, t3, h3, he⟩ := ok_bind he
        obtain ⟨u4, t4, h4, he⟩ := ok_bind he
        exact ⟨rk, ((put_two ht (hp.leaf.up _ _) (hc'.leaf.up _ _) h3 h4).rank.modRoot he).rank⟩
      · obtain ⟨u3, t3, h3, he⟩ := ok_bind he
        obtain ⟨u4, t4, h4, he⟩ := ok_bind he
        exact ⟨rk, ((put_two ht (hc'.leaf.up _ _) (hp.leaf.up _ _) h3 h4).rank.modRoot he).rank⟩
    · rw [run_bind, e1, thenE_ok, run_bind, e2, thenE_ok, run_bind, e3, thenE_ok, run_bind, e4, thenE_ok]
      by_cases hlt : bitOf (radixOf hd) < bitOf (radixOf chd)
      · simp only [if_pos hlt, bind_assoc_M]
      · simp only [if_neg hlt, bind_assoc_M]
  · simp only [if_neg hb]
    rcases e1 : run (modLink item fun x => { x with pmap := bitOf (radixOf hd) ||| bitOf (radixOf chd) }) s with e | ⟨u1, s1⟩
    · exact Or.inl ⟨e, fun R new => by rw [run_bind, e1]; rfl⟩
    have k1 := hs.modMaps (by intro _; rfl) e1
    rcases e3 : run (Amt.newLinkArray 1) s1 with e | ⟨arr, s3⟩
    · exact Or.inl ⟨e, fun R new => by rw [run_bind, e1, thenE_ok, run_bind, e3]; rfl⟩
    rcases e4 : run (modLink item fun x => { x with ptr := arr }) s3 with e | ⟨u4, s4⟩
    · exact Or.inl ⟨e, fun R new => by rw [run_bind, e1, thenE_ok, run_bind, e3, thenE_ok, run_bind, e4]; rfl⟩
    have hk : Keep s s4 := (CellsStay.struct (Struct.modLink _ _) _ _ _ e1).trans
      ((CellsStay.struct (Struct.newLinkArray _) _ _ _ e3).trans (CellsStay.struct (Struct.modLink _ _) _ _ _ e4))
    have hl : ∀ (R : Type) (new : M K V (Ptr × R)), run (level c h key ckey cptr new item d hd chd) s = .ok (.inr ⟨arr, 0⟩, s4) := by
      intro R new
      unfold level
      simp only [if_neg hb]
      rw [run_bind, e1, thenE_ok, run_bind, e3, thenE_ok, run_bind, e4]
      rfl
    obtain ⟨rk', h1, h2⟩ := level_next hs hu (hl Unit (M.fail .diverge))
    refine Or.inr (Or.inl ⟨⟨arr, 0⟩, s4, rk', fun R new => ?_, h1, h2, hk⟩)
    rw [run_bind, e1, thenE_ok, run_bind, e3, thenE_ok, run_bind, e4]
    rfl

/-- How an insertion depends on what is done with the new cell. -/
def OneCall (s : St K V) (f : (R : Type) → (Ptr → M K V R) → M K V (Ptr × R) → Except Fault (R × St K V)) : Prop :=
  (∃ e, ∀ R hit new, f R hit new = .error e) ∨
  (∃ s1 post, Tidy s1 ∧ Keep s s1 ∧ (∀ p, CellsStay (post p)) ∧ PostOk s1 post ∧ ∀ R hit (new : M K V (Ptr × R)),
    f R hit new = run (new >>= fun z => post z.1 >>= fun _ => pure z.2) s1)

/-- The same, if the key may be present. -/
def OneCallHit (s : St K V) (f : (R : Type) → (Ptr → M K V R) → M K V (Ptr × R) → Except Fault (R × St K V)) : Prop :=
  (∃ p, Cell s p ∧ ∀ R hit new, f R hit new = run (hit p) s) ∨ OneCall s f

theorem split_cb {c : Cfg K} (sd : Seed) (h : Nat) (key ckey : K) {cptr : Ptr} (ch : Chash K) (g : Bool) : ∀ n (p : Spl) {rk : Nat → Nat} {s : St K V}, Ranked rk s →
    Up rk s p.item.base cptr → Cell s cptr →
    OneCall s fun R hit new => run (split c sd h key ckey cptr (⟨ch, g, hit, new, new⟩ : Ins K V R) n p.item p.d p.hd p.chd p.w p.cw) s := by
  intro n
  induction n with
  | zero => intro p rk s hs hu hc; exact Or.inl ⟨.diverge, fun R hit new => rfl⟩
  | succ n ih =>
    intro p rk s hs hu hc
    unfold OneCall
    simp only [split_succ]
    rcases level_cb (c := c) h key ckey p.item ((p.d + 1) % 256) (p.next c sd key ckey p.item).hd (p.next c sd key ckey p.item).chd hs hu hc with
      ⟨e, h1⟩ | ⟨it, t, rk', h1, h2, h3, h4⟩ | ⟨s1, post, h1, h2, h3, h4, h5⟩
    · exact Or.inl ⟨e, fun R hit new => by rw [h1]; rfl⟩
    · simp only [h1, thenE_ok]
      rcases ih (p.next c sd key ckey it) h2 h3 (hc.keep h4) with ⟨e, k1⟩ | ⟨s1, post, k1, k2, k3, k4, k5⟩
      · exact Or.inl ⟨e, k1⟩
      · exact Or.inr ⟨s1, post, k1, h4.trans k2, k3, k4, k5⟩
    · refine Or.inr ⟨s1, post, h1, h2, h3, h4, fun R hit new => ?_⟩
      rw [h5]
      simp only [run_bind, thenE_assoc]
      rfl

theorem readKey_cell {c : Cfg K} (hc : c.store = .boxed) {x : Link} {rk : Nat → Nat} {s t : St K V} {q : Ptr} (hu : Up rk s q x.ptr) {k : K}
    (h : run (readKey c x) s = .ok (k, t)) : Cell s x.ptr := by
  unfold readKey at h
  rw [hc] at h
  obtain ⟨kv, s1, h1, h2⟩ := ok_bind h
  unfold run loadKv at h1
  cases hp : x.ptr with
  | nil => rw [hp] at h1; cases h1
  | blk b =>
    rw [hp] at h1
    dsimp only at h1
    cases hm : s.mem b with
    | none => rw [hm] at h1; cases h1
    | some o =>
      rw [hm] at h1
      cases o with
      | links xs => cases h1
      | kv k v => exact ⟨b, k, v, rfl, (hu b hp).1, hm⟩

theorem slotL_res (h : Nat) (l : Ref) (d idx : Nat) (bit : BitVec 32) (cell : M K V Ptr) (mk : Ptr → Link) (r : R) :
    slotL h l d idx bit cell mk r = (slotL h l d idx bit cell mk () >>= fun _ => pure r) := by
  unfold slotL
  simp only [bind_assoc_M, pure_bind_M, ite_bind]

theorem conflict_cb {c : Cfg K} (hc : c.store = .boxed) (hf : c.forget = false) (sd : Seed) (h n : Nat) (key : K) (ch : Chash K) (g : Bool) (cur : Cur) {s : St K V} (hs : Tidy s) :
    OneCallHit s fun R hit new => run (conflict c sd h n key (⟨ch, g, hit, new, new⟩ : Ins K V R) cur) s := by
  obtain ⟨rk, hs⟩ := hs
  unfold conflict
  rcases e1 : run (itemRef cur) s with e | ⟨item, s1⟩
  · exact Or.inr (Or.inl ⟨e, fun R hit new => by dsimp only; rw [run_bind, e1]; rfl⟩)
  cases Reads.itemRef _ _ _ _ e1
  rcases e2 : run (load item) s with e | ⟨x, s2⟩
  · exact Or.inr (Or.inl ⟨e, fun R hit new => by dsimp only; rw [run_bind, e1, thenE_ok, run_bind, e2]; rfl⟩)
  cases run_load_state e2
  rcases e3 : run (readKey c x) s with e | ⟨ckey, s3⟩
  · exact Or.inr (Or.inl ⟨e, fun R hit new => by dsimp only; rw [run_bind, e1, thenE_ok, run_bind, e2, thenE_ok, run_bind, e3]; rfl⟩)
  cases Reads.readKey _ _ _ _ _ e3
  have hx : Cell s x.ptr := readKey_cell hc (hs.load e2) e3
  by_cases hq : c.eq key ckey = true
  · refine Or.inl ⟨x.ptr, hx, fun R hit new => ?_⟩
    dsimp only
    rw [run_bind, e1, thenE_ok, run_bind, e2, thenE_ok, run_bind, e3, thenE_ok, if_pos hq]
  right
  rcases e4 : run (liftE (ch sd key ckey cur.d n) : M K V _) s with e | ⟨⟨chd, cw⟩, s4⟩
  · exact Or.inl ⟨e, fun R hit new => by dsimp only; rw [run_bind, e1, thenE_ok, run_bind, e2, thenE_ok, run_bind, e3, thenE_ok, if_neg hq, run_bind, e4]; rfl⟩
  cases Reads.liftE _ _ _ _ e4
  by_cases hg : g = true ∧ radixOf chd ≠ radixOf cur.hd
  · refine Or.inr ⟨s, fun kvp => modLink item fun y => { y with ptr := kvp }, ⟨rk, hs⟩, Keep.refl _, fun p => CellsStay.struct (Struct.modLink _ _), ?_, fun R hit new => ?_⟩
    · intro p t u t' ht hp hk he
      obtain ⟨rk, ht⟩ := ht
      exact ⟨rk, (ht.modLink (fun x _ => hp.leaf.up _ _) he).rank⟩
    · dsimp only
      rw [run_bind, e1, thenE_ok, run_bind, e2, thenE_ok, run_bind, e3, thenE_ok, if_neg hq, run_bind, e4, thenE_ok]
      dsimp only
      rw [if_pos hg]
  · rcases e5 : run (modLink cur.l fun y => { y with tmap := y.tmap &&& ~~~bitOf (radixOf cur.hd) }) s with e | ⟨u5, s5⟩
    · refine Or.inl ⟨e, fun R hit new => ?_⟩
      dsimp only
      rw [run_bind, e1, thenE_ok, run_bind, e2, thenE_ok, run_bind, e3, thenE_ok, if_neg hq, run_bind, e4, thenE_ok]
      dsimp only
      rw [if_neg hg, run_bind, e5]
      rfl
    rcases e6 : run (modRoot h fun m => { m with dep := m.dep - BitVec.ofNat 64 cur.d }) s5 with e | ⟨u6, s6⟩
    · cases e6
    have k1 := hs.modMaps (r := cur.l) (by intro _; rfl) e5
    have k2 := k1.rank.modRoot e6
    have hk : Keep s s6 := (CellsStay.struct (Struct.modLink _ _) _ _ _ e5).trans (CellsStay.struct (Struct.modRoot _ _) _ _ _ e6)
    have hkp : c.kept x.ptr = x.ptr := by unfold Cfg.kept; rw [hf]; rfl
    have heq : ∀ (R : Type) hit (new : M K V (Ptr × R)), run (conflict c sd h n key (⟨ch, g, hit, new, new⟩ : Ins K V R) cur) s =
        run (split c sd h key ckey x.ptr (⟨ch, g, hit, new, new⟩ : Ins K V R) n item cur.d cur.hd chd cur.w cw) s6 := by
      intro R hit new
      unfold conflict
      rw [run_bind, e1, thenE_ok, run_bind, e2, thenE_ok, run_bind, e3, thenE_ok, if_neg hq, run_bind, e4, thenE_ok]
      dsimp only
      rw [if_neg hg, run_bind, e5, thenE_ok, run_bind, e6, thenE_ok, hkp]
    rcases split_cb (c := c) sd h key ckey ch g n ⟨item, cur.d, cur.hd, chd, cur.w, cw⟩ k2.rank (((hs.load e2).step k1).step k2) (hx.keep hk) with
      ⟨e, j1⟩ | ⟨s1, post, j1, j2, j3, j4, j5⟩
    · exact Or.inl ⟨e, fun R hit new => (heq R hit new).trans (j1 R hit new)⟩
    · exact Or.inr ⟨s1, post, j1, hk.trans j2, j3, j4, fun R hit new => (heq R hit new).trans (j5 R hit new)⟩

theorem insertSlot_cb {c : Cfg K} (h : Nat) (key : K) (ch : Chash K) (g : Bool) (cur : Cur) {s : St K V} (hs : Tidy s) :
    OneCall s fun R hit new => run (insertSlot c h key (⟨ch, g, hit, new, new⟩ : Ins K V R) cur) s := by
  rcases run_load cur.l s with ⟨e, hl⟩ | ⟨lk, hl⟩
  · refine Or.inl ⟨e, fun R hit new => ?_⟩
    unfold insertSlot
    dsimp only
    rw [run_bind, hl]
    rfl
  · refine Or.inr ⟨s, fun kvp => slotL h cur.l cur.d (rankOf lk.pmap (radixOf cur.hd)) (bitOf (radixOf cur.hd)) (pure kvp) (mkLink c key) (), hs, Keep.refl _, fun p => ?_, ?_, fun R hit new => ?_⟩
    · unfold slotL
      refine CellsStay.struct (Struct.bind (Struct.load _) fun lk => ?_)
      dsimp only
      refine Struct.ite (Struct.bind (Struct.shiftUp _ _ _) fun _ => ?_) (Struct.bind (Struct.newLinkArray _) fun _ => Struct.bind (Struct.modLink _ _) fun _ =>
        Struct.bind (Struct.copyUp _ _ _ _ _ _) fun _ => ?_)
      · exact Struct.bind (Struct.pure _) fun _ => Struct.bind (Struct.store _ _) fun _ => Struct.bind (Struct.modLink _ _) fun _ => Struct.bind (Struct.modRoot _ _) fun _ => Struct.pure _
      · exact Struct.bind (Struct.pure _) fun _ => Struct.bind (Struct.store _ _) fun _ => Struct.bind (Struct.copyUp _ _ _ _ _ _) fun _ =>
          Struct.bind (Struct.modLink _ _) fun _ => Struct.bind (Struct.modRoot _ _) fun _ => Struct.pure _
    · intro p t u t' ht hp hk he
      obtain ⟨rk, ht⟩ := ht
      exact slotL_tidy ht (Later.pure hp.leaf) (fun _ => rfl) he
    · dsimp only
      rw [insertSlot_slotL _ _ _ _ _ hl, run_bind]
      congr 1
      funext r
      rw [slotL_res]

theorem upsert_cb {c : Cfg K} (hc : c.store = .boxed) (hf : c.forget = false) (h n : Nat) (key : K) (ch : Chash K) (g : Bool) {s : St K V} (hs : Tidy s) :
    OneCallHit s fun R hit new => run (upsert c h n key (⟨ch, g, hit, new, new⟩ : Ins K V R)) s := by
  unfold upsert
  rcases e1 : run (getRoot h) s with e | ⟨m, s1⟩
  · cases e1
  cases Reads.getRoot _ _ _ _ e1
  rcases e2 : run (search c m.seed key n (start c m.seed key h)) s with e | ⟨⟨cur, hit⟩, s2⟩
  · exact Or.inr (Or.inl ⟨e, fun R hit new => by dsimp only; rw [run_bind, e1, thenE_ok, run_bind, e2]; rfl⟩)
  have : s2 = s := ((Reader.search c m.seed key n (start c m.seed key h)).ok e2).1
  subst this
  have heq : ∀ (R : Type) hit' (new : M K V (Ptr × R)), run (upsert c h n key (⟨ch, g, hit', new, new⟩ : Ins K V R)) s2 =
      run (if hit = true then conflict c m.seed h n key (⟨ch, g, hit', new, new⟩ : Ins K V R) cur else insertSlot c h key (⟨ch, g, hit', new, new⟩ : Ins K V R) cur) s2 := by
    intro R hit' new
    unfold upsert
    rw [run_bind, e1, thenE_ok, run_bind, e2, thenE_ok]
  unfold upsert at heq
  cases hit with
  | true =>
    rcases conflict_cb hc hf m.seed h n key ch g cur hs with ⟨p, h1, h2⟩ | ⟨e, j1⟩ | ⟨s1, post, j1, j2, j3, j4, j5⟩
    · exact Or.inl ⟨p, h1, fun R hit new => (heq R hit new).trans (h2 R hit new)⟩
    · exact Or.inr (Or.inl ⟨e, fun R hit new => (heq R hit new).trans (j1 R hit new)⟩)
    · exact Or.inr (Or.inr ⟨s1, post, j1, j2, j3, j4, fun R hit new => (heq R hit new).trans (j5 R hit new)⟩)
  | false =>
    rcases insertSlot_cb (c := c) h key ch g cur hs with ⟨e, j1⟩ | ⟨s1, post, j1, j2, j3, j4, j5⟩
    · exact Or.inr (Or.inl ⟨e, fun R hit new => (heq R hit new).trans (j1 R hit new)⟩)
    · exact Or.inr (Or.inr ⟨s1, post, j1, j2, j3, j4, fun R hit new => (heq R hit new).trans (j5 R hit new)⟩)

end

end Amt.Go
