/-
From one call of the translation to one call of the model: the loop bounds, the moment at which the cell for a free slot is made,
and the scratch area of `Del`.  Used only in proofs.
-/
import Verif.GoKeep
import Verif.PropsScratch
import Verif.Callback

set_option linter.unusedVariables false
set_option linter.unusedSectionVars false
set_option linter.unusedSimpArgs false

namespace Amt.Go
open Amt

section
variable {K V R α β γ δ : Type}

theorem Ext.trans {x y z : M K V α} (h1 : Ext x y) (h2 : Ext y z) : Ext x z := by
  intro s
  rcases h1 s with h | h
  · exact Or.inl h
  · rcases h2 s with h' | h'
    · exact Or.inl (h ▸ h')
    · exact Or.inr (h'.trans h)

/-! ### Searching -/

theorem search_lo (c : Cfg K) (sd : Seed) (key : K) (n : Nat) (cur : Cur) : Ext (search (V := V) c sd key n cur) (searchX c sd key (n + 300) cur) :=
  Ext.trans (search_ext c sd key (by omega : n ≤ n + 300) cur) (search_walk c sd key _ cur)

theorem lookup_lo (c : Cfg K) (h n : Nat) (key : K) : Ext (lookup (V := V) c h n key) (lookupX c h (n + 300) key) :=
  Ext.trans (lookup_ext c h (by omega : n ≤ n + 300) key) (lookup_lookupX c h _ key)

theorem upsert_lo (c : Cfg K) (h n : Nat) (key : K) {ins : Ins K V R} (hi : ins.Mono) : Ext (upsert c h n key ins) (upsertX c h (n + 300) key ins) :=
  Ext.trans (upsert_ext c h (by omega : n ≤ n + 300) key hi) (upsert_upsertX c h _ key ins)

theorem upsert_hi (c : Cfg K) (h n : Nat) (key : K) {ins : Ins K V R} (hi : ins.Mono) : Ext (upsertX c h n key ins) (upsert c h (n + 1) key ins) :=
  Ext.bind (Ext.refl _) fun r => Ext.bind (walk_search c _ _ _ _) fun x => Ext.ite (conflict_ext c _ _ _ hi (Nat.le_succ n) _) (Ext.refl _)

/-! ### A cell made late -/

/-- `upsert`, with the cell for a free slot made as late as in Go. -/
def upsertT (c : Cfg K) (h n : Nat) (key : K) (ins : Ins K V R) (cell : M K V Ptr) (r : R) : M K V R := do
  let m ← getRoot h
  let (cur, hit) ← search c m.seed key n (start c m.seed key h)
  if hit then conflict c m.seed h n key ins cur
  else do
    let lk ← load cur.l
    slotL h cur.l cur.d (rankOf lk.pmap (radixOf cur.hd)) (bitOf (radixOf cur.hd)) cell (mkLink c key) r

theorem upsertT_lo (c : Cfg K) (h n : Nat) (key : K) {ins : Ins K V R} (hi : ins.Mono) (cell : M K V Ptr) (r : R) :
    Ext (upsertT c h n key ins cell r) (upsertL c h (n + 300) key ins cell r) :=
  Ext.bind (Ext.refl _) fun m => Ext.bind (search_lo c _ _ _ _) fun x => Ext.ite (conflict_ext c _ _ _ hi (by omega) _) (Ext.refl _)

theorem upsertT_hi (c : Cfg K) (h n : Nat) (key : K) {ins : Ins K V R} (hi : ins.Mono) (cell : M K V Ptr) (r : R) :
    Ext (upsertL c h n key ins cell r) (upsertT c h (n + 1) key ins cell r) :=
  Ext.bind (Ext.refl _) fun m => Ext.bind (walk_search c _ _ _ _) fun x => Ext.ite (conflict_ext c _ _ _ hi (Nat.le_succ n) _) (Ext.refl _)

variable {h k : Nat} {φ : Ren}

theorem OutR.frame {RA : Ren → α → β → Prop} {φ' : Ren} {s s' : St K V} {x : Except Fault (α × St K V)} {y : Except Fault (β × St K V)}
    (hf : Fr φ φ' h s s') (hle : Ren.Le φ φ') (hxy : OutR φ' h k s' RA x y) : OutR φ h k s RA x y := by
  cases x with
  | error e => cases y with
    | error e' => exact hxy
    | ok r => exact hxy
  | ok r => cases y with
    | error e' => exact hxy
    | ok r' =>
      obtain ⟨φ2, h1, h2, h3, h4⟩ := hxy
      exact ⟨φ2, hle.trans h1, h2, h3, hf.trans h4⟩

/-- A cell made first in one program and later in the other. -/
theorem Same.late {RA : Ren → α → β → Prop} {RB : Ren → γ → δ → Prop} {x : M K V α} {y : M K V β} {f : Ptr → α → M K V γ} {g : Ptr → β → M K V δ}
    (ck : Option K) (v : V) (h1 : Same h k φ RA x y)
    (hm : ∀ φ' φ'' a b, Ren.Le φ' φ'' → RA φ' a b → RA φ'' a b)
    (h2 : ∀ φ', Ren.Le φ φ' → ∀ p q a b, PtrR φ' p q → RA φ' a b → Same h k φ' RB (f p a) (g q b)) :
    Same h k φ RB (alloc (.kv ck v) >>= fun p => x >>= fun a => f p a) (y >>= fun b => alloc (.kv ck v) >>= fun q => g q b) := by
  intro s t hst
  have hst1 : StR φ h k (grow s (.kv ck v)) t := by
    refine ⟨hst.fn, hst.inj, fun hab => ?_, fun hab => ?_, hst.root, hst.fields⟩
    · obtain ⟨o, o', h3, h4, h5⟩ := hst.obj hab
      refine ⟨o, o', ?_, h4, h5⟩
      show (if _ = s.next then _ else _) = _
      rw [if_neg (by have := (hst.lt hab).1; omega)]
      exact h3
    · exact ⟨Nat.lt_succ_of_lt (hst.lt hab).1, (hst.lt hab).2⟩
  have hfr : Fr φ φ h s (grow s (.kv ck v)) := by
    refine ⟨Nat.le_succ _, fun a ha _ => ?_, fun _ _ => rfl, fun _ _ h => Or.inl h⟩
    show (if a = s.next then _ else _) = _
    rw [if_neg (by omega)]
  have h3 := h1 _ _ hst1
  show OutR φ h k s RB ((x >>= fun a => f (.blk s.next) a) (grow s (.kv ck v))) ((y >>= fun b => alloc (.kv ck v) >>= fun q => g q b) t)
  rw [bind_run, bind_run]
  cases hx : x (grow s (.kv ck v)) with
  | error e =>
    cases hy : y t with
    | error e' => rw [hx, hy] at h3; exact h3
    | ok r => rw [hx, hy] at h3; exact h3.elim
  | ok r =>
    cases hy : y t with
    | error e' => rw [hx, hy] at h3; exact h3.elim
    | ok r' =>
      rw [hx, hy] at h3
      obtain ⟨a, s1⟩ := r
      obtain ⟨b, t1⟩ := r'
      obtain ⟨φ', h4, h5, h6, h7⟩ := h3
      have hno : ∀ b, ¬ φ' s.next b := by
        intro b hb
        rcases h7.new _ _ hb with h8 | h8
        · exact Nat.lt_irrefl _ (hst.lt h8).1
        · exact Nat.lt_irrefl _ (Nat.lt_of_succ_le h8)
      have hmem : s1.mem s.next = some (.kv ck v) := by
        rw [h7.mem s.next (Nat.lt_succ_self _) fun b hb => Nat.lt_irrefl _ (hst.lt hb).1]
        exact if_pos rfl
      have hle : Ren.Le φ' (fun a b => φ' a b ∨ a = s.next ∧ b = t1.next) := fun _ _ h => Or.inl h
      have hst2 : StR (fun a b => φ' a b ∨ a = s.next ∧ b = t1.next) h k s1 (grow t1 (.kv ck v)) := by
        refine ⟨?_, ?_, ?_, ?_, Or.inl h5.root, h5.fields⟩
        · rintro a b b' (h1 | ⟨rfl, h2⟩) (h3 | ⟨h3, h4⟩)
          · exact h5.fn h1 h3
          · subst h3; exact absurd h1 (hno _)
          · exact absurd h3 (hno _)
          · omega
        · rintro a a' b (h1 | ⟨h1, rfl⟩) (h3 | ⟨h3, h4⟩)
          · exact h5.inj h1 h3
          · subst h4; exact absurd (h5.lt h1).2 (Nat.lt_irrefl _)
          · exact absurd (h5.lt h3).2 (Nat.lt_irrefl _)
          · omega
        · rintro a b (h1 | ⟨rfl, rfl⟩)
          · obtain ⟨o, o', h8, h9, h10⟩ := h5.obj h1
            refine ⟨o, o', h8, ?_, h10.mono hle⟩
            show (if b = t1.next then _ else _) = _
            rw [if_neg (by have := (h5.lt h1).2; omega)]
            exact h9
          · exact ⟨_, _, hmem, if_pos rfl, .kv _ _⟩
        · rintro a b (h1 | ⟨rfl, rfl⟩)
          · exact ⟨(h5.lt h1).1, Nat.lt_succ_of_lt (h5.lt h1).2⟩
          · exact ⟨Nat.lt_of_lt_of_le (Nat.lt_succ_self _) h7.next, Nat.lt_succ_self _⟩
      have h8 := h2 _ (h4.trans hle) (.blk s.next) (.blk t1.next) a b (.blk (Or.inr ⟨rfl, rfl⟩)) (hm _ _ _ _ hle h6) _ _ hst2
      refine OutR.frame ?_ (h4.trans hle) h8
      have h9 := hfr.trans h7
      refine ⟨h9.next, h9.mem, h9.roots, ?_⟩
      rintro a b (h10 | ⟨rfl, rfl⟩)
      · exact h9.new _ _ h10
      · exact Or.inr (Nat.le_refl _)

/-! ### A free slot -/

/-- Make room for a new item. -/
def room (l : Ref) (d idx : Nat) : M K V (Link × Ptr × Bool) := do
  let lk ← load l
  if (popcount lk.pmap ≠ 0 ∧ popcount lk.pmap % 4 ≠ 0) ∨ d = 0 then
    shiftUp lk.ptr idx (popcount lk.pmap)
    pure (lk, lk.ptr, false)
  else
    let arr ← Amt.newLinkArray (popcount lk.pmap + 1)
    modLink l fun x => { x with ptr := arr }
    copyUp arr lk.ptr 0 0 idx 0
    pure (lk, arr, true)

/-- Put a new item where there is room. -/
def fill (h : Nat) (l : Ref) (d idx : Nat) (bit : BitVec 32) (mk : Ptr → Link) (r : R) (p : Ptr) (x : Link × Ptr × Bool) : M K V R := do
  store ⟨x.2.1, idx⟩ (mk p)
  (if x.2.2 then copyUp x.2.1 x.1.ptr 1 0 (popcount x.1.pmap - idx) idx else pure ())
  modLink l fun x => { x with pmap := x.pmap ||| bit, tmap := x.tmap ||| bit }
  modRoot h fun m => { m with len := m.len + 1, dep := m.dep + BitVec.ofNat 64 d }
  pure r

theorem ite_bind {p : Prop} [Decidable p] (x y : M K V α) (f : α → M K V β) : ((if p then x else y) >>= f) = if p then x >>= f else y >>= f := by
  split <;> rfl

theorem slotL_room (h : Nat) (l : Ref) (d idx : Nat) (bit : BitVec 32) (cell : M K V Ptr) (mk : Ptr → Link) (r : R) :
    slotL h l d idx bit cell mk r = room l d idx >>= fun x => cell >>= fun p => fill h l d idx bit mk r p x := by
  unfold slotL room fill
  simp only [bind_assoc_M, ite_bind, pure_bind_M, if_true, Bool.false_eq_true, if_false]

theorem insertSlot_room (c : Cfg K) (h : Nat) (key : K) (ins : Ins K V R) (cur : Cur) :
    insertSlot c h key ins cur = load cur.l >>= fun lk => ins.newSlot >>= fun q => room cur.l cur.d (rankOf lk.pmap (radixOf cur.hd)) >>= fun x =>
      fill h cur.l cur.d (rankOf lk.pmap (radixOf cur.hd)) (bitOf (radixOf cur.hd)) (mkLink c key) q.2 q.1 x := by
  unfold insertSlot room fill
  simp only [bind_assoc_M, ite_bind, pure_bind_M, if_true, Bool.false_eq_true, if_false]

def RoomR (φ : Ren) (x y : Link × Ptr × Bool) : Prop := LinkR φ x.1 y.1 ∧ PtrR φ x.2.1 y.2.1 ∧ x.2.2 = y.2.2

theorem Same.room {l l' : Ref} (hl : RefR φ l l') (d idx : Nat) : Same h k φ RoomR (room l d idx : M K V _) (room l' d idx) := by
  unfold Go.room
  refine Same.bind (Same.load hl) fun φ1 l1 a b hab => ?_
  rw [hab.pmap]
  refine Same.ite (fun _ => ?_) fun _ => ?_
  · exact Same.bind (Same.shiftUp _ _ hab.ptr) fun φ2 l2 _ _ _ => Same.pure ⟨hab.mono l2, hab.ptr.mono l2, rfl⟩
  · refine Same.bind (Same.newLinkArray _) fun φ2 l2 p q hpq => ?_
    refine Same.bind (Same.modLink (hl.mono (l1.trans l2)) fun φ' l u v huv => ⟨hpq.mono l, huv.pmap, huv.tmap⟩) fun φ3 l3 _ _ _ => ?_
    refine Same.bind (Same.copyUp _ _ _ _ (hpq.mono l3) (hab.ptr.mono (l2.trans l3))) fun φ4 l4 _ _ _ => ?_
    exact Same.pure ⟨hab.mono (l2.trans (l3.trans l4)), hpq.mono (l3.trans l4), rfl⟩

theorem Same.fill {l l' : Ref} (hl : RefR φ l l') (c : Cfg K) (key : K) (d idx : Nat) (bit : BitVec 32) (r : R) {p q : Ptr} (hp : PtrR φ p q)
    {x y : Link × Ptr × Bool} (hx : RoomR φ x y) :
    Same h k φ EqR (fill h l d idx bit (mkLink c key) r p x : M K V _) (fill k l' d idx bit (mkLink c key) r q y) := by
  obtain ⟨x1, x2, x3⟩ := x
  obtain ⟨y1, y2, y3⟩ := y
  obtain ⟨h1, h2, h3⟩ := hx
  dsimp only at h1 h2 h3
  subst h3
  unfold Go.fill
  dsimp only
  refine Same.bind (Same.store (RefR.at _ h2) (.made c key hp)) fun φ1 l1 _ _ _ => ?_
  refine Same.bind (RA := EqR) (Same.ite (fun _ => ?_) fun _ => Same.pure rfl) fun φ2 l2 _ _ _ => ?_
  · rw [h1.pmap]
    exact Same.copyUp _ _ _ _ (h2.mono l1) (h1.ptr.mono l1)
  refine Same.bind (Same.modLink (hl.mono (l1.trans l2)) fun φ'' _ p q hpq => ⟨hpq.ptr, ?_, ?_⟩) fun φ4 l4 _ _ _ => ?_
  · simp only; rw [hpq.pmap]
  · simp only; rw [hpq.tmap]
  · exact Same.bind (Same.modRoot _) fun φ5 l5 _ _ _ => Same.pure rfl

theorem RoomR.mono {φ φ' : Ren} (hle : Ren.Le φ φ') {x y : Link × Ptr × Bool} (hx : RoomR φ x y) : RoomR φ' x y :=
  ⟨hx.1.mono hle, hx.2.1.mono hle, hx.2.2⟩

/-- The model makes the cell for a free slot first, Go last. -/
theorem Same.upsertT (c : Cfg K) (hr : φ h k) (fuel : Nat) (key : K) (v : V) (r : R) {ins : Ins K V R} (hi : InsR h k ins)
    (hn : ins.newSlot = newKv c key v >>= fun p => Pure.pure (p, r)) :
    Same h k φ EqR (upsert c h fuel key ins) (upsertT c k fuel key ins (newKv c key v) r) := by
  unfold Amt.upsert Go.upsertT
  refine Same.bind Same.getRoot fun φ1 l1 m m' e => ?_
  cases e
  refine Same.bind (Same.search c _ key fuel (CurR.start c _ key (l1 _ _ hr))) fun φ2 l2 x y hxy => ?_
  obtain ⟨x, b⟩ := x
  obtain ⟨y, b'⟩ := y
  obtain ⟨h1, h2⟩ := hxy
  simp only at h1 h2
  subst h2
  refine Same.ite (fun _ => Same.conflict c _ fuel key hi h1) fun _ => ?_
  rw [insertSlot_room, hn]
  refine Same.bind (Same.load h1.l) fun φ3 l3 a b hab => ?_
  rw [slotL_room, h1.hd, h1.d, hab.pmap]
  have fin : ∀ φ', Ren.Le φ3 φ' → ∀ p q a' b', PtrR φ' p q → RoomR φ' a' b' →
      Same h k φ' EqR (Go.fill h x.l y.d (rankOf b.pmap (radixOf y.hd)) (bitOf (radixOf y.hd)) (mkLink c key) r p a' : M K V R)
        (Go.fill k y.l y.d (rankOf b.pmap (radixOf y.hd)) (bitOf (radixOf y.hd)) (mkLink c key) r q b') :=
    fun φ' l p q a' b' hpq hab' => Same.fill (h1.l.mono (l3.trans l)) c key _ _ _ r hpq hab'
  have hroom := Same.room (K := K) (V := V) (h := h) (k := k) (h1.l.mono l3) y.d (rankOf b.pmap (radixOf y.hd))
  unfold newKv
  cases c.store with
  | boxed => exact Same.late (some key) v hroom (fun _ _ _ _ l h => h.mono l) fin
  | inline => exact Same.late none v hroom (fun _ _ _ _ l h => h.mono l) fin
  | bare =>
    simp only [pure_bind_M]
    exact Same.bind hroom fun φ4 l4 a' b' hab' => fin _ l4 .nil .nil a' b' .nil hab'

/-! ### Deletion -/

theorem searchS_search (c : Cfg K) (sd : Seed) (key : K) (scratch q : List PathLink) : ∀ n cur,
    (searchS c sd key n { cur with path := q } (sliceOf scratch cur.path) : M K V _) = search c sd key n cur >>= fun x =>
      pure ({ x.1 with path := q }, sliceOf scratch x.1.path, x.2) := by
  intro n
  induction n with
  | zero => intro cur; rfl
  | succ n ih =>
    intro cur
    rw [searchS, search, bind_assoc_M]
    congr 1
    funext lk
    dsimp only
    by_cases hp : lk.pmap &&& bitOf (radixOf cur.hd) ≠ 0#32
    · simp only [if_pos hp]
      rw [← sliceOf_snoc]
      by_cases ht : lk.tmap &&& bitOf (radixOf cur.hd) = 0#32
      · simp only [if_pos ht]
        have e := ih (descend c sd key { cur with path := cur.path ++ [(radixOf cur.hd, some cur.l)] } ⟨lk.ptr, rankOf lk.pmap (radixOf cur.hd)⟩)
        rw [descend_path] at e
        refine Eq.trans ?_ e
        congr 1
        unfold descend
        dsimp only
        split <;> rfl
      · simp only [if_neg ht, pure_bind_M]
    · simp only [if_neg hp, pure_bind_M]

theorem deleteS_search (c : Cfg K) (h n : Nat) (skip : Bool → Bool) (key : K) (scratch : List PathLink) :
    (deleteS c h n skip key scratch : M K V _) = getRoot h >>= fun r => search c r.seed key n (start c r.seed key h) >>= fun x =>
      if x.2 then removeS c h skip key x.1 (sliceOf scratch x.1.path) >>= fun p => pure p.arr else pure (sliceOf scratch x.1.path).arr := by
  unfold deleteS
  congr 1
  funext r
  refine Eq.trans (congrArg (· >>= _) (searchS_search c r.seed key scratch [] n (start c r.seed key h))) ?_
  rw [bind_assoc_M]
  rfl

theorem delete_lo (c : Cfg K) (h n : Nat) (skip : Bool → Bool) (key : K) (scratch : List PathLink) :
    Ext (K := K) (V := V) (deleteS c h n skip key scratch) (deleteX c h (n + 300) skip key scratch) := by
  rw [deleteS_search]
  exact Ext.bind (Ext.refl _) fun r => Ext.bind (search_lo c _ _ _ _) fun x => Ext.refl _

theorem delete_hi (c : Cfg K) (h n : Nat) (skip : Bool → Bool) (key : K) (scratch : List PathLink) :
    Ext (K := K) (V := V) (deleteX c h n skip key scratch) (deleteS c h (n + 1) skip key scratch) := by
  rw [deleteS_search]
  exact Ext.bind (Ext.refl _) fun r => Ext.bind (walk_search c _ _ _ _) fun x => Ext.refl _

/-! ### `Mod` -/

/-- A callback that computes the new value from the old one, and keeps a log. -/
def modCb (f : V → Bool → V) (log : List (V × Bool)) (p : Ptr) (found : Bool) : M K V (List (V × Bool)) := do
  let v ← kvVal p
  storeVal p (f v found)
  pure (log ++ [(v, found)])

macro "fresh" : tactic => `(tactic| (
  funext s
  show (alloc _ >>= _) s = (alloc _ >>= _) s
  rw [bind_ok (alloc_run ..), bind_ok (alloc_run ..)]
  simp only [modCb, kvVal, fieldAddr, bind_assoc_M, pure_bind_M, List.nil_append]))

theorem modNew_modCb [Inhabited V] {c : Cfg K} (hb : c.store ≠ .bare) (key : K) (f : V → Bool → V) :
    modNew c key (modCb f) [] = newKv c key (f default false) >>= fun p => pure (p, [(default, false)]) := by
  rw [← newKv_storeVal c hb key (fun v => ([(v, false)], f v false))]
  unfold modNew newKv
  cases hc : c.store with
  | bare => exact absurd hc hb
  | boxed => fresh
  | inline => fresh

theorem modG_modCb [Inhabited V] {c : Cfg K} (hb : c.store ≠ .bare) (chash : Chash K) (guard : Bool) (key : K) (f : V → Bool → V) :
    modG c chash guard key (modCb f) [] = modIns c chash guard key f := by
  unfold modG modIns
  rw [modNew_modCb hb]
  congr 1
  funext p
  cases p with
  | nil => rfl
  | blk b => simp only [modCb, kvVal, fieldAddr, bind_assoc_M, pure_bind_M, List.nil_append]

theorem Makes.modCb [Inhabited V] {c : Cfg K} (hb : c.store ≠ .bare) (key : K) (f : V → Bool → V) : Makes (modNew c key (modCb f) []) := by
  rw [modNew_modCb hb]
  exact Makes.kv c key _ _

theorem Makes.neat {new : M K V (Ptr × R)} (h : Makes new) : Neat new := by
  rintro s a t ⟨rk, hs⟩ he
  exact ⟨rk, (h rk s a t hs he).1⟩

/-! ### Iteration -/

/-- A callback for `All` that computes the new value from the old one, and keeps a log. -/
def allCb (f : List (K × V) → K → V → V × Bool) (log : List (K × V)) (k : K) (p : Ptr) : M K V (List (K × V) × Bool) := do
  let v ← kvVal p
  let r := f log k v
  storeVal p r.1
  pure (log ++ [(k, v)], r.2)

end

end Amt.Go
