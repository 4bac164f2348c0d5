/-
Every operation keeps the objects of a container in one place each.  Used only in proofs.
-/
import Verif.Tree

set_option linter.unusedVariables false
set_option linter.unusedSectionVars false

namespace Amt.Tree
open Go (ok_bind load_inv store_inv store_run load_put modLink_inv grow run_bind run_load_state put newLinkArray_inv)

section
variable {K V R : Type} {x y : Link} {s t u : St K V} {h : Nat} {p : List (Nat × Ref)} {r : Ref} {C D F G : Nat → Prop}

/-! ### A place to fill -/

/-- A place in a container, whatever is below it. -/
structure Hole (s : St K V) (h : Nat) (p : List (Nat × Ref)) (r : Ref) (x : Link) (C : Nat → Prop) : Prop where
  zip : Zip s.mem h p r C
  slot : Slot s.mem r x
  below : ∀ a, C a → a < s.next

theorem At.hole (ha : At s h p r x C F) : Hole s h p r x C := ⟨ha.zip, ha.slot, fun a hC => ha.below a (.inl hC)⟩

theorem Hole.at (ha : Hole s h p r x C) (ho : Own s.mem x F) (hd : ∀ a, C a → F a → False) (hb : ∀ a, F a → a < s.next) : At s h p r x C F :=
  ⟨ha.zip, ha.slot, ho, hd, fun a hh => hh.elim (ha.below a) (hb a)⟩

theorem Slot.same {m m' : Nat → Option (Obj K V)} (hs : Slot m r x) {b : Nat} (hb : r.base = .blk b) (he : SameBut (m b) (m' b)) : Slot m' r x := by
  obtain ⟨c, xs, h1, h2, h3⟩ := hs
  rw [hb] at h1; cases h1
  rw [h2] at he
  exact ⟨b, xs, hb, he.links, h3⟩

theorem Zip.same {m m' : Nat → Option (Obj K V)} (hz : Zip m h p r C) (hs : ∀ a, C a → SameBut (m a) (m' a)) : Zip m' h p r C := by
  refine hz.frame (fun a ha _ => hs a ha) fun b xs hb hm => ?_
  obtain ⟨b', hb', hC⟩ := hz.base
  rw [hb] at hb'; cases hb'
  have := hs b hC
  rw [hm] at this
  exact ⟨xs, this.links, fun _ _ => rfl⟩

theorem Hole.same (ha : Hole s h p r x C) (hs : ∀ a, C a → SameBut (s.mem a) (t.mem a)) (hn : s.next ≤ t.next) : Hole t h p r x C := by
  obtain ⟨b, hb, hC⟩ := ha.zip.base
  exact ⟨ha.zip.same hs, ha.slot.same hb (hs b hC), fun a hC => Nat.lt_of_lt_of_le (ha.below a hC) hn⟩

theorem At.same (ha : At s h p r x C F) (hs : ∀ a, SameBut (s.mem a) (t.mem a)) (hn : s.next ≤ t.next) : At t h p r x C F :=
  (ha.hole.same (fun a _ => hs a) hn).at (ha.own.frame fun a _ => hs a) ha.apart fun a hF => Nat.lt_of_lt_of_le (ha.below a (.inr hF)) hn

theorem put_other {b : Nat} (hb : r.base = .blk b) {a : Nat} (ha : a ≠ b) : (put s r y).mem a = s.mem a := by
  rw [Go.put_mem hb, if_neg ha]

theorem Hole.put (ha : Hole s h p r x C) (y : Link) : Hole (put s r y) h p r y C := by
  obtain ⟨b, hb, hC⟩ := ha.zip.base
  obtain ⟨c, xs, h1, h2, h3⟩ := ha.slot
  rw [hb] at h1; cases h1
  have hm : (Go.put s r y).mem b = some (.links (xs.set r.idx y)) := by rw [Go.put_mem hb, if_pos rfl, h2]
  refine ⟨ha.zip.frame (fun a _ hne => ?_) fun c ys hc hy => ?_, ⟨b, _, hb, hm, ?_⟩, fun a hC => ?_⟩
  · rw [put_other hb (fun he => hne (by rw [he]; exact hb))]; exact .refl _
  · rw [hb] at hc; cases hc
    rw [h2] at hy; cases hy
    exact ⟨_, hm, fun j hj => List.getElem?_set_ne (Ne.symm hj)⟩
  · exact List.getElem?_set_self (List.getElem?_eq_some_iff.1 h3).1
  · rw [Go.put_next]; exact ha.below a hC

/-- A link is written at the place. -/
theorem Hole.fill (ha : Hole s h p r x C) (ho : Own s.mem y F) (hd : ∀ a, C a → F a → False) (hb : ∀ a, F a → a < s.next) :
    At (Go.put s r y) h p r y C F := by
  refine (ha.put y).at (ho.frame fun a hF => ?_) hd fun a hF => by rw [Go.put_next]; exact hb a hF
  obtain ⟨b, hb, hC⟩ := ha.zip.base
  rw [put_other hb (fun he => hd b hC (he ▸ hF))]
  exact .refl _

theorem At.set (ha : At s h p r x C F) (hp : y.ptr = x.ptr) (hn : popcount y.pmap ≤ popcount x.pmap) : At (Go.put s r y) h p r y C F :=
  ha.hole.fill (ha.own.link hp hn) ha.apart fun a hF => ha.below a (.inr hF)

theorem grow_other {o : Obj K V} {a : Nat} (ha : a < s.next) : (grow s o).mem a = s.mem a := by
  show (if a = s.next then some o else s.mem a) = _
  rw [if_neg (by omega)]

theorem grow_new (s : St K V) (o : Obj K V) : (grow s o).mem s.next = some o := by
  show (if s.next = s.next then some o else s.mem _) = _
  rw [if_pos rfl]

theorem Hole.grow (ha : Hole s h p r x C) (o : Obj K V) : Hole (Go.grow s o) h p r x C :=
  ha.same (fun a hC => by rw [grow_other (ha.below a hC)]; exact .refl _) (Nat.le_succ _)

theorem At.grow (ha : At s h p r x C F) (o : Obj K V) : At (Go.grow s o) h p r x C F :=
  (ha.hole.grow o).at (ha.own.frame fun a hF => by rw [grow_other (ha.below a (.inr hF))]; exact .refl _) ha.apart
    fun a hF => Nat.lt_succ_of_lt (ha.below a (.inr hF))

theorem At.mem (ha : At s h p r x C F) (hm : t.mem = s.mem) (hn : t.next = s.next) : At t h p r x C F :=
  ha.same (fun a => by rw [hm]; exact .refl _) (by omega)

theorem Hole.mem (ha : Hole s h p r x C) (hm : t.mem = s.mem) (hn : t.next = s.next) : Hole t h p r x C :=
  ha.same (fun a _ => by rw [hm]; exact .refl _) (by omega)

theorem Hole.mod (ha : Hole s h p r x C) {f : Link → Link} {w : Unit} (e : Go.run (modLink r f) s = .ok (w, t)) : t = Go.put s r (f x) := by
  obtain ⟨y, h1, rfl⟩ := modLink_inv e
  rw [(slot_load h1).2.unique ha.slot]

theorem Hole.load (ha : Hole s h p r x C) (e : Go.run (Amt.load r) s = .ok (y, t)) : y = x ∧ t = s :=
  ⟨(slot_load e).2.unique ha.slot, (slot_load e).1⟩

theorem modRoot_mem {i : Nat} {f : Meta → Meta} {w : Unit} (e : Go.run (modRoot i f) s = .ok (w, t)) : t.mem = s.mem ∧ t.next = s.next := by
  cases e; exact ⟨rfl, rfl⟩

/-! ### Programs that change nothing but values -/

/-- See above. -/
def Mild {α : Type} (q : M K V α) : Prop := ∀ s a t, Go.run q s = .ok (a, t) → (∀ b, SameBut (s.mem b) (t.mem b)) ∧ t.next = s.next

theorem SameBut.trans {o o' o'' : Option (Obj K V)} (h : SameBut o o') (h' : SameBut o' o'') : SameBut o o'' := by
  rcases h with rfl | ⟨k, v, k', v', rfl, rfl⟩
  · exact h'
  · rcases h' with rfl | ⟨k, v, k', v', h1, rfl⟩
    · exact .inr ⟨_, _, _, _, rfl, rfl⟩
    · exact .inr ⟨_, _, _, _, rfl, rfl⟩

theorem Mild.pure {α : Type} (a : α) : Mild (pure a : M K V α) := fun s b t e => by
  cases e; exact ⟨fun _ => .refl _, rfl⟩

theorem Mild.fail {α : Type} (f : Fault) : Mild (M.fail f : M K V α) := fun s b t e => by cases e

theorem Mild.bind {α β : Type} {q : M K V α} {f : α → M K V β} (hq : Mild q) (hf : ∀ a, Mild (f a)) : Mild (q >>= f) := fun s b t e => by
  obtain ⟨a, s1, e1, e2⟩ := ok_bind e
  obtain ⟨h1, h2⟩ := hq _ _ _ e1
  obtain ⟨h3, h4⟩ := hf a _ _ _ e2
  exact ⟨fun b => (h1 b).trans (h3 b), h4.trans h2⟩

theorem Mild.ite {α : Type} {P : Prop} [Decidable P] {q q' : M K V α} (hq : Mild q) (hq' : Mild q') : Mild (if P then q else q') := by
  split <;> assumption

theorem Mild.load (r : Ref) : Mild (Amt.load r : M K V Link) := fun s b t e => by
  cases (slot_load e).1; exact ⟨fun _ => .refl _, rfl⟩

theorem Mild.loadKv (q : Ptr) : Mild (Amt.loadKv q : M K V (Option K × V)) := fun s b t e => by
  unfold Go.run Amt.loadKv at e
  split at e
  · cases e
  · split at e <;> cases e
    exact ⟨fun _ => .refl _, rfl⟩

theorem Mild.storeVal (q : Ptr) (v : V) : Mild (Amt.storeVal q v : M K V Unit) := fun s w t e => by
  unfold Go.run Amt.storeVal at e
  split at e
  · cases e
  · next b =>
    split at e
    · cases e
    · cases e
    · next k v' hm =>
      cases e
      refine ⟨fun a => ?_, rfl⟩
      dsimp only
      by_cases ha : a = b
      · subst ha
        rw [if_pos rfl, hm]
        exact .inr ⟨_, _, _, _, rfl, rfl⟩
      · rw [if_neg ha]; exact .refl _

theorem Mild.getRoot (i : Nat) : Mild (Amt.getRoot i : M K V Meta) := fun s w t e => by
  cases e; exact ⟨fun _ => .refl _, rfl⟩

theorem Mild.readKey (c : Cfg K) (x : Link) : Mild (Amt.readKey c x : M K V K) := by
  unfold Amt.readKey
  split
  · exact Mild.bind (Mild.loadKv _) fun kv => by
      split
      · exact Mild.fail _
      · exact Mild.pure _
  · split
    · exact Mild.fail _
    · exact Mild.pure _
  · split
    · exact Mild.fail _
    · exact Mild.pure _

theorem Mild.scanItems {U : Type} {visit : U → Link → M K V (U × Bool)} {rec : U → Ref → M K V (U × Bool)} (hv : ∀ u x, Mild (visit u x))
    (hr : ∀ u r, Mild (rec u r)) (l : Ref) (tm : BitVec 32) : ∀ n i pm u, Mild (Amt.scanItems visit rec l tm n i pm u) := by
  intro n
  induction n with
  | zero => intro i pm u; exact Mild.pure _
  | succ n ih =>
    intro i pm u
    rw [Amt.scanItems]
    have hj : ∀ w : U × Bool, Mild (if w.2 then Amt.scanItems visit rec l tm n (i + 1) (pm &&& ~~~bitOf (trailingZeros pm)) w.1 else Pure.pure (w.1, false)) :=
      fun w => Mild.ite (ih _ _ _) (Mild.pure _)
    refine Mild.bind (Mild.load _) fun lk => Mild.ite ?_ ?_
    · exact Mild.bind (Mild.load _) fun _ => Mild.bind (hv _ _) hj
    · exact Mild.bind (hr _ _) hj

theorem Mild.scan {U : Type} {visit : U → Link → M K V (U × Bool)} (hv : ∀ u x, Mild (visit u x)) : ∀ fuel u r, Mild (Amt.scan visit fuel u r) := by
  intro fuel
  induction fuel with
  | zero => intro u r; exact Mild.fail _
  | succ fuel ih =>
    intro u r
    rw [Amt.scan]
    exact Mild.bind (Mild.load _) fun lk => Mild.scanItems hv ih _ _ _ _ _ _

theorem Mild.visitMap (c : Cfg K) {U : Type} (f : U → K → V → U × V × Bool) (u : U) (x : Link) : Mild (Amt.visitMap c f u x) := by
  unfold Amt.visitMap
  exact Mild.bind (Mild.readKey _ _) fun _ => Mild.bind (Mild.loadKv _) fun _ => Mild.bind (Mild.storeVal _ _) fun _ => Mild.pure _

theorem Mild.visitSet (c : Cfg K) {U : Type} (f : U → K → U × Bool) (u : U) (x : Link) : Mild (Amt.visitSet c f u x : M K V (U × Bool)) := by
  unfold Amt.visitSet
  exact Mild.bind (Mild.readKey _ _) fun _ => Mild.pure _

theorem Mild.search (c : Cfg K) (sd : Seed) (key : K) : ∀ fuel cur, Mild (Amt.search c sd key fuel cur : M K V (Cur × Bool)) := by
  intro fuel
  induction fuel with
  | zero => intro cur; exact Mild.fail _
  | succ fuel ih =>
    intro cur
    rw [Amt.search]
    exact Mild.bind (Mild.load _) fun lk => Mild.ite (Mild.ite (ih _) (Mild.pure _)) (Mild.pure _)

theorem Mild.itemRef (cur : Cur) : Mild (Amt.itemRef cur : M K V Ref) := Mild.bind (Mild.load _) fun _ => Mild.pure _

theorem Mild.lookup (c : Cfg K) (h fuel : Nat) (key : K) : Mild (Amt.lookup c h fuel key : M K V (Option Ptr)) := by
  unfold Amt.lookup
  refine Mild.bind (Mild.getRoot _) fun _ => Mild.bind (Mild.search _ _ _ _ _) fun w => Mild.ite ?_ (Mild.pure _)
  exact Mild.bind (Mild.itemRef _) fun _ => Mild.bind (Mild.load _) fun _ => Mild.bind (Mild.readKey _ _) fun _ => Mild.ite (Mild.pure _) (Mild.pure _)

theorem Mild.whole {α : Type} {q : M K V α} (hq : Mild q) {a : α} (e : Go.run q s = .ok (a, t)) (hw : Whole s h) : Whole t h := by
  obtain ⟨x, C, F, ha⟩ := hw
  obtain ⟨h1, h2⟩ := hq _ _ _ e
  exact ⟨x, C, F, ha.same h1 (by omega)⟩

/-! ### What the container supplies -/

/-- What `Set`, `Mod` or `Add` do: on a hit nothing but values change; for a new key there is a new cell or none. -/
structure InsOk (ins : Ins K V R) : Prop where
  hit : ∀ q, Mild (ins.hit q)
  newSplit : ∀ s q res t, Go.run ins.newSplit s = .ok ((q, res), t) → (q = .nil ∧ t = s) ∨ ∃ k v, q = .blk s.next ∧ t = Go.grow s (.kv k v)
  newSlot : ∀ s q res t, Go.run ins.newSlot s = .ok ((q, res), t) → (q = .nil ∧ t = s) ∨ ∃ k v, q = .blk s.next ∧ t = Go.grow s (.kv k v)

/-- A key pushed down by a collision takes along what its link pointed to. -/
def CfgOk (c : Cfg K) (V : Type) : Prop :=
  ∀ (s t : St K V) (y : Link) (k : K), Go.run (readKey c y) s = .ok (k, t) →
    c.kept y.ptr = .nil ∨ c.kept y.ptr = y.ptr ∧ ((∃ b k v, y.ptr = .blk b ∧ s.mem b = some (.kv k v)) ∨ c.encP k = y.pmap)

theorem CfgOk.own {c : Cfg K} (hc : CfgOk c V) {k : K} (e : Go.run (readKey c y) s = .ok (k, t)) {m : Nat → Option (Obj K V)}
    (hm : ∀ b k v, s.mem b = some (.kv k v) → m b = some (.kv k v)) (ho : Own m y F) : Own m (mkLink c k (c.kept y.ptr)) F := by
  rcases hc _ _ _ _ e with h | ⟨h, ⟨b, k', v, h1, h2⟩ | h1⟩
  · exact .nil h
  · rw [h]
    cases ho with
    | nil h3 => rw [h1] at h3; cases h3
    | cell h3 h4 h5 => exact .cell h3 h4 h5
    | arr h3 h4 h5 => rw [h1] at h3; cases h3; rw [hm _ _ _ h2] at h4; cases h4
  · exact ho.link h (by rw [← h1]; exact Nat.le_refl _)

/-- The new cell. -/
theorem new_own {q : Ptr} (he : (q = .nil ∧ t = s) ∨ ∃ k v, q = .blk s.next ∧ t = Go.grow s (.kv k v)) :
    ∃ N : Nat → Prop, s.next ≤ t.next ∧ (∀ a, a < s.next → t.mem a = s.mem a) ∧ (∀ y : Link, y.ptr = q → Own t.mem y N) ∧
      ∀ a, N a → s.next ≤ a ∧ a < t.next := by
  rcases he with ⟨rfl, rfl⟩ | ⟨k, v, rfl, rfl⟩
  · exact ⟨fun _ => False, Nat.le_refl _, fun _ _ => rfl, fun y hy => .nil hy, fun a h => h.elim⟩
  · exact ⟨fun a => a = s.next, Nat.le_succ _, fun a ha => grow_other ha, fun y hy => .cell hy (grow_new _ _) rfl,
      fun a ha => by subst ha; exact ⟨Nat.le_refl _, Nat.lt_succ_self _⟩⟩

/-! ### Finding a place -/

theorem search_slot {c : Cfg K} {sd : Seed} {key : K} {fuel : Nat} {cur : Cur} {w : Cur × Bool} (e : Go.run (Amt.search c sd key fuel cur) s = .ok (w, t)) :
    ∃ x, Slot s.mem cur.l x := by
  cases fuel with
  | zero => cases e
  | succ fuel =>
    rw [Amt.search] at e
    obtain ⟨x, s1, e1, -⟩ := ok_bind e
    exact ⟨x, (slot_load e1).2⟩

/-- The entries of a path, as the programs have them. -/
def pathOf (p : List (Nat × Ref)) : List (Nat × Option Ref) := p.map fun e => (e.1, some e.2)

theorem pathOf_append (p q : List (Nat × Ref)) : pathOf (p ++ q) = pathOf p ++ pathOf q := by simp [pathOf]

theorem radix_lt (hd : BitVec 64) : radixOf hd < 32 := Nat.lt_trans (radixOf_lt hd) (by omega)

theorem search_at {c : Cfg K} {sd : Seed} {key : K} : ∀ (fuel : Nat) {cur cur' : Cur} {hit : Bool} {p : List (Nat × Ref)} {x : Link} {C F : Nat → Prop},
    At s h p cur.l x C F → cur.path = pathOf p → cur.d ≤ p.length → Go.run (Amt.search c sd key fuel cur) s = .ok ((cur', hit), t) →
    t = s ∧ ∃ p' x' C' F', At s h p' cur'.l x' C' F' ∧ cur'.d ≤ p'.length ∧
      if hit then x'.pmap &&& bitOf (radixOf cur'.hd) ≠ 0#32 ∧ cur'.path = pathOf (p' ++ [(radixOf cur'.hd, cur'.l)])
      else x'.pmap &&& bitOf (radixOf cur'.hd) = 0#32 := by
  intro fuel
  induction fuel with
  | zero => intro cur cur' hit p x C F ha hp hd e; cases e
  | succ fuel ih =>
    intro cur cur' hit p x C F ha hp hd e0
    rw [Amt.search] at e0
    obtain ⟨y, s1, e1, e⟩ := ok_bind e0
    clear e0
    obtain ⟨rfl, rfl⟩ := ha.hole.load e1
    dsimp only at e
    split at e
    · next hb =>
      have hpath : cur.path ++ [(radixOf cur.hd, some cur.l)] = pathOf (p ++ [(radixOf cur.hd, cur.l)]) := by
        rw [pathOf_append, ← hp]; rfl
      split at e
      · obtain ⟨z, hz⟩ := search_slot e
        have hl : ∀ q : Cur, (descend c sd key q ⟨y.ptr, rankOf y.pmap (radixOf cur.hd)⟩).l = ⟨y.ptr, rankOf y.pmap (radixOf cur.hd)⟩ := by
          intro q; unfold descend; dsimp only; split <;> rfl
        have hpa : ∀ q : Cur, ∀ i, (descend c sd key q i).path = q.path := by
          intro q i; unfold descend; dsimp only; split <;> rfl
        have hdd : ∀ q : Cur, ∀ i, (descend c sd key q i).d = (q.d + 1) % 256 := by
          intro q i; unfold descend; dsimp only; split <;> rfl
        rw [hl] at hz
        obtain ⟨D, G, hd1, -⟩ := ha.down (radix_lt _) hb hz
        refine ih (p := p ++ [(radixOf cur.hd, cur.l)]) (x := z) (C := D) (F := G) ?_ ?_ ?_ e
        · rw [hl]; exact hd1
        · rw [hpa]; exact hpath
        · rw [hdd, List.length_append, List.length_singleton]
          have := Nat.mod_le (cur.d + 1) 256
          dsimp only
          omega
      · cases e
        exact ⟨rfl, p, y, C, F, ha, hd, hb, hpath⟩
    · next hb =>
      cases e
      exact ⟨rfl, p, y, C, F, ha, hd, by simpa using hb⟩

/-! ### Moving links -/

theorem shiftUp_none {q : Ptr} {idx : Nat} : ∀ {n : Nat} {w : Unit}, n ≤ idx → Go.run (shiftUp q idx n) s = .ok (w, t) → t = s := by
  intro n w hn e
  cases n with
  | zero => cases e; rfl
  | succ n =>
    rw [shiftUp, if_neg (by omega)] at e
    cases e; rfl

/-- A slot is opened in an array and filled. -/
theorem open_slot {q : Ptr} {idx n : Nat} {z : Link} {w w' : Unit} (hi : idx ≤ n) (e : Go.run (shiftUp q idx n) s = .ok (w, t))
    (e' : Go.run (store ⟨q, idx⟩ z) t = .ok (w', u)) :
    ∃ b xs ys, q = .blk b ∧ s.mem b = some (.links xs) ∧ u.next = s.next ∧ u.mem b = some (.links ys) ∧ (∀ a, a ≠ b → u.mem a = s.mem a) ∧
      ∀ j, j ≤ n → ys[j]? = if j < idx then xs[j]? else if j = idx then some z else xs[j - 1]? := by
  by_cases hlt : idx < n
  · obtain ⟨n', rfl⟩ : ∃ n', n = n' + 1 := ⟨n - 1, by omega⟩
    have e0 := e
    rw [shiftUp, if_pos (by omega)] at e0
    obtain ⟨v, s1, e1, e00⟩ := ok_bind e0
    obtain ⟨rfl, b, xs, h1, h2, h3⟩ := load_inv e1
    obtain ⟨_, s2, e2, -⟩ := ok_bind e00
    obtain ⟨-, v', e3⟩ := store_inv e2
    obtain ⟨-, b', xs', h1', h2', h3'⟩ := load_inv e3
    dsimp only at h1 h1' h3'
    subst h1
    cases h1'
    rw [h2] at h2'; cases h2'
    have hlen := (List.getElem?_eq_some_iff.1 h3').1
    obtain ⟨ys, g1, g2, g3⟩ := shiftUp_ok (idx := idx) (n' + 1) xs s1 h2 hlen
    have : t = s1.put b (.links ys) := by
      have h : Go.run (shiftUp (.blk b) idx (n' + 1)) s1 = .ok ((), s1.put b (.links ys)) := g1
      rw [h] at e; cases e; rfl
    subst this
    obtain ⟨rfl, -⟩ := store_inv e'
    refine ⟨b, xs, ys.set idx z, rfl, h2, ?_, ?_, fun a ha => ?_, fun j hj => ?_⟩
    · rw [Go.put_next]; rfl
    · rw [Go.put_mem (b := b) rfl, if_pos rfl, put_mem, if_pos rfl]
    · rw [put_other (b := b) rfl ha, put_mem, if_neg ha]
    · rw [List.getElem?_set]
      by_cases hji : idx = j
      · subst hji
        rw [if_pos rfl, if_pos (by omega), if_neg (by omega), if_pos rfl]
      · rw [if_neg hji, g3 j]
        by_cases hj2 : j < idx
        · rw [if_neg (by omega), if_pos hj2]
        · rw [if_pos (by omega), if_neg hj2, if_neg (Ne.symm hji)]
  · have hin : idx = n := by omega
    subst hin
    obtain rfl := shiftUp_none (Nat.le_refl _) e
    obtain ⟨rfl, v, e1⟩ := store_inv e'
    obtain ⟨-, b, xs, h1, h2, h3⟩ := load_inv e1
    dsimp only at h1 h3
    subst h1
    refine ⟨b, xs, xs.set idx z, rfl, h2, Go.put_next _ _ _, ?_, fun a ha => put_other (b := b) rfl ha, fun j hj => ?_⟩
    · rw [Go.put_mem (b := b) rfl, if_pos rfl, h2]
    · rw [List.getElem?_set]
      by_cases hji : idx = j
      · subst hji
        rw [if_pos rfl, if_pos (List.getElem?_eq_some_iff.1 h3).1, if_neg (by omega), if_pos rfl]
      · rw [if_neg hji, if_pos (by omega)]

/-- Links are copied into the array at `b`. -/
theorem copy_inv {b : Nat} {q : Ptr} (hq : q ≠ .blk b) {doff soff : Nat} : ∀ (n : Nat) {i : Nat} {ds : List Link} {s t : St K V} {w : Unit},
    s.mem b = some (.links ds) → Go.run (copyUp (.blk b) q doff soff n i) s = .ok (w, t) →
    t.next = s.next ∧ (∀ a, a ≠ b → t.mem a = s.mem a) ∧ ∃ xs ys, (n = 0 ∨ ∃ c, q = .blk c ∧ s.mem c = some (.links xs)) ∧
      t.mem b = some (.links ys) ∧ ys.length = ds.length ∧
      ∀ j, ys[j]? = if i + doff ≤ j ∧ j < i + doff + n then xs[j - doff + soff]? else ds[j]? := by
  intro n
  induction n with
  | zero =>
    intro i ds s t w hm e
    cases e
    exact ⟨rfl, fun _ _ => rfl, [], ds, .inl rfl, hm, rfl, fun j => by rw [if_neg (by omega)]⟩
  | succ n ih =>
    intro i ds s t w hm e0
    rw [copyUp] at e0
    obtain ⟨v, s1, e1, e2⟩ := ok_bind e0
    clear e0
    obtain ⟨rfl, c, xs, h1, h2, h3⟩ := load_inv e1
    obtain ⟨_, s2, e3, e4⟩ := ok_bind e2
    clear e2
    obtain ⟨rfl, v', e5⟩ := store_inv e3
    obtain ⟨-, b', ds', h1', h2', h3'⟩ := load_inv e5
    dsimp only at h1 h1' h3 h3'
    cases h1'
    rw [hm] at h2'; cases h2'
    subst h1
    have hbc : c ≠ b := fun he => hq (by rw [he])
    have hlen := (List.getElem?_eq_some_iff.1 h3').1
    have hm' : (Go.put s1 ⟨.blk b, i + doff⟩ v).mem b = some (.links (ds.set (i + doff) v)) := by
      rw [Go.put_mem (b := b) rfl, if_pos rfl, hm]
    obtain ⟨g1, g2, xs', ys, g3, g4, g5, g6⟩ := ih hm' e4
    refine ⟨g1.trans (Go.put_next _ _ _), fun a ha => (g2 a ha).trans (put_other (b := b) rfl ha), xs, ys, .inr ⟨c, rfl, h2⟩, g4, by simpa using g5, fun j => ?_⟩
    rw [g6 j, List.getElem?_set]
    have hxx : n = 0 ∨ xs' = xs := by
      rcases g3 with g3 | ⟨c', hc', hm2⟩
      · exact .inl g3
      · cases hc'
        rw [put_other (b := b) rfl hbc, h2] at hm2
        cases hm2
        exact .inr rfl
    by_cases hji : i + doff = j
    · subst hji
      rw [if_neg (by omega), if_pos rfl, if_pos hlen, if_pos (by omega), show i + doff - doff + soff = i + soff by omega, h3]
    · by_cases hc : i + 1 + doff ≤ j ∧ j < i + 1 + doff + n
      · rw [if_pos hc, if_pos (by omega)]
        rcases hxx with hxx | rfl
        · omega
        · rfl
      · rw [if_neg hc, if_neg hji, if_neg (by omega)]

/-- Links are moved back by one. -/
theorem back_inv {q : Ptr} : ∀ (n : Nat) {i : Nat} {s t : St K V} {w : Unit}, Go.run (copyUp q q 0 1 n i) s = .ok (w, t) →
    (n = 0 ∧ t = s) ∨ ∃ b xs ys, q = .blk b ∧ s.mem b = some (.links xs) ∧ t.next = s.next ∧ t.mem b = some (.links ys) ∧
      (∀ a, a ≠ b → t.mem a = s.mem a) ∧ ∀ j, ys[j]? = if i ≤ j ∧ j < i + n then xs[j + 1]? else xs[j]? := by
  intro n
  induction n with
  | zero => intro i s t w e; cases e; exact .inl ⟨rfl, rfl⟩
  | succ n ih =>
    intro i s t w e0
    rw [copyUp] at e0
    obtain ⟨v, s1, e1, e2⟩ := ok_bind e0
    clear e0
    obtain ⟨rfl, b, xs, h1, h2, h3⟩ := load_inv e1
    obtain ⟨_, s2, e3, e4⟩ := ok_bind e2
    clear e2
    obtain ⟨rfl, v', e5⟩ := store_inv e3
    dsimp only at h1 h3
    subst h1
    have hlen := (List.getElem?_eq_some_iff.1 h3).1
    have hm' : (Go.put s1 ⟨.blk b, i + 0⟩ v).mem b = some (.links (xs.set (i + 0) v)) := by
      rw [Go.put_mem (b := b) rfl, if_pos rfl, h2]
    right
    have hset : ∀ j, (xs.set (i + 0) v)[j]? = if j = i then xs[i + 1]? else xs[j]? := by
      intro j
      rw [List.getElem?_set]
      by_cases hj : j = i
      · subst hj
        rw [if_pos (show j + 0 = j by omega), if_pos (show j + 0 < xs.length by omega), if_pos (show j = j from rfl), h3]
      · rw [if_neg (show ¬ i + 0 = j by omega), if_neg hj]
    rcases ih e4 with ⟨rfl, rfl⟩ | ⟨b', xs', ys, g1, g2, g3, g4, g5, g6⟩
    · refine ⟨b, xs, _, rfl, h2, Go.put_next _ _ _, hm', fun a ha => put_other (b := b) rfl ha, fun j => ?_⟩
      rw [hset]
      by_cases hj : j = i
      · subst hj; rw [if_pos rfl, if_pos (by omega)]
      · rw [if_neg hj, if_neg (by omega)]
    · cases g1
      rw [hm'] at g2; cases g2
      refine ⟨b, xs, ys, rfl, h2, g3.trans (Go.put_next _ _ _), g4, fun a ha => (g5 a ha).trans (put_other (b := b) rfl ha), fun j => ?_⟩
      rw [g6 j, hset, hset]
      by_cases hc : i + 1 ≤ j ∧ j < i + 1 + n
      · rw [if_pos hc, if_neg (by omega), if_pos (by omega)]
      · rw [if_neg hc]
        by_cases hj : j = i
        · subst hj; rw [if_pos rfl, if_pos (by omega)]
        · rw [if_neg hj, if_neg (by omega)]

/-- The links of a new array. -/
theorem Kids.blank {m : Nat → Option (Obj K V)} {xs : List Link} (hx : ∀ z ∈ xs, z.ptr = .nil) (n : Nat) : Kids m xs n F :=
  ⟨fun _ _ => False, fun i y _ hy => .nil (hx y (List.mem_of_getElem? hy)), fun _ _ h => h.elim, fun _ _ _ h => h.elim⟩

theorem replicate_blank {n : Nat} : ∀ z ∈ List.replicate n ({} : Link), z.ptr = .nil := by
  intro z hz
  rw [List.eq_of_mem_replicate hz]

/-! ### Insertion -/

theorem insertSlot_whole {c : Cfg K} {key : K} {ins : Ins K V R} (hins : InsOk ins) {cur : Cur} {res : R} (ha : At s h p cur.l x C F)
    (hb : x.pmap &&& bitOf (radixOf cur.hd) = 0#32) (e : Go.run (insertSlot c h key ins cur) s = .ok (res, t)) : Whole t h := by
  unfold insertSlot at e
  obtain ⟨x', s1, e1, e2⟩ := ok_bind e
  obtain ⟨rfl, rfl⟩ := ha.hole.load e1
  clear e1 e
  obtain ⟨⟨q, res'⟩, s2, e3, e⟩ := ok_bind e2
  clear e2
  obtain ⟨N, n1, n2, n3, n4⟩ := new_own (hins.newSlot _ _ _ _ e3)
  have hC2 : Hole s2 h p cur.l x' C := ha.hole.same (fun a hC => by rw [n2 a (ha.hole.below a hC)]; exact .refl _) n1
  have hF2 : Own s2.mem x' F := ha.own.frame fun a hF => by rw [n2 a (ha.below a (.inr hF))]; exact .refl _
  have hFb : ∀ a, F a → a < s2.next := fun a hF => Nat.lt_of_lt_of_le (ha.below a (.inr hF)) n1
  have hFN : ∀ a, F a → N a → False := fun a hF hN => by have := (n4 a hN).1; have := ha.below a (.inr hF); omega
  have hCN : ∀ a, C a → N a → False := fun a hF hN => by have := (n4 a hN).1; have := ha.below a (.inl hF); omega
  have hown : Own s2.mem (mkLink c key q) N := n3 _ rfl
  obtain ⟨x'', s3, e4, e5⟩ := ok_bind e
  clear e
  obtain ⟨rfl, rfl⟩ := hC2.load e4
  have hcnt : popcount (x''.pmap ||| bitOf (radixOf cur.hd)) = popcount x''.pmap + 1 := popcount_or (radix_lt _) hb
  have hidx : rankOf x''.pmap (radixOf cur.hd) ≤ popcount x''.pmap := rank_le (radix_lt _)
  dsimp only at e5
  split at e5
  · obtain ⟨_, s4, e6, e7⟩ := ok_bind e5
    obtain ⟨_, s5, e8, e9⟩ := ok_bind e7
    obtain ⟨_, s6, e10, e11⟩ := ok_bind e9
    obtain ⟨_, s7, e12, e13⟩ := ok_bind e11
    cases e13
    clear e5 e7 e9 e11
    obtain ⟨b, xs, ys, h1, h2, h3, h4, h5, h6⟩ := open_slot hidx e6 e8
    obtain ⟨hb1, hk⟩ := hF2.kids h1 h2
    have hCb : ∀ a, C a → s5.mem a = s3.mem a := fun a hC => h5 a fun he => ha.apart a hC (he ▸ hb1)
    have hole5 : Hole s5 h p cur.l x'' C := hC2.same (fun a hC => by rw [hCb a hC]; exact .refl _) (by omega)
    obtain rfl := hole5.mod e10
    have hk5 : Kids s5.mem xs (popcount x''.pmap) fun a => F a ∧ a ≠ b := hk.frame fun a hh => by rw [h5 a hh.2]; exact .refl _
    have ho5 : Own s5.mem (mkLink c key q) N := hown.frame fun a hN => by
      rw [h5 a fun he => hFN a (he ▸ hb1) hN]; exact .refl _
    have hki := hk5.insert ho5 (fun a h1 h2 => hFN a h1.1 h2) hidx h6
    have hat := hole5.fill (y := { x'' with pmap := x''.pmap ||| bitOf (radixOf cur.hd), tmap := x''.tmap ||| bitOf (radixOf cur.hd) })
      (F := fun a => F a ∨ N a) (Own.mk h1 h4 (.inl hb1) (by
        dsimp only
        rw [hcnt]
        refine hki.mono fun a hh => ?_
        rcases hh with hh | hh
        · exact ⟨.inl hh.1, hh.2⟩
        · exact ⟨.inr hh, fun he => hFN a (he ▸ hb1) hh⟩))
      (fun a hC hh => hh.elim (ha.apart a hC) (hCN a hC)) (fun a hh => by
        rw [h3]
        exact hh.elim (hFb a) fun hN => (n4 a hN).2)
    obtain ⟨m1, m2⟩ := modRoot_mem e12
    exact (hat.mem m1 m2).whole
  · obtain ⟨q', s4, e6, e7⟩ := ok_bind e5
    obtain ⟨_, s5, e8, e9⟩ := ok_bind e7
    obtain ⟨_, s6, e10, e11⟩ := ok_bind e9
    obtain ⟨_, s7, e12, e13⟩ := ok_bind e11
    obtain ⟨_, s8, e14, e15⟩ := ok_bind e13
    obtain ⟨_, s9, e16, e17⟩ := ok_bind e15
    obtain ⟨_, s10, e18, e19⟩ := ok_bind e17
    cases e19
    clear e5 e7 e9 e11 e13 e15 e17
    obtain ⟨rfl, k, hk4, rfl⟩ := newLinkArray_inv e6
    have hole4 := hC2.grow (.links (List.replicate k {}))
    obtain rfl := hole4.mod e8
    have hole5 := hole4.put { x'' with ptr := .blk s3.next }
    have hptr : x''.ptr ≠ .blk s3.next := by
      intro he
      cases hF2 with
      | nil h => rw [he] at h; cases h
      | cell h1 _ h3 => rw [he] at h1; cases h1; exact absurd (hFb _ h3) (Nat.lt_irrefl _)
      | arr h1 _ h3 => rw [he] at h1; cases h1; exact absurd (hFb _ h3) (Nat.lt_irrefl _)
    have hCnew : ∀ a, C a → a ≠ s3.next := fun a hC he => by have := hC2.below a hC; omega
    obtain ⟨lb, hlb, hClb⟩ := hC2.zip.base
    have hm5 : (Go.put (Go.grow s3 (.links (List.replicate k {}))) cur.l { x'' with ptr := .blk s3.next }).mem s3.next = some (.links (List.replicate k {})) := by
      rw [put_other hlb (fun he => hCnew lb hClb he.symm), grow_new]
    obtain ⟨f1, f2, xs, ys, f3, f4, f5, f6⟩ := copy_inv hptr _ hm5 e10
    obtain ⟨rfl, v, e12'⟩ := store_inv e12
    have hm7 : (Go.put s6 ⟨.blk s3.next, rankOf x''.pmap (radixOf cur.hd)⟩ (mkLink c key q)).mem s3.next
        = some (.links (ys.set (rankOf x''.pmap (radixOf cur.hd)) (mkLink c key q))) := by
      rw [Go.put_mem (b := s3.next) rfl, if_pos rfl, f4]
    have hylen : rankOf x''.pmap (radixOf cur.hd) < ys.length := by
      obtain ⟨-, b', zs, g1, g2, g3⟩ := load_inv e12'
      cases g1
      rw [f4] at g2; cases g2
      exact (List.getElem?_eq_some_iff.1 g3).1
    obtain ⟨g1, g2, xs', zs, g3, g4, g5, g6⟩ := copy_inv hptr _ hm7 e14
    -- what the other objects are
    have hold : ∀ a, a ≠ s3.next → s8.mem a = (Go.put (Go.grow s3 (.links (List.replicate k {}))) cur.l { x'' with ptr := .blk s3.next }).mem a := by
      intro a ha
      rw [g2 a ha, put_other (b := s3.next) rfl ha, f2 a ha]
    have hFold : ∀ a, F a ∨ N a → s8.mem a = s3.mem a := by
      intro a hh
      have h1 : a < s3.next := hh.elim (hFb a) fun hN => (n4 a hN).2
      rw [hold a (by omega), put_other hlb, grow_other h1]
      intro he
      subst he
      exact hh.elim (ha.apart a hClb) (hCN a hClb)
    have hnext : s8.next = s3.next + 1 := by
      rw [g1, Go.put_next, f1, Go.put_next]; rfl
    have hole8 : Hole s8 h p cur.l { x'' with ptr := .blk s3.next } C :=
      hole5.same (fun a hC => by rw [hold a (hCnew a hC)]; exact .refl _) (by rw [hnext, Go.put_next]; exact Nat.le_refl _)
    obtain rfl := hole8.mod e16
    -- the links that were copied
    obtain ⟨us, hus, hku⟩ : ∃ us : List Link, (∀ j, j ≤ popcount x''.pmap → zs[j]? = if j < rankOf x''.pmap (radixOf cur.hd) then us[j]?
        else if j = rankOf x''.pmap (radixOf cur.hd) then some (mkLink c key q) else us[j - 1]?) ∧ Kids s8.mem us (popcount x''.pmap) F := by
      by_cases hz : popcount x''.pmap = 0
      · refine ⟨[], fun j hj => ?_, by rw [hz]; exact .none⟩
        have hj0 : j = 0 := by omega
        have hr0 : rankOf x''.pmap (radixOf cur.hd) = 0 := by omega
        rw [g6 j, if_neg (by omega), List.getElem?_set, if_pos (show rankOf x''.pmap (radixOf cur.hd) = j by omega), if_pos hylen,
          if_neg (show ¬ j < rankOf x''.pmap (radixOf cur.hd) by omega), if_pos (show j = rankOf x''.pmap (radixOf cur.hd) by omega)]
      · have hone : ∃ cb us, x''.ptr = .blk cb ∧ s3.mem cb = some (.links us) ∧ (rankOf x''.pmap (radixOf cur.hd) = 0 ∨ xs = us) ∧
            (popcount x''.pmap - rankOf x''.pmap (radixOf cur.hd) = 0 ∨ xs' = us) := by
          have hA : ∀ cb us, x''.ptr = .blk cb → s6.mem cb = some (.links us) → s3.mem cb = some (.links us) := by
            intro cb us hcb hm
            have hne : cb ≠ s3.next := fun he => hptr (by rw [hcb, he])
            have hF : F cb := by
              cases hF2 with
              | nil h => rw [hcb] at h; cases h
              | cell h1 _ h3 => rw [hcb] at h1; cases h1; exact h3
              | arr h1 _ h3 => rw [hcb] at h1; cases h1; exact h3
            rw [← hFold cb (.inl hF), g2 cb hne, put_other (b := s3.next) rfl hne]
            exact hm
          have hB : ∀ cb us, x''.ptr = .blk cb →
              (Go.put (Go.grow s3 (.links (List.replicate k {}))) cur.l { x'' with ptr := .blk s3.next }).mem cb = some (.links us) → s3.mem cb = some (.links us) := by
            intro cb us hcb hm
            have hne : cb ≠ s3.next := fun he => hptr (by rw [hcb, he])
            exact hA cb us hcb (by rw [f2 cb hne]; exact hm)
          have hD : ∀ cb us, x''.ptr = .blk cb → (Go.put s6 ⟨.blk s3.next, rankOf x''.pmap (radixOf cur.hd)⟩ (mkLink c key q)).mem cb = some (.links us) →
              s3.mem cb = some (.links us) := by
            intro cb us hcb hm
            have hne : cb ≠ s3.next := fun he => hptr (by rw [hcb, he])
            rw [put_other (b := s3.next) rfl hne] at hm
            exact hA cb us hcb hm
          rcases f3 with f3 | ⟨c1, hc1, hm1⟩
          · rcases g3 with g3 | ⟨c2, hc2, hm2⟩
            · omega
            · exact ⟨c2, xs', hc2, hD _ _ hc2 hm2, .inl f3, .inr rfl⟩
          · rcases g3 with g3 | ⟨c2, hc2, hm2⟩
            · exact ⟨c1, xs, hc1, hB _ _ hc1 hm1, .inr rfl, .inl g3⟩
            · have hB1 := hB _ _ hc1 hm1
              have hD1 := hD _ _ hc2 hm2
              rw [hc1] at hc2; cases hc2
              rw [hB1] at hD1; cases hD1
              exact ⟨c1, xs, hc1, hB1, .inr rfl, .inr rfl⟩
        obtain ⟨cb, us, u1, u2, u3, u4⟩ := hone
        refine ⟨us, fun j hj => ?_, ((hF2.kids u1 u2).2.mono fun a h => h.1).frame fun a hF => by rw [hFold a (.inl hF)]; exact .refl _⟩
        rw [g6 j, List.getElem?_set, f6 j]
        by_cases h1 : j < rankOf x''.pmap (radixOf cur.hd)
        · rw [if_neg (by omega), if_neg (by omega), if_pos (by omega), if_pos h1]
          rcases u3 with u3 | rfl
          · omega
          · rfl
        · rw [if_neg h1]
          by_cases h2 : j = rankOf x''.pmap (radixOf cur.hd)
          · rw [if_neg (by omega), if_pos h2.symm, if_pos hylen, if_pos h2]
          · rw [if_pos (by omega), if_neg h2]
            rcases u4 with u4 | rfl
            · omega
            · rfl
    have ho8 : Own s8.mem (mkLink c key q) N := hown.frame fun a hN => by rw [hFold a (.inr hN)]; exact .refl _
    have hki := hku.insert ho8 hFN hidx hus
    have hat := hole8.fill (y := { ({ x'' with ptr := .blk s3.next } : Link) with pmap := x''.pmap ||| bitOf (radixOf cur.hd), tmap := x''.tmap ||| bitOf (radixOf cur.hd) })
      (F := fun a => a = s3.next ∨ F a ∨ N a) (Own.mk rfl g4 (.inl rfl) (by
        dsimp only
        rw [hcnt]
        refine hki.mono fun a hh => ⟨.inr hh, fun he => ?_⟩
        subst he
        rcases hh with hh | hh
        · exact Nat.lt_irrefl _ (hFb _ hh)
        · exact Nat.lt_irrefl _ (n4 _ hh).2))
      (fun a hC hh => by
        rcases hh with hh | hh | hh
        · exact hCnew a hC hh
        · exact ha.apart a hC hh
        · exact hCN a hC hh) (fun a hh => by
        rw [hnext]
        rcases hh with hh | hh | hh
        · omega
        · have := hFb a hh; omega
        · have := (n4 a hh).2; omega)
    obtain ⟨m1, m2⟩ := modRoot_mem e18
    exact (hat.mem m1 m2).whole

end

end Amt.Tree
