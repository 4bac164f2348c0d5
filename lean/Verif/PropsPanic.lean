/-
Callbacks that panic: in which state does `Mod` call its callback, and what is left if the callback does not return?
-/
import Verif.BugsCallback
import Verif.PropsGuard

set_option linter.unusedVariables false
set_option linter.unusedSectionVars false

namespace Amt
open T Spec

section
variable {K V : Type}

/-- `Mod` calls its callback once, in the state `s₁`, with the arguments `p` and `b`, and goes on if it returns.  So
if the callback panics, and the caller recovers, the memory is `s₁` (or what the callback made of it). -/
def MapImpl.ModCalls [Inhabited V] (I : MapImpl K V) (fuel : Nat) (m : Handle) (key : K) (s : St K V) (p : Amt.Ptr)
    (b : Bool) (s₁ : St K V) : Prop :=
  ∀ R : Type, ∃ next : R → M K V R, ∀ f : Amt.Ptr → Bool → M K V R,
    I.ModWith fuel m key f s = (f p b >>= next) s₁

/-- The hooks of a `Mod` whose callback is a program. -/
def progIns {R : Type} [Inhabited V] (c : Cfg K) (chash : Chash K) (guard : Bool) (key : K) (f : Ptr → Bool → M K V R) :
    Ins K V R where
  chash := chash
  guard := guard
  hit := fun p => f p true
  newSplit := do
    let p ← newKv c key default
    let r ← f p false
    pure (p, r)
  newSlot := do
    let p ← newKv c key default
    let r ← f p false
    pure (p, r)

theorem load_state {r : Ref} {s : St K V} {x : Link × St K V} (h : load r s = .ok x) : x.2 = s := by
  unfold load at h
  split at h
  · cases h
  · split at h
    · cases h
    · cases h
    · split at h
      · cases h
      · cases h; rfl

/-- The search loop ends at a branch it has just read. -/
theorem search_loaded {c : Cfg K} {sd : Seed} {key : K} {s s' : St K V} :
    ∀ {fuel : Nat} {cur cur' : Cur} {b : Bool}, search c sd key fuel cur s = .ok ((cur', b), s') →
      s' = s ∧ ∃ lk, load cur'.l s = .ok (lk, s) := by
  intro fuel
  induction fuel with
  | zero => intro cur cur' b h; cases h
  | succ fuel ih =>
    intro cur cur' b h
    rw [search, bind_run] at h
    cases hl : load cur.l s with
    | error e => rw [hl] at h; cases h
    | ok r =>
      have hs : r.2 = s := load_state hl
      obtain ⟨lk, s1⟩ := r
      cases hs
      rw [hl] at h
      simp only at h
      split at h
      · split at h
        · exact ih h
        · cases h; exact ⟨rfl, lk, hl⟩
      · cases h; exact ⟨rfl, lk, hl⟩

end


section
variable {K V : Type} [DecidableEq K] {c : Cfg K} {sd : Seed} {H : K → Nat → BitVec 64}

/-- What a lookup finds in an empty item. -/
def atEmpty (c : Cfg K) (x : K) : M K V (Option Ptr) := do
  let k ← readKey c {}
  if c.eq x k then pure (some .nil) else pure none

/-- The cell of a new key. -/
def newCell [Inhabited V] (c : Cfg K) (key : K) : Obj K V :=
  match c.store with
  | .boxed => .kv (some key) default
  | _ => .kv none default

theorem newKv_run [Inhabited V] {c : Cfg K} (hb : c.store ≠ .bare) (key : K) (s : St K V) :
    newKv c key default s = .ok (.blk s.next, s.push (newCell c key)) := by
  unfold newKv newCell
  cases h : c.store with
  | boxed => rfl
  | inline => rfl
  | bare => exact absurd h hb

/-- The cells of the keys belong to the container. -/
theorem Rep.leaf_foot (hfg : c.forget = false) {m : Nat → Option (Obj K V)} {t : T K Ptr V} {d : Nat} {lk : Link} {F : Nat → Prop} (hr : Rep c m t d lk F)
    {e : K × Ptr × V} (he : e ∈ leaves t) {a : Nat} (ha : e.2.1 = .blk a) : F a := by
  induction t generalizing d lk F with
  | empty => simp [leaves] at he
  | leaf k p v =>
    simp only [leaves, List.mem_singleton] at he
    subst he
    exact ((Rep.leaf_inv hfg hr).2.2 a).2 ha
  | node st ch ih =>
    obtain ⟨b, xs, G, _, ho, hrep⟩ := hr
    obtain ⟨i, hi, he⟩ := mem_leaves_node.1 he
    exact (ho.foot a).2 (Or.inr ⟨i, hi, ih i (hrep i hi) he⟩)

/-- The two keys of an interrupted split cannot be looked up: their branch is there, but its items are empty. -/
def Broken (c : Cfg K) (sd : Seed) (H : K → Nat → BitVec 64) (key ckey : K) (d b0 i0 : Nat) (s : St K V) : Prop :=
  ∀ x, x = key ∨ x = ckey → ∀ (cur : Cur) (fuel : Nat), CurOk H x d cur → cur.l = ⟨.blk b0, i0⟩ → 255 < fuel + d →
    (search c sd x fuel cur >>= lookupFin c x) s = atEmpty c x s

/-- One step down to an interrupted split. -/
theorem Broken.up {key ckey : K} {d b0 i0 b i : Nat} {s : St K V} {xs0 : List Link} {lk : Link} (L : Laws c sd H)
    (hmem : s.mem b0 = some (.links xs0)) (hget : xs0[i0]? = some lk) (hptr : lk.ptr = .blk b)
    (hag : nbOf H key d = nbOf H ckey d) (hd : d + 1 < 256)
    (hpm : lk.pmap &&& bitOf (nbOf H key d) ≠ 0#32) (htm : lk.tmap &&& bitOf (nbOf H key d) = 0#32)
    (hrk : rankOf lk.pmap (nbOf H key d) = i) (h : Broken c sd H key ckey (d + 1) b i s) : Broken c sd H key ckey d b0 i0 s := by
  intro x hx cur fuel hc hcl hf
  have hnx : nbOf H x d = nbOf H key d := by rcases hx with rfl | rfl; rfl; exact hag.symm
  obtain ⟨fuel, rfl⟩ : ∃ f, fuel = f + 1 := ⟨fuel - 1, by omega⟩
  rw [bind_run, search, hcl, bind_ok (load_ok hmem hget)]
  simp only [hc.radix, hnx]
  rw [if_pos hpm, if_pos htm, hptr, hrk, ← bind_run]
  have hd' := descend_ok L (cur := { cur with path := cur.path ++ [(nbOf H key d, some ⟨.blk b0, i0⟩)] })
    (key := x) (d := d) ⟨hc.d, hc.hd, hc.w⟩ hd ⟨.blk b, i⟩
  exact h x hx _ fuel hd'.1 hd'.2.1 (by omega)

theorem rank_single : ∀ r, r < 16 → rankOf (bitOf r) r = 0 := by decide +kernel

theorem rank_pair : ∀ r, r < 16 → ∀ q, q < 16 → rankOf (bitOf r ||| bitOf q) r < 4 ∧ rankOf (bitOf r ||| bitOf q) q < 4 := by
  decide +kernel

/-- The state left by an interrupted split: a branch with two items that are still empty. -/
theorem Broken.pair {key ckey : K} {d b0 i0 b : Nat} {s : St K V} {xs0 : List Link} {lk : Link}
    (hmem : s.mem b0 = some (.links xs0)) (hget : xs0[i0]? = some lk) (hptr : lk.ptr = .blk b)
    (hpm : lk.pmap = bitOf (nbOf H key d) ||| bitOf (nbOf H ckey d)) (htm : lk.tmap = lk.pmap)
    (hb : s.mem b = some (.links (List.replicate 4 {}))) (hd : d < 256) : Broken c sd H key ckey d b0 i0 s := by
  intro x hx cur fuel hc hcl hf
  have hbit : lk.pmap &&& bitOf (nbOf H x d) ≠ 0#32 := by
    have h1 := nbOf_lt H key d
    have h2 := nbOf_lt H ckey d
    rw [and_bitOf_ne_zero (by have := nbOf_lt H x d; omega), hpm, getLsbD_or_bitOf (by omega), getLsbD_bitOf (by omega)]
    rcases hx with rfl | rfl <;> simp
  have hrk : rankOf lk.pmap (nbOf H x d) < 4 := by
    rw [hpm]
    rcases hx with rfl | rfl
    · exact (rank_pair _ (nbOf_lt ..) _ (nbOf_lt ..)).1
    · exact (rank_pair _ (nbOf_lt ..) _ (nbOf_lt ..)).2
  obtain ⟨fuel, rfl⟩ : ∃ f, fuel = f + 1 := ⟨fuel - 1, by omega⟩
  have e : search c sd x (fuel + 1) cur s = .ok (({ cur with path := cur.path ++ [(nbOf H x d, some ⟨.blk b0, i0⟩)] }, true), s) := by
    rw [search, hcl, bind_ok (load_ok hmem hget)]
    simp only [hc.radix]
    rw [if_pos hbit, if_neg (by rw [htm]; exact hbit)]
    simp
  rw [bind_ok e]
  simp only [lookupFin, if_true, itemRef, hcl]
  rw [bind_ok (a := ⟨.blk b, rankOf lk.pmap (nbOf H x d)⟩) (s' := s)]
  · rw [bind_ok (load_ok hb (x := {}) (by rw [List.getElem?_replicate, if_pos hrk]))]
    rfl
  · rw [bind_ok (load_ok hmem hget), hc.radix, hptr]; rfl

/-- An interrupted split. -/
theorem split_calls [Inhabited V] (L : Laws c sd H) (hbox : c.store ≠ .bare) (chash : Chash K) (g : Bool)
    {key ckey : K} (h : Nat) {cptr : Ptr} :
    ∀ (n d fuel : Nat) (s : St K V) (b0 i0 : Nat) (xs0 : List Link) (lk : Link),
    (∃ j, d + 1 ≤ j ∧ j ≤ 255 ∧ nbOf H key j ≠ nbOf H ckey j) → 255 < d + n + 1 → 255 < d + fuel + 1 →
    s.mem b0 = some (.links xs0) → xs0[i0]? = some lk →
    (nbOf H key (d + 1) = nbOf H ckey (d + 1) → lk.tmap.getLsbD (nbOf H key (d + 1)) = false) → b0 < s.next →
    ∃ p s1 lk1, (∀ R : Type, ∃ next : R → M K V R, ∀ f : Ptr → Bool → M K V R,
        split c sd h key ckey cptr (progIns c chash g key f) fuel ⟨.blk b0, i0⟩ d (hdAt H key d) (hdAt H ckey d) (d / 16 + 1)
          (d / 16 + 1) s = (f p false >>= next) s1) ∧
      (∀ a, a < s.next → a ≠ b0 → s1.mem a = s.mem a) ∧ s1.roots = s.roots ∧ s.next ≤ s1.next ∧
      s1.mem b0 = some (.links (xs0.set i0 lk1)) ∧ Broken c sd H key ckey (d + 1) b0 i0 s1 := by
  intro n
  induction n with
  | zero => intro d fuel s b0 i0 xs0 lk hs hn; obtain ⟨j, h1, h2, _⟩ := hs; omega
  | succ n ih =>
    intro d fuel s b0 i0 xs0 lk hs hn hfu hmem hget htm hlt
    obtain ⟨j, hj1, hj2, hj3⟩ := hs
    obtain ⟨fuel, rfl⟩ : ∃ f, fuel = f + 1 := ⟨fuel - 1, by omega⟩
    have hi0 : i0 < xs0.length := by
      rcases Nat.lt_or_ge i0 xs0.length with h' | h'
      · exact h'
      · rw [List.getElem?_eq_none h'] at hget; cases hget
    have hmod : (d + 1) % 256 = d + 1 := by omega
    have hw : (if (d + 1) % 16 ≠ 0 then d / 16 + 1 else d / 16 + 1 + 1) = (d + 1) / 16 + 1 := by
      split <;> omega
    have hrk := nbOf_lt H key (d + 1)
    have hrc := nbOf_lt H ckey (d + 1)
    have e1 : radixOf (hdAt H key (d + 1)) = nbOf H key (d + 1) := rfl
    have e2 : radixOf (hdAt H ckey (d + 1)) = nbOf H ckey (d + 1) := rfl
    by_cases heq : nbOf H key (d + 1) = nbOf H ckey (d + 1)
    · have hbr : bitOf (nbOf H key (d + 1)) ||| bitOf (nbOf H ckey (d + 1)) = bitOf (nbOf H key (d + 1)) := by
        rw [← heq]; simp
      have hne : ¬ bitOf (nbOf H key (d + 1)) ≠ bitOf (nbOf H ckey (d + 1)) := by rw [heq]; simp
      have hjd : j ≠ d + 1 := fun e => hj3 (e ▸ heq)
      obtain ⟨p, s1, xs1, e3, f1, f2, f3, f4, f5⟩ := ih (d + 1) fuel (b0 := s.next) (i0 := 0)
        (xs0 := List.replicate (4 * ((1 + 3) / 4)) {}) (lk := {})
        ⟨j, by omega, hj2, hj3⟩ (by omega) (by omega)
        (s := ((s.put b0 (.links (xs0.set i0 ⟨lk.ptr, bitOf (nbOf H key (d + 1)), lk.tmap⟩))).push (.links (List.replicate (4 * ((1 + 3) / 4)) {}))).put b0
          (.links (xs0.set i0 ⟨.blk s.next, bitOf (nbOf H key (d + 1)), lk.tmap⟩)))
        (by simp [show s.next ≠ b0 by omega]) (by simp) (fun _ => by simp) (by simp)
      have hb0 : s1.mem b0 = some (.links (xs0.set i0 ⟨.blk s.next, bitOf (nbOf H key (d + 1)), lk.tmap⟩)) := by
        rw [f1 b0 (by simp; omega) (by omega)]; simp
      refine ⟨p, s1, _, fun R => (e3 R).imp fun next e3 f => ?_, fun a h1 h2 => ?_, by rw [f2]; simp, ?_, hb0, ?_⟩
      · rw [split]
        simp only [hmod, next_hd' key (L.digest key (d + 1) (by omega)), next_hd' ckey (L.digest ckey (d + 1) (by omega)), hw]
        rw [bind_ok (modLink_ok hmem hget)]
        simp only [e1, e2]
        rw [if_neg hne]
        rw [bind_ok (newLinkArray_run 1 (by omega) (by omega) _)]
        rw [bind_ok (modLink_ok (xs := xs0.set i0 ⟨lk.ptr, bitOf (nbOf H key (d + 1)) ||| bitOf (nbOf H ckey (d + 1)), lk.tmap⟩)
          (x := ⟨lk.ptr, bitOf (nbOf H key (d + 1)) ||| bitOf (nbOf H ckey (d + 1)), lk.tmap⟩)
          (by simp [show b0 ≠ s.next by omega]) (by simp [hi0]))]
        simp only [put_next, List.set_set, hbr]
        exact e3 f
      · rw [f1 a (by simp; omega) (by omega)]
        simp [h2, show a ≠ s.next by omega]
      · simp at f3; omega
      · refine f5.up L hb0 (by simp [hi0]; rfl) rfl heq (by omega) ?_ ?_ ?_
        · simp only; rw [and_bitOf_ne_zero (by omega), getLsbD_bitOf (by omega)]; simp
        · simp only; rw [and_bitOf_eq_zero (by omega)]; exact htm heq
        · exact rank_single _ hrk
    · have hne : bitOf (nbOf H key (d + 1)) ≠ bitOf (nbOf H ckey (d + 1)) := by
        rw [Ne, bitOf_inj (by omega) (by omega)]; exact heq
      refine ⟨.blk (s.next + 1), (((s.put b0 (.links (xs0.set i0 ⟨lk.ptr, bitOf (nbOf H key (d + 1)) ||| bitOf (nbOf H ckey (d + 1)), bitOf (nbOf H key (d + 1)) ||| bitOf (nbOf H ckey (d + 1))⟩))).push
          (.links (List.replicate (4 * ((2 + 3) / 4)) {}))).put b0
          (.links (xs0.set i0 ⟨.blk s.next, bitOf (nbOf H key (d + 1)) ||| bitOf (nbOf H ckey (d + 1)), bitOf (nbOf H key (d + 1)) ||| bitOf (nbOf H ckey (d + 1))⟩))).push
          (newCell c key), ⟨.blk s.next, bitOf (nbOf H key (d + 1)) ||| bitOf (nbOf H ckey (d + 1)), bitOf (nbOf H key (d + 1)) ||| bitOf (nbOf H ckey (d + 1))⟩, fun R => ⟨?_, fun f => ?_⟩, fun a h1 h2 => ?_, by simp, by simp; omega, ?_, ?_⟩
      rotate_left
      · rw [split]
        simp only [hmod, next_hd' key (L.digest key (d + 1) (by omega)), next_hd' ckey (L.digest ckey (d + 1) (by omega)), hw]
        rw [bind_ok (modLink_ok hmem hget)]
        simp only [e1, e2]
        rw [if_pos hne]
        rw [bind_ok (modLink_ok (xs := xs0.set i0 ⟨lk.ptr, bitOf (nbOf H key (d + 1)) ||| bitOf (nbOf H ckey (d + 1)), lk.tmap⟩)
          (x := ⟨lk.ptr, bitOf (nbOf H key (d + 1)) ||| bitOf (nbOf H ckey (d + 1)), lk.tmap⟩)
          (by simp) (by simp [hi0]))]
        simp only [put_put, List.set_set]
        rw [bind_ok (newLinkArray_run 2 (by omega) (by omega) _)]
        rw [bind_ok (modLink_ok (xs := xs0.set i0 ⟨lk.ptr, bitOf (nbOf H key (d + 1)) ||| bitOf (nbOf H ckey (d + 1)), bitOf (nbOf H key (d + 1)) ||| bitOf (nbOf H ckey (d + 1))⟩)
          (x := ⟨lk.ptr, bitOf (nbOf H key (d + 1)) ||| bitOf (nbOf H ckey (d + 1)), bitOf (nbOf H key (d + 1)) ||| bitOf (nbOf H ckey (d + 1))⟩)
          (by simp [show b0 ≠ s.next by omega]) (by simp [hi0]))]
        simp only [put_next, List.set_set]
        simp only [progIns, bind_assoc_M, pure_bind_M]
        rw [bind_ok (newKv_run hbox ..)]
        rfl
      · simp [h2, show a ≠ s.next by omega, show a ≠ s.next + 1 by omega]
      · simp [show b0 ≠ s.next + 1 by omega]
      · exact Broken.pair (xs0 := xs0.set i0 ⟨.blk s.next, bitOf (nbOf H key (d + 1)) ||| bitOf (nbOf H ckey (d + 1)), bitOf (nbOf H key (d + 1)) ||| bitOf (nbOf H ckey (d + 1))⟩)
          (by simp [show b0 ≠ s.next + 1 by omega]) (by simp [hi0]; rfl) rfl rfl rfl
          (by simp [show s.next ≠ b0 by omega]) (by omega)

/-- A lookup in a branch, given only the item it meets there. -/
theorem lookup_at (L : Laws c sd H) (hfg : c.forget = false) {x : K} {s : St K V} {b0 i0 d b : Nat} {xs0 xs : List Link} {lk : Link} {F G : Nat → Prop}
    {st : BitVec 32} {ch : Nat → T K Ptr V} {cur : Cur} {fuel : Nat} (hl : Loc s b0 i0 xs0 lk F) (ha : Arr s.mem st ch d lk b xs)
    (hrep : Rep c s.mem (ch (nbOf H x d)) (d + 1) (xs.getD (cnt (occ ch) (nbOf H x d)) {}) G)
    (hlc : Loc s b (cnt (occ ch) (nbOf H x d)) xs (xs.getD (cnt (occ ch) (nbOf H x d)) {}) G ∨ (ch (nbOf H x d)).isNode = false)
    (hh : Ht 255 (ch (nbOf H x d)) (d + 1)) (hd : d ≤ 255) (hc : CurOk H x d cur) (hcl : cur.l = ⟨.blk b0, i0⟩) (hf : 255 < fuel + d) :
    (search c sd x fuel cur >>= lookupFin c x) s = .ok ((find (nbOf H) x (ch (nbOf H x d)) (d + 1)).map (fun e => e.1), s) := by
  have hr16 := nbOf_lt H x d
  obtain ⟨fuel, rfl⟩ : ∃ f, fuel = f + 1 := ⟨fuel - 1, by omega⟩
  cases he : ch (nbOf H x d) with
  | empty =>
    rw [bind_ok (search_empty hl ha hc hcl he fuel)]
    rfl
  | leaf k p v =>
    have hocc : occ ch (nbOf H x d) = true := by simp [occ, he, isEmpty]
    rw [bind_ok (search_leaf hl ha hc hcl he fuel)]
    simp only [lookupFin, if_true]
    rw [he] at hrep
    obtain ⟨h1, h2, h3⟩ := Rep.leaf_inv hfg hrep
    rw [bind_ok (itemRef_ok hl ha (push_ok hc _) hcl),
      bind_ok (load_ok ha.mem (ha.slot hr16 hocc)), h1, bind_ok (readKey_ok L (m := s.mem) h2)]
    rw [find]
    by_cases hk : x = k
    · rw [if_pos ((L.eq_iff _ _).2 hk), if_pos hk]; rfl
    · rw [if_neg (fun h => hk ((L.eq_iff _ _).1 h)), if_neg hk]; rfl
  | node st' ch' =>
    have hocc : occ ch (nbOf H x d) = true := by simp [occ, he, isEmpty]
    rw [bind_run, search_node hl ha hc hcl he fuel, ← bind_run]
    have hd' := descend_ok L (push_ok hc (nbOf H x d)) (by rw [he] at hh; have := hh.1; omega : d + 1 < 256)
      ⟨.blk b, cnt (occ ch) (nbOf H x d)⟩
    have hlc' := hlc.resolve_right (by rw [he]; nofun)
    rw [← he]
    exact lookup_sim L hfg x (by omega) (ch (nbOf H x d)) (fuel := fuel) (by rw [he]; rfl) hlc' hrep hh (by omega) hd'.1 hd'.2.1

/-- Keys that leave the path of `key` above the level `n` are looked up as before. -/
def Intact (c : Cfg K) (sd : Seed) (H : K → Nat → BitVec 64) (key : K) (n : Nat) (t : T K Ptr V) (d b0 i0 : Nat) (s : St K V) : Prop :=
  ∀ x, (∃ j, d ≤ j ∧ j < n ∧ nbOf H x j ≠ nbOf H key j) → ∀ (cur : Cur) (fuel : Nat), CurOk H x d cur → cur.l = ⟨.blk b0, i0⟩ →
    255 < fuel + d → (search c sd x fuel cur >>= lookupFin c x) s = .ok ((find (nbOf H) x t d).map (fun e => e.1), s)

/-- `Mod` of a key whose slot holds another key calls its callback in a state in which neither of the two can be
looked up. -/
theorem calls_sim [Inhabited V] {g : Bool} (L : Laws c sd H) (hbox : c.store ≠ .bare)
    {key k' : K} {p' : Ptr} {v' : V} (hk : key ≠ k') (h : Nat) {s : St K V} {fuel0 : Nat}
    (hf0 : 256 ≤ fuel0) (t : T K Ptr V) :
    ∀ {d b0 i0 : Nat} {xs0 : List Link} {lk : Link} {F : Nat → Prop} {cur : Cur} {fuel : Nat},
    t.isNode = true → Loc s b0 i0 xs0 lk F → Rep c s.mem t d lk F → Ht 255 t d → WF (nbOf H) t d → 255 < fuel + d →
    CurOk H key d cur → cur.l = ⟨.blk b0, i0⟩ → slot (nbOf H) key t d = some (k', p', v') →
    (∃ j, lev (nbOf H) key t d ≤ j ∧ j ≤ 255 ∧ nbOf H key j ≠ nbOf H k' j) →
    (∀ j, j = lev (nbOf H) key t d → nbOf H key j = nbOf H k' j → (c.encT k').getLsbD (nbOf H key j) = false) →
    ∃ p s1, (∀ R : Type, ∃ next : R → M K V R, ∀ f : Ptr → Bool → M K V R,
        (search c sd key fuel cur >>= upsertFin c sd h fuel0 key (progIns c (idealChash H) g key f)) s
          = (f p false >>= next) s1) ∧
      (∀ a, a < s.next → (a ≠ b0 ∧ ¬ F a) ∨ (∃ k v, s.mem a = some (.kv k v)) → s1.mem a = s.mem a) ∧
      (∀ a, a ≠ h → s1.roots a = s.roots a) ∧ (s1.roots h).seed = (s.roots h).seed ∧ s.next ≤ s1.next ∧
      (∃ lk1, s1.mem b0 = some (.links (xs0.set i0 lk1))) ∧ Broken c sd H key k' d b0 i0 s1 ∧
      Intact c sd H key (lev (nbOf H) key t d) t d b0 i0 s1 := by
  induction t with
  | empty => intro d b0 i0 xs0 lk F cur fuel h; cases h
  | leaf => intro d b0 i0 xs0 lk F cur fuel h; cases h
  | node st ch ih =>
    intro d b0 i0 xs0 lk F cur fuel _ hl hr hh hw hf hc hcl hs hsep henc
    obtain ⟨b, xs, G, ha, ho, hrep⟩ := hr
    have hd : d ≤ 255 := hh.1
    obtain ⟨fuel, rfl⟩ : ∃ f, fuel = f + 1 := ⟨fuel - 1, by omega⟩
    have hr16 := nbOf_lt H key d
    rw [slot] at hs
    rw [lev] at hsep henc ⊢
    have hbF : F b := (ho.foot b).2 (Or.inl rfl)
    have hbb0 : b ≠ b0 := fun e => hl.nF (e ▸ hbF)
    have hGF : ∀ i a, i < 16 → G i a → F a := fun i a hi hg => (ho.foot a).2 (Or.inr ⟨i, hi, hg⟩)
    cases he : ch (nbOf H key d) with
    | empty => rw [he] at hs; cases hs
    | leaf k1 p1 v1 =>
      rw [he] at hs hsep henc
      simp only [slot, Option.some.injEq, Prod.mk.injEq] at hs
      obtain ⟨rfl, rfl, rfl⟩ := hs
      simp only [lev] at hsep henc ⊢
      have hocc : occ ch (nbOf H key d) = true := by simp [occ, he, isEmpty]
      have hlc := hl.child ha ho hr16 hocc
      have hcr := hrep _ hr16
      rw [he] at hcr
      obtain ⟨h1, h2, h3⟩ := Rep.leaf_inv (L.keep hbox) hcr
      have hcn : nbOf H k1 d = nbOf H key d := (hw.2 _ hr16).1 (k1, p1, v1) (by rw [he]; simp [leaves])
      have hc' := push_ok hc (nbOf H key d)
      generalize hs1 : St.root (s.put b0 (.links (xs0.set i0
        { ptr := lk.ptr, pmap := lk.pmap, tmap := lk.tmap &&& ~~~bitOf (nbOf H key d) }))) h
          (fun m => { m with dep := m.dep - BitVec.ofNat 64 d }) = s1
      have hs1m : ∀ a, a ≠ b0 → s1.mem a = s.mem a := by intro a h'; rw [← hs1]; simp [h']
      have hs1n : s1.next = s.next := by rw [← hs1]; simp
      have hs1b0 : s1.mem b0 = some (.links (xs0.set i0
        { ptr := lk.ptr, pmap := lk.pmap, tmap := lk.tmap &&& ~~~bitOf (nbOf H key d) })) := by
        rw [← hs1]; simp
      have hs1r : ∀ a, s1.roots a = if a = h then { s.roots a with dep := (s.roots a).dep - BitVec.ofNat 64 d } else s.roots a := by
        intro a; rw [← hs1]; rfl
      obtain ⟨p, s2, lk2, e2, f1, f2, f3, f4, f5⟩ := split_calls L hbox (idealChash H) g (key := key)
        (ckey := k1) h (cptr := p1) 256 d fuel0 s1 b (cnt (occ ch) (nbOf H key d)) xs (mkLink c k1 p1) hsep (by omega) (by omega)
        (by rw [hs1m b hbb0]; exact ha.mem) (by rw [ha.slot hr16 hocc, h1]) (henc _ rfl)
        (by rw [hs1n]; exact hlc.lt)
      have hb0' : s2.mem b0 = some (.links (xs0.set i0
        { ptr := lk.ptr, pmap := lk.pmap, tmap := lk.tmap &&& ~~~bitOf (nbOf H key d) })) := by
        rw [f1 b0 (by rw [hs1n]; exact hl.lt) (Ne.symm hbb0), hs1b0]
      have hi0 : i0 < xs0.length := by
        rcases Nat.lt_or_ge i0 xs0.length with h' | h'
        · exact h'
        · have := hl.get; rw [List.getElem?_eq_none h'] at this; cases this
      have hlk2 : ∀ i, i < 16 → i ≠ nbOf H key d → occ ch i = true →
          (xs.set (cnt (occ ch) (nbOf H key d)) lk2).getD (cnt (occ ch) i) {} = xs.getD (cnt (occ ch) i) {} := by
        intro i hi hne ho'
        rw [List.getD_eq_getElem?_getD, List.getD_eq_getElem?_getD, List.getElem?_set_ne]
        exact fun e => hne (cnt_inj ho' hocc e.symm)
      have hfr : ∀ i a, i < 16 → i ≠ nbOf H key d → G i a → s2.mem a = s.mem a := by
        intro i a hi hne hg
        rw [f1 a (by rw [hs1n]; exact hl.bound a (hGF i a hi hg)) (fun e => ho.nob i hi (e ▸ hg)),
          hs1m a (fun e => hl.nF (e ▸ hGF i a hi hg))]
      have hlt : b < s2.next := by have := hlc.lt; omega
      refine ⟨p, s2, fun R => (e2 R).imp fun next e2 f => ?_, fun a g1 g2 => ?_, fun a ha' => ?_, ?_, by omega, ⟨_, hb0'⟩, ?_, ?_⟩
      · rw [bind_ok (search_leaf hl ha hc hcl he fuel)]
        simp only [upsertFin, if_true]
        rw [conflict, bind_ok (itemRef_ok hl ha hc' hcl), bind_ok (load_ok ha.mem (ha.slot hr16 hocc)), h1,
          bind_ok (readKey_ok L (m := s.mem) h2), if_neg (fun e => hk ((L.eq_iff _ _).1 e)),
          bind_ok (liftE_ok (a := (hdAt H k1 d, d / 16 + 1)) (by rw [hc'.d]; rfl) s)]
        simp only
        have hrc : radixOf (hdAt H k1 d) = nbOf H k1 d := rfl
        rw [hrc, hc'.radix, if_neg (by simp [hcn]), show (cur.push (nbOf H key d)).l = ⟨.blk b0, i0⟩ from hcl]
        rw [bind_ok (modLink_ok hl.mem hl.get), bind_ok (modRoot_run ..), hc'.d, hc'.hd, hc'.w, hs1, show (mkLink c k1 p1).ptr = p1 from rfl, Cfg.kept_eq (L.keep hbox)]
        exact e2 f
      · have hab : a ≠ b := by
          intro e
          rcases g2 with ⟨_, g3⟩ | ⟨k, v, g⟩
          · exact g3 (e ▸ hbF)
          · rw [e, ha.mem] at g; cases g
        have hab0 : a ≠ b0 := by
          intro e
          rcases g2 with ⟨g3, _⟩ | ⟨k, v, g⟩
          · exact g3 e
          · rw [e, hl.mem] at g; cases g
        rw [f1 a (by omega) hab, hs1m a hab0]
      · rw [f2, hs1r, if_neg ha']
      · rw [f2, hs1r, if_pos rfl]
      · refine f5.up L (lk := { ptr := lk.ptr, pmap := lk.pmap, tmap := lk.tmap &&& ~~~bitOf (nbOf H key d) }) hb0' (by simp [hi0]) ha.ptr hcn.symm ?_ ?_ ?_ (ha.pm.rankOf (Nat.le_of_lt hr16))
        · obtain ⟨j, h1, h2, _⟩ := hsep; omega
        · have := (pm_bit ha hr16).2 hocc; exact this
        · simp only; rw [BitVec.and_assoc, show ~~~bitOf (nbOf H key d) &&& bitOf (nbOf H key d) = 0#32 by ext; simp]; simp
      · rintro x ⟨j, j1, j2, j3⟩ cur' fuel' hc2 hcl2 hf2
        have hj : j = d := by omega
        subst hj
        have hx16 := nbOf_lt H x j
        have hch : upd ch (nbOf H key j) (.node 0#32 fun _ => .empty) (nbOf H x j) = ch (nbOf H x j) := upd_other _ _ j3
        have hoc : occ (upd ch (nbOf H key j) (.node 0#32 fun _ => .empty)) = occ ch := occ_upd (by rw [he]; rfl)
        have ha' : Arr s2.mem st (upd ch (nbOf H key j) (.node 0#32 fun _ => .empty)) j
            { ptr := lk.ptr, pmap := lk.pmap, tmap := lk.tmap &&& ~~~bitOf (nbOf H key j) } b
            (xs.set (cnt (occ ch) (nbOf H key j)) lk2) :=
          ⟨ha.ptr, f4, by rw [hoc, List.length_set]; exact ha.len, by rw [hoc]; exact ha.pm, ha.tm.unleaf hr16 hocc rfl⟩
        have hl' : Loc s2 b0 i0 (xs0.set i0 { ptr := lk.ptr, pmap := lk.pmap, tmap := lk.tmap &&& ~~~bitOf (nbOf H key j) })
            { ptr := lk.ptr, pmap := lk.pmap, tmap := lk.tmap &&& ~~~bitOf (nbOf H key j) } (fun _ => False) :=
          ⟨hb0', by simp [hi0], by have := hl.lt; omega, fun h => h, fun _ h => h.elim⟩
        rw [find]
        have hrx : Rep c s2.mem (ch (nbOf H x j)) (j + 1)
            ((xs.set (cnt (occ ch) (nbOf H key j)) lk2).getD (cnt (occ ch) (nbOf H x j)) {}) (G (nbOf H x j)) := by
          have := (hrep _ hx16).frame (fun a hg => hfr _ a hx16 j3 hg)
          cases hox : occ ch (nbOf H x j) with
          | true => rw [hlk2 _ hx16 j3 hox]; exact this
          | false =>
            have : ch (nbOf H x j) = .empty := by
              cases hce : ch (nbOf H x j) <;> simp [occ, hce, isEmpty] at hox ⊢
            rename_i h0
            rw [this] at h0 ⊢
            exact h0
        have := lookup_at (G := G (nbOf H x j)) L (L.keep hbox) hl' ha' (by rw [hch, hoc]; exact hrx) (by
          rw [hch, hoc]
          cases hox : occ ch (nbOf H x j) with
          | true =>
            left
            exact ⟨f4, by rw [hlk2 _ hx16 j3 hox, List.getElem?_set_ne (fun e => j3 (cnt_inj hox hocc e.symm))]; exact ha.slot hx16 hox,
              hlt, ho.nob _ hx16, fun a hg => by have := hl.bound a (hGF _ a hx16 hg); omega⟩
          | false =>
            right
            cases hce : ch (nbOf H x j) <;> simp [occ, hce, isEmpty, isNode] at hox ⊢) (by rw [hch]; exact hh.2 _ hx16) hd hc2 hcl2 hf2
        rw [this, hch]
    | node st' ch' =>
      have hocc : occ ch (nbOf H key d) = true := by simp [occ, he, isEmpty]
      have hlt : d + 1 < 256 := by have := hh.2 _ hr16; rw [he] at this; have := this.1; omega
      have hd' := descend_ok L (push_ok hc (nbOf H key d)) hlt ⟨.blk b, cnt (occ ch) (nbOf H key d)⟩
      obtain ⟨p, s1, e1, f1, f2, f3, f4, ⟨lk1, f6⟩, f5, f7⟩ := ih (nbOf H key d) (d := d + 1) (fuel := fuel) (by rw [he]; rfl)
        (hl.child ha ho hr16 hocc) (hrep _ hr16) (hh.2 _ hr16) (hw.2 _ hr16).2 (by omega) hd'.1 hd'.2.1 hs hsep henc
      have hb0' : s1.mem b0 = some (.links xs0) := by
        rw [f1 b0 hl.lt (Or.inl ⟨Ne.symm hbb0, fun hg => hl.nF (hGF _ _ hr16 hg)⟩)]; exact hl.mem
      have hlk1 : ∀ i, i < 16 → i ≠ nbOf H key d → occ ch i = true →
          (xs.set (cnt (occ ch) (nbOf H key d)) lk1).getD (cnt (occ ch) i) {} = xs.getD (cnt (occ ch) i) {} := by
        intro i hi hne ho'
        rw [List.getD_eq_getElem?_getD, List.getD_eq_getElem?_getD, List.getElem?_set_ne]
        exact fun e => hne (cnt_inj ho' hocc e.symm)
      have hfr : ∀ i a, i < 16 → i ≠ nbOf H key d → G i a → s1.mem a = s.mem a := by
        intro i a hi hne hg
        exact f1 a (hl.bound a (hGF i a hi hg)) (Or.inl ⟨fun e => ho.nob i hi (e ▸ hg), fun hg' => hne (ho.disj i _ a hi hr16 hg hg')⟩)
      have hbl : b < s1.next := by have := hl.bound b hbF; omega
      have ha' : Arr s1.mem st ch d lk b (xs.set (cnt (occ ch) (nbOf H key d)) lk1) :=
        ⟨ha.ptr, f6, by rw [List.length_set]; exact ha.len, ha.pm, ha.tm⟩
      have hl' : Loc s1 b0 i0 xs0 lk (fun _ => False) :=
        ⟨hb0', hl.get, by have := hl.lt; omega, fun h => h, fun _ h => h.elim⟩
      refine ⟨p, s1, fun R => (e1 R).imp fun next e1 f => ?_, fun a g1 g2 => ?_, f2, f3, f4, ⟨lk, by rw [set_self hl.get]; exact hb0'⟩, ?_, ?_⟩
      · rw [bind_run, search_node hl ha hc hcl he fuel, ← bind_run]
        exact e1 f
      · refine f1 a g1 (g2.imp_left fun ⟨g2, g3⟩ => ⟨fun e => g3 (e ▸ hbF), fun hg => g3 (hGF _ a hr16 hg)⟩)
      · have hm := slot_mem (nbOf_lt H) hs
        have hcn : nbOf H k' d = nbOf H key d := (hw.2 _ hr16).1 _ hm
        refine f5.up L (lk := lk) (b := b) hb0' hl.get ha.ptr
          hcn.symm hlt ?_ ?_ (ha.pm.rankOf (Nat.le_of_lt hr16))
        · exact (pm_bit ha hr16).2 hocc
        · rw [tm_bit ha hr16 hocc]; simp [lf, he, isLeaf]
      · rintro x ⟨j, j1, j2, j3⟩ cur' fuel' hc2 hcl2 hf2
        have hx16 := nbOf_lt H x d
        rw [find]
        by_cases hxd : nbOf H x d = nbOf H key d
        · obtain ⟨fuel', rfl⟩ : ∃ f, fuel' = f + 1 := ⟨fuel' - 1, by omega⟩
          have hjd : j ≠ d := fun e => j3 (e ▸ hxd)
          rw [bind_run, search_node hl' ha' hc2 hcl2 (by rw [hxd]; exact he) fuel', ← bind_run]
          have hd2 := descend_ok L (push_ok hc2 (nbOf H x d)) hlt ⟨.blk b, cnt (occ ch) (nbOf H x d)⟩
          have := f7 x ⟨j, by omega, by rw [he]; exact j2, j3⟩ _ fuel' hd2.1 (by rw [hd2.2.1, hxd]) (by omega)
          rw [this, hxd]
        · have hrx : Rep c s1.mem (ch (nbOf H x d)) (d + 1)
              ((xs.set (cnt (occ ch) (nbOf H key d)) lk1).getD (cnt (occ ch) (nbOf H x d)) {}) (G (nbOf H x d)) := by
            have h0 := (hrep _ hx16).frame (fun a hg => hfr _ a hx16 hxd hg)
            cases hox : occ ch (nbOf H x d) with
            | true => rw [hlk1 _ hx16 hxd hox]; exact h0
            | false =>
              have : ch (nbOf H x d) = .empty := by
                cases hce : ch (nbOf H x d) <;> simp [occ, hce, isEmpty] at hox ⊢
              rw [this] at h0 ⊢
              exact h0
          exact lookup_at (G := G (nbOf H x d)) L (L.keep hbox) hl' ha' hrx (by
            cases hox : occ ch (nbOf H x d) with
            | true =>
              left
              exact ⟨f6, by rw [hlk1 _ hx16 hxd hox, List.getElem?_set_ne (fun e => hxd (cnt_inj hox hocc e.symm))]; exact ha.slot hx16 hox,
                hbl, ho.nob _ hx16, fun a hg => by have := hl.bound a (hGF _ a hx16 hg); omega⟩
            | false =>
              right
              cases hce : ch (nbOf H x d) <;> simp [occ, hce, isEmpty, isNode] at hox ⊢) (hh.2 _ hx16) hd hc2 hcl2 hf2

variable {s : St K V} {h : Nat} {t : T K Ptr V} {cl : Prop} {F : Nat → Prop} {fuel : Nat}

/-- `Mod` of a key whose slot is free calls its callback before anything is changed, but for the allocation of the cell. -/
theorem Inv.calls_free [Inhabited V] {R : Type} (L : Laws c sd H) (hb : c.store ≠ .bare) (hi : Inv c sd H cl s h t F) (hf : 256 ≤ fuel)
    {key : K} (hs : slot (nbOf H) key t 0 = none) (chash : Chash K) (g : Bool) :
    ∃ next : R → M K V R, ∀ f : Amt.Ptr → Bool → M K V R, Amt.upsert c h fuel key (progIns c chash g key f) s =
      (f (.blk s.next) false >>= next) (s.push (newCell c key)) := by
  obtain ⟨lk, hl, hr⟩ := hi.rep
  obtain ⟨cur, b, e1, e2⟩ := search_sim L key (by omega : 255 < 256) t hi.node hl hr hi.ht (by omega : 255 < fuel + 0)
    (start_ok L key h) rfl
  rw [hs] at e2
  simp only at e2
  subst e2
  obtain ⟨_, lk0, e3⟩ := search_loaded e1
  refine ⟨?_, fun f => ?_⟩
  rotate_left
  · rw [upsert_eq, bind_ok (getRoot_run h s), hi.seed, bind_ok e1]
    simp only [upsertFin, Bool.false_eq_true, if_false, insertSlot]
    rw [bind_ok e3]
    simp only [progIns, bind_assoc_M, pure_bind_M]
    rw [bind_ok (newKv_run hb ..)]

theorem Inv.push (hi : Inv c sd H cl s h t F) (o : Obj K V) : Inv c sd H cl (s.push o) h t F := by
  obtain ⟨h1, h2, h3⟩ := hi.bound
  exact hi.frame (by simp [show h ≠ s.next by omega]) (fun x hx => by have := h3 x hx; simp [show x ≠ s.next by omega]) rfl (by simp)

end

section
variable {K V : Type} [DecidableEq K] [Inhabited V] {I : MapImpl K V} {sd : Seed} {H : K → Nat → BitVec 64}
  {P : Bool → List K → K → Prop} {lossy : V → V} {cl : Prop} {fuel : Nat} {okS okM : K → K → Nat → Prop}
  {s : St K V} {h : Nat} {t : T K Ptr V} {F : Nat → Prop}

/-- `Mod` of a new key that collides with a stored one. -/
theorem map_calls_collide (ok : MapOk I sd H P cl lossy okS okM) (hcl : cl) (hi : Inv I.cfg sd H cl s h t F) (hf : 256 ≤ fuel)
    {key k' : K} (hP : P true (absT t).keys key) (hk : key ∉ (absT t).keys) {d : Nat}
    (hco : CollidesAt H (absT t).keys key k' d) :
    ∃ p s1, I.ModCalls fuel (some h) key s p false s1 ∧
      (∀ x, x = key ∨ x = k' → I.Ptr fuel (some h) x s1 = atEmpty I.cfg x s1) ∧
      (∀ x, ¬ Agree H key x (d + 1) → I.Ptr fuel (some h) x s1 = .ok ((find (nbOf H) x t 0).map (fun e => e.1), s1)) ∧
      ∀ a, a < s.next → (∃ k v, s.mem a = some (.kv k v)) → s1.mem a = s.mem a := by
  obtain ⟨p', v', hs, hd⟩ := hi.slot_of_collides hcl hco
  obtain ⟨lk, hl, hr⟩ := hi.rep
  have hne : key ≠ k' := fun e => hk (e ▸ hco.1)
  have hm := slot_mem (nbOf_lt H) hs
  have hag := slot_agree hi.node hi.wf hs
  have hlv : 1 ≤ lev (nbOf H) key t 0 := by
    have hn := hi.node
    cases t with
    | empty => cases hn
    | leaf => cases hn
    | node st ch => exact lev_ge (nbOf H) key (ch (nbOf H key 0)) 1
  have hagl : ∀ j, j < lev (nbOf H) key t 0 → nbOf H key j = nbOf H k' j := by
    intro j hj
    rw [nbOf_eq_nibble, nbOf_eq_nibble]
    exact hag j (by omega)
  have hsep : ∃ j, lev (nbOf H) key t 0 ≤ j ∧ j ≤ 255 ∧ nbOf H key j ≠ nbOf H k' j := by
    obtain ⟨j, h1, h2⟩ := ok.apart true _ _ hP k' hco.1
    rw [← nbOf_eq_nibble, ← nbOf_eq_nibble] at h2
    exact ⟨j, Nat.le_of_not_lt fun h => h2 (hagl j h), h1, h2⟩
  have hsafe := ok.safeFor hi (m := true) (fun _ => hP) ((find_none_iff hi key).2 hk)
  obtain ⟨p, s1, e1, f1, f2, f3, f4, _, f5, f6⟩ := calls_sim (g := (I.modI key fun v _ => v).guard) ok.laws ok.store hne h hf t
    hi.node hl hr hi.ht hi.wf (by omega : 255 < fuel + 0) (start_ok ok.laws key h) rfl hs hsep (by
      intro j hj heq
      refine hsafe _ hm (Ne.symm hne) j (by omega) fun i hij => ?_
      rcases Nat.lt_or_ge i j with h' | h'
      · exact (hagl i (by omega)).symm
      · rw [show i = j by omega]; exact heq.symm)
  have hsd : (s1.roots h).seed = sd := by rw [f3, hi.seed]
  have hptr : ∀ x, I.Ptr fuel (some h) x s1 = (search I.cfg sd x fuel (start I.cfg sd x h) >>= lookupFin I.cfg x) s1 := by
    intro x
    show (lookup I.cfg h fuel x) s1 = _
    rw [lookup_eq, bind_ok (getRoot_run h s1), hsd]
  refine ⟨p, s1, fun R => ?_, fun x hx => ?_, fun x hx => ?_, fun a ha hkv => f1 a ha (Or.inr hkv)⟩
  · obtain ⟨next, e1⟩ := e1 R
    refine ⟨next, fun f => ?_⟩
    show Amt.upsert I.cfg h fuel key (progIns I.cfg (I.modI key fun v _ => v).chash (I.modI key fun v _ => v).guard key f) s = _
    rw [hi.upsert_chash ok.laws hf (idealChash H) (fun e he hne' => ?_)]
    · rw [upsert_eq, bind_ok (getRoot_run h s), hi.seed]
      exact e1 f
    · rw [hs] at he
      cases he
      rw [hd]
      exact ok.modC key _ k' d fuel (by omega) (ok.collM _ _ hP _ _ hco)
  · rw [hptr]; exact f5 x hx _ _ (start_ok ok.laws x h) rfl (by omega)
  · rw [hptr]
    refine f6 x ?_ _ _ (start_ok ok.laws x h) rfl (by omega)
    have : ¬ ∀ j, j < d + 1 → nibble H key j = nibble H x j := hx
    apply Classical.byContradiction
    intro hno
    apply this
    intro j hj
    apply Classical.byContradiction
    intro hj'
    refine hno ⟨j, by omega, by omega, ?_⟩
    rw [nbOf_eq_nibble, nbOf_eq_nibble]
    exact Ne.symm hj'

end

/-! ### C54 -/

section
variable {K V : Type} [DecidableEq K] [Inhabited V] {I : MapImpl K V} {sd : Seed} {H : K → Nat → BitVec 64}
  {P : Bool → List K → K → Prop} {lossy : V → V} {ex : Prop} {fuel : Nat}

/-- `*p = w`, or nothing. -/
def assign (p : Amt.Ptr) : Option V → M K V Unit
  | none => pure ()
  | some v => storeVal p v

/-- C54, where it holds.  After every covered history, `Mod` of a stored key, or of a new key that does not collide with
a stored one, calls its callback with the value of the key (or the zero value), in a memory `s₂` in which the map is
intact: if the callback panics there - having assigned `w` to the value, or nothing - and the caller recovers, the map
answers all further calls as a map does that has the contents `m` from before the call, in which a stored key has the
assigned value. -/
theorem C54_intact_partial (hc : MapContainer I sd H P lossy ex) {ops : List (MOp K V)} (h : EachNew P [] ops) {key : K}
    (hk : key ∈ keysAfter [] ops ∨ ex ∧ ∀ k' d, ¬ CollidesAt H (keysAfter [] ops) key k' d) (hf : 256 ≤ fuel) (s : St K V) :
    ∃ hd os s₁ m p b s₂, I.session fuel sd ops s = .ok ((hd, os), s₁) ∧ RunBy (MStepX H ex lossy) [] ops os m ∧
      I.ModCalls fuel hd key s₁ p b s₂ ∧ (b = true ↔ key ∈ keysAfter [] ops) ∧
      (∃ o, loadKv p s₂ = .ok ((o, (m.get key).getD default), s₂)) ∧
      ∀ w, ∃ s₃ m₀, assign p w s₂ = .ok ((), s₃) ∧ (if b then Assigned m key w m₀ else m₀ = m) ∧
        ∀ ops', EachNew P (keysAfter [] ops) ops' → ∃ os' s₄ m', I.run fuel hd ops' s₃ = .ok (os', s₄) ∧
          RunBy (MStepX H ex lossy) m₀ ops' os' m' := by
  obtain ⟨os, s₁, t, F, m, e1, hi, e3, e4⟩ := hc.session h hf s
  obtain ⟨okS, okM, ok⟩ := hc.ok
  have hks : ∀ x, x ∈ keysAfter [] ops ↔ x ∈ (absT t).keys := fun x => by
    rw [← (FMap.keys_perm e4).mem_iff]; exact (e3.keysAfter x).symm
  have hnd := e3.nodup (by simp [FMap.keys])
  have hget : m.get key = (absT t).get key := FMap.get_perm e4 hnd key
  -- from a map with the contents of `t'`
  have hrest : ∀ {s₃ : St K V} {t' : T K Ptr V} {F' : Nat → Prop} {m₀ : FMap K V}, Inv I.cfg sd H ex s₃ s.next t' F' →
      (absT t').Perm m₀ → (∀ x, x ∈ keysAfter [] ops ↔ x ∈ (absT t').keys) →
      ∀ ops', EachNew P (keysAfter [] ops) ops' → ∃ os' s₄ m', I.run fuel (some s.next) ops' s₃ = .ok (os', s₄) ∧
        RunBy (MStepX H ex lossy) m₀ ops' os' m' := by
    intro s₃ t' F' m₀ hi' hp hks' ops' h'
    obtain ⟨os', s₄, t₄, F₄, q1, _, _, ⟨m', q2, _⟩, _⟩ := map_run ok hf ops' hi' hks' h'
    obtain ⟨m'', q3, _⟩ := q2.perm hp (nodup_absT hi'.wf)
    exact ⟨os', s₄, m'', q1, q3⟩
  cases hg : T.find (nbOf H) key t 0 with
  | some e =>
    have hmem : key ∈ keysAfter [] ops := by
      apply Classical.byContradiction
      intro hno
      rw [hks, ← find_none_iff hi, hg] at hno
      cases hno
    obtain ⟨p, v⟩ := e
    obtain ⟨o, ho⟩ := load_found ok hi hg
    refine ⟨_, os, s₁, m, p, true, s₁, e1, e3, fun R => ⟨pure, fun f => ?_⟩, by simp [hmem], ⟨o, ?_⟩, fun w => ?_⟩
    · exact (hi.upsert_hit ok.laws (ok.laws.keep ok.store) hf hg).trans (by
        show f p true s₁ = (f p true >>= pure) s₁
        rw [bind_run]; cases f p true s₁ <;> rfl)
    · rw [ho, hget, ← find_absT hi.wf, hg]; rfl
    · cases w with
      | none => exact ⟨s₁, m, rfl, rfl, hrest hi e4.symm hks⟩
      | some w =>
        obtain ⟨s', t', F', g1, g2, _, g3, _⟩ := write_run ok hi hf hg w
        have hp : (m.set key w).Perm ((absT t).set key w) := FMap.set_perm e4 _ _
        refine ⟨s', m.set key w, g1, List.Perm.refl _, hrest g2 (g3.symm.trans hp.symm) fun x => ?_⟩
        rw [hks, ← (FMap.keys_perm g3).mem_iff, FMap.mem_keys_set]
        exact ⟨Or.inr, fun h => h.elim (fun e => e ▸ (hks _).1 hmem) id⟩
  | none =>
    have hno : key ∉ keysAfter [] ops := by rw [hks, ← find_none_iff hi, hg]
    obtain ⟨hx, hcol⟩ := hk.resolve_left hno
    have hsl : slot (nbOf H) key t 0 = none := by
      cases hs : slot (nbOf H) key t 0 with
      | none => rfl
      | some e =>
        have := slot_collidesAt hi.node hi.wf (hi.canon hx) hs
        rw [← absT_keys] at this
        exact absurd (this.congr fun x => (hks x).symm) (hcol _ _)
    have hpush := hi.push (newCell (V := V) I.cfg key)
    have hcell : ∃ o, newCell (V := V) I.cfg key = .kv o default := by
      unfold newCell; split <;> exact ⟨_, rfl⟩
    obtain ⟨o, ho⟩ := hcell
    have hat : (s₁.push (newCell (V := V) I.cfg key)).mem s₁.next = some (.kv o default) := by rw [ho]; simp
    refine ⟨_, os, s₁, m, .blk s₁.next, false, _, e1, e3,
      fun R => hi.calls_free ok.laws ok.store hf hsl (I.modI key fun v _ => v).chash (I.modI key fun v _ => v).guard,
      by simp [hno], ⟨o, ?_⟩, fun w => ?_⟩
    · rw [loadKv_ok hat, hget, ← find_absT hi.wf, hg]; rfl
    · cases w with
      | none => exact ⟨_, m, rfl, rfl, hrest hpush e4.symm hks⟩
      | some w =>
        refine ⟨_, m, storeVal_ok hat, rfl, hrest (t' := t) (F' := F) ?_ e4.symm hks⟩
        obtain ⟨h1, h2, h3⟩ := hi.bound
        exact hpush.frame (by simp [show s.next ≠ s₁.next by omega])
          (fun x hx => by have := h3 x hx; simp [show x ≠ s₁.next by omega]) rfl (by simp)

/-- What an empty item reads as. -/
theorem MapContainer.empty (hc : MapContainer I sd H P lossy ex) :
    I.cfg.store = .boxed ∨ I.cfg.store = .inline ∧ ∃ k, I.cfg.dec 0#32 0#32 = some k := by
  cases hc with
  | string => exact Or.inl rfl
  | bytes => exact Or.inl rfl
  | arr => exact Or.inl rfl
  | int => exact Or.inr ⟨rfl, _, rfl⟩
  | int32 => exact Or.inr ⟨rfl, _, rfl⟩
  | generic => exact Or.inl rfl

/-- What a map does to `x` when the callback of a `Mod` of a colliding key panicked: `x` is one of the two keys. -/
def Forgets (I : MapImpl K V) (fuel : Nat) (hd : Handle) (s : St K V) (x : K) : Prop :=
  I.exec fuel hd (.get x) s = .error .nilDeref ∨ I.exec fuel hd (.get x) s = .ok (.pair default false, s)

/-- C54 is false of a new key that collides with a stored key `k'`: the callback runs after `k'` was moved out of its
place and before it was put into its new one.  If it panics there, `k'` is gone: `Get` of it panics, or (in an
integer-keyed map) says that it is absent.  All other keys are still found. -/
theorem C54_refuted (hc : MapContainer I sd H P lossy ex) (hx : ex) {ops : List (MOp K V)} (h : EachNew P [] ops) {key k' : K} {d : Nat}
    (hP : P true (keysAfter [] ops) key) (hk : key ∉ keysAfter [] ops) (hco : CollidesAt H (keysAfter [] ops) key k' d)
    (hf : 256 ≤ fuel) (s : St K V) :
    ∃ hd os s₁ m p s₂, I.session fuel sd ops s = .ok ((hd, os), s₁) ∧ RunBy (MStepX H ex lossy) [] ops os m ∧
      I.ModCalls fuel hd key s₁ p false s₂ ∧
      I.exec fuel hd (.get k') s₁ = .ok (.pair ((m.get k').getD default) true, s₁) ∧
      Forgets I fuel hd s₂ key ∧ Forgets I fuel hd s₂ k' ∧
      (I.cfg.store = .boxed → I.exec fuel hd (.get k') s₂ = .error .nilDeref) ∧
      ∀ x ∈ keysAfter [] ops, x ≠ k' → I.exec fuel hd (.get x) s₂ = .ok (.pair ((m.get x).getD default) true, s₂) := by
  obtain ⟨os, s₁, t, F, m, e1, hi, e3, e4⟩ := hc.session h hf s
  obtain ⟨okS, okM, ok⟩ := hc.ok
  have hks : ∀ x, x ∈ keysAfter [] ops ↔ x ∈ (absT t).keys := fun x => by
    rw [← (FMap.keys_perm e4).mem_iff]; exact (e3.keysAfter x).symm
  have hnd := e3.nodup (by simp [FMap.keys])
  have hget : ∀ x, m.get x = (absT t).get x := fun x => FMap.get_perm e4 hnd x
  obtain ⟨p, s₂, g1, g2, g3, g4⟩ := map_calls_collide ok hx hi hf (ok.congr true _ _ _ hks hP) (by rw [← hks]; exact hk)
    (hco.congr hks)
  have hbx : I.cfg.store = .boxed → ∀ x, x = key ∨ x = k' → I.exec fuel (some s.next) (.get x) s₂ = .error .nilDeref := by
    intro hb x hx
    rw [MapImpl.exec, MapImpl.Get, bind_assoc_M, bind_run, g2 x hx, atEmpty, bind_run, readKey, hb]
    rfl
  have hfg : ∀ x, x = key ∨ x = k' → Forgets I fuel (some s.next) s₂ x := by
    intro x hx
    rcases hc.empty with hb | ⟨hb, k0, hk0⟩
    · exact Or.inl (hbx hb x hx)
    · unfold Forgets
      rw [MapImpl.exec, MapImpl.Get, bind_assoc_M, bind_run, g2 x hx, atEmpty, bind_run, readKey, hb]
      simp only [hk0]
      show (match ((if I.cfg.eq x k0 = true then pure (some .nil) else pure none : M K V (Option Ptr)) s₂) with | _ => _) = _ ∨ _
      by_cases he : I.cfg.eq x k0 = true
      · left; simp only [pure_run, if_pos he]; rfl
      · right; simp only [pure_run, if_neg he]; rfl
  have hin : ∀ x, x ∈ keysAfter [] ops → ∃ q v, find (nbOf H) x t 0 = some (q, v) ∧ m.get x = some v := by
    intro x hxm
    cases hg : find (nbOf H) x t 0 with
    | none => rw [find_none_iff hi, ← hks] at hg; exact absurd hxm hg
    | some e => exact ⟨e.1, e.2, rfl, by rw [hget, ← find_absT hi.wf, hg]; rfl⟩
  refine ⟨_, os, s₁, m, p, s₂, e1, e3, g1, ?_, hfg _ (Or.inl rfl), hfg _ (Or.inr rfl), fun hb => hbx hb _ (Or.inr rfl), fun x hxm hne => ?_⟩
  · obtain ⟨q, v, h1, h2⟩ := hin k' hco.1
    rw [MapImpl.exec, bind_ok (Get_run ok hi hf k'), ← hget, h2]
    rfl
  · obtain ⟨q, v, h1, h2⟩ := hin x hxm
    have hkv := hi.cell ok.laws ((find_eq_some (nbOf_lt H) hi.wf).1 h1)
    have hkv' : KvAt I.cfg s₂.mem x q v := hkv.frame fun a ha => by
      have hb := hi.bound.2.2
      have : ∃ k v, s₁.mem a = some (.kv k v) := by
        unfold KvAt at hkv
        cases hst : I.cfg.store with
        | boxed => rw [hst] at hkv; obtain ⟨a', e, h'⟩ := hkv; rw [ha] at e; cases e; exact ⟨_, _, h'⟩
        | inline => rw [hst] at hkv; obtain ⟨a', e, h'⟩ := hkv; rw [ha] at e; cases e; exact ⟨_, _, h'⟩
        | bare => exact absurd hst ok.store
      obtain ⟨lk, _, hr⟩ := hi.rep
      exact g4 a (hb a (hr.leaf_foot (ok.laws.keep ok.store) ((find_eq_some (nbOf_lt H) hi.wf).1 h1) ha)) this
    obtain ⟨o, ho⟩ := hkv'.load ok.store
    have hp := g3 x (fun hag => hne (hco.2.2.1 x hxm hag))
    rw [h1] at hp
    rw [MapImpl.exec, MapImpl.Get, bind_assoc_M, bind_ok hp, h2]
    simp only [Option.map_some]
    rw [bind_assoc_M, bind_ok ho]
    rfl

end

/-- The concrete case: a `StringMap` with the single entry 1 → 10, and a panic in the callback of `Mod` of the key 17. -/
theorem C54_refuted_string (fuel : Nat) (hf : 256 ≤ fuel) (s : St ByteStr Nat) :
    ∃ hd s₁ p s₂, (StringMap (V := Nat) toyHash).session fuel 0#64 [.set [1] 10] s = .ok ((hd, [.unit]), s₁) ∧
      (StringMap (V := Nat) toyHash).ModCalls fuel hd [0x11] s₁ p false s₂ ∧
      (StringMap (V := Nat) toyHash).exec fuel hd (.get [1]) s₁ = .ok (.pair 10 true, s₁) ∧
      (StringMap (V := Nat) toyHash).exec fuel hd (.get [1]) s₂ = .error .nilDeref := by
  obtain ⟨hd, os, s₁, m, p, s₂, e1, e2, e3, e4, _, _, e5, _⟩ := C54_refuted (MapContainer.string (V := Nat) toyHash 0#64) trivial
    (ops := [.set [1] 10]) (by decide +kernel) (key := [0x11]) (k' := [1]) (d := 0) (by decide +kernel) (by decide)
    (by decide +kernel) hf s
  obtain ⟨o, os', m', rfl, h1, rfl, rfl⟩ := e2
  obtain ⟨rfl, h2⟩ := h1
  have hm : m.get [1] = some 10 := by
    rcases h2 with ⟨_, _, rfl⟩ | ⟨_, rfl⟩ <;> rfl
  rw [hm] at e4
  exact ⟨hd, s₁, p, s₂, e1, e3, e4, e5 rfl⟩

example := C54_intact_partial (MapContainer.string (V := Nat) toyHash 0#64) exOps_str (key := strKey 0x11)
  (Or.inl (by decide +kernel)) (Nat.le_refl 256) St.init
example := C54_intact_partial (MapContainer.arr (V := Nat) toyHash 0#64 fun b : UInt8 => [b]) exOps_arr (key := (0x05 : UInt8))
  (Or.inr ⟨trivial, by
    have h : ∀ k' ∈ keysAfter [] (exOps (K := UInt8) id), nibble (byteStream toyHash 0#64 fun b : UInt8 => [b]) 0x05 0 ≠
        nibble (byteStream toyHash 0#64 fun b : UInt8 => [b]) k' 0 := by decide +kernel
    exact fun k' d hc => h k' hc.1 (hc.2.1 0 (by omega))⟩) (Nat.le_refl 256) St.init
example := C54_refuted (MapContainer.int32 (V := Nat) toyHash 0#64) trivial exOps_int32 (key := intKey 0x12) (k' := intKey 0x02)
  (d := 0) (by decide +kernel) (by decide +kernel) (by decide +kernel) (Nat.le_refl 256) St.init
example := C54_refuted (MapContainer.generic (V := Nat) 0#64 onceKey (by simp [onceKey])) trivial
  (ops := [.set 0x02 1, .set 0x12 2]) (by decide +kernel) (key := 0x102) (k' := 0x02) (d := 1) (by decide +kernel) (by decide +kernel) (by decide +kernel) (Nat.le_refl 256) St.init

end Amt
