/-
C22, C26, C27 for the integer and generic containers, on every history on which C48-C53, C60 and C61 describe them.
-/
import Verif.PropsShape
import Verif.PropsLooseMore
import Verif.PropsPhantomMap
import Verif.Scratch
import Verif.BugsLoose
import Verif.PropsMisc

set_option linter.unusedVariables false
set_option linter.unusedSectionVars false

namespace Amt
open T Spec

/-! ### C27 -/

/-- `Tightly s r`: no path to a branch of the container with root `r` is longer than 255 nibbles; the array of the root has 16 slots, and that
of any other branch the least multiple of 4 that is not less than its number of items. -/
def Tightly {K V : Type} (s : St K V) (r : Nat) : Prop :=
  ∀ p lk, BranchAt s r p lk →
    p.length ≤ 255 ∧ (∀ i, 16 ≤ i → lk.pmap.getLsbD i = false) ∧ ∃ b xs, lk.ptr = .blk b ∧ s.mem b = some (.links xs) ∧
      xs.length = if p = [] then 16 else 4 * ((bitsBelow lk.pmap 16 + 3) / 4)

section
variable {K V : Type} [DecidableEq K] {c : Cfg K} {s : St K V} {h : Nat} {t : T K Ptr V} {F : Nat → Prop}

theorem rep_branch (hr : ∃ lk, Loc s h 0 [lk] lk F ∧ Rep c s.mem t 0 lk F) (hn : t.isNode = true) (hh : Ht 255 t 0)
    {p : List Nat} {lk : Link} (hb : BranchAt s h p lk) :
    ∃ st ch F', Rep c s.mem (.node st ch) p.length lk F' ∧ Ht 255 (.node st ch) p.length := by
  induction hb with
  | root hm =>
    obtain ⟨lk', hl, hr⟩ := hr
    have := hl.mem
    rw [hm] at this
    cases this
    cases t with
    | empty => cases hn
    | leaf => cases hn
    | node st ch => exact ⟨st, ch, F, hr, hh⟩
  | @child p lk x b r xs hb hp hm hr16 hpm htm hx ih =>
    obtain ⟨st, ch, F', ⟨b', xs', G, ha, ho, hrep⟩, hh⟩ := ih
    have hbe : b' = b := by have := ha.ptr; rw [hp] at this; cases this; rfl
    subst hbe
    have hxe : xs' = xs := by have := ha.mem; rw [hm] at this; cases this; rfl
    subst hxe
    have hocc : occ ch r = true := by have := ha.pm r; rw [hpm] at this; simpa [hr16] using this.symm
    have hlf : lf ch r = false := by rw [← ha.tm.getLsbD hr16 hocc]; exact htm
    rw [bitsBelow_eq ha.pm (by omega)] at hx
    have hx' := getD_of_getElem? hx
    have hrr := hrep r hr16
    rw [hx'] at hrr
    rw [List.length_append, List.length_singleton]
    have hcn : ∃ st' ch', ch r = .node st' ch' := by
      cases hcr : ch r with
      | empty => simp [occ, hcr, isEmpty] at hocc
      | leaf => simp [lf, hcr, isLeaf] at hlf
      | node st' ch' => exact ⟨_, _, rfl⟩
    obtain ⟨st', ch', hcr⟩ := hcn
    exact ⟨st', ch', G r, by rw [← hcr]; exact hrr, by rw [← hcr]; exact hh.2 r hr16⟩

theorem rep_tight (hr : ∃ lk, Loc s h 0 [lk] lk F ∧ Rep c s.mem t 0 lk F) (hn : t.isNode = true) (hh : Ht 255 t 0) : Tightly s h := by
  intro p lk hb
  obtain ⟨st, ch, F', ⟨b, xs, G, ha, ho, hrep⟩, hh⟩ := rep_branch hr hn hh hb
  refine ⟨hh.1, fun i hi => by rw [ha.pm i]; simp; omega, b, xs, ha.ptr, ha.mem, ?_⟩
  rw [ha.len, capOf, bitsBelow_eq ha.pm (by omega)]
  simp only [List.length_eq_zero_iff]

end

section
variable {K V : Type} [DecidableEq K] [Inhabited V]

/-- C27 for the generic map, on every history as in C48. -/
theorem C27_Map_twice (I : KeyImpl K) (heq : ∀ a b, I.equal a b = true ↔ a = b) (sd : Seed) {m : Nat} (hm : 0 < m)
    {ops : List (MOp K V)} (hS : TwiceApart (fun k n => I.hash k sd n) (Stores ops) m) {fuel : Nat} (hf : 256 ≤ fuel) (s : St K V) :
    ∃ r os s₁, (GenericMap I).session fuel sd ops s = .ok ((some r, os), s₁) ∧ Tightly s₁ r := by
  obtain ⟨s1, e1, i1⟩ := LInv.new (GenericMap (V := V) I).cfg sd (fun k n => I.hash k sd n) (show 0 < 16 * m by omega) (Stores ops) s
  obtain ⟨os, s2, t2, F2, e2, i2, _, st⟩ := generic_map_run heq hf (sep2_of_twiceApart hS) (by omega) (by omega) ops i1 (fun _ h => h)
  exact ⟨_, os, s2, by rw [MapImpl.session, MapImpl.New, bind_ok e1, bind_ok e2]; rfl, rep_tight i2.rep i2.node i2.ht⟩

/-- C27 for the generic set, on every history as in C49. -/
theorem C27_Set_twice (I : KeyImpl K) (heq : ∀ a b, I.equal a b = true ↔ a = b) (sd : Seed) {m : Nat} (hm : 0 < m)
    {ops : List (SOp K)} (hS : TwiceApart (fun k n => I.hash k sd n) (SStores ops) m) {fuel : Nat} (hf : 256 ≤ fuel) (s : St K Unit) :
    ∃ r os s₁, (GenericSet I).session fuel sd ops s = .ok ((some r, os), s₁) ∧ Tightly s₁ r := by
  obtain ⟨s1, e1, i1⟩ := LInv.new (GenericSet I).cfg sd (fun k n => I.hash k sd n) (show 0 < 16 * m by omega) (SStores ops) s
  obtain ⟨os, s2, t2, F2, e2, i2, _, st⟩ := generic_set_run heq hf (sep2_of_twiceApart hS) (by omega) (by omega) ops i1 (fun _ h => h)
  exact ⟨_, os, s2, by rw [SetImpl.session, SetImpl.New, bind_ok e1, bind_ok e2]; rfl, rep_tight i2.rep i2.node i2.ht⟩

end

section
variable {V : Type} [Inhabited V] {sum : Maphash} {sd : Seed} {S : IntKey → Prop} {h fuel : Nat}

/-- After calls that return, an `IntSet` is in a state that the invariant describes. -/
theorem int_set_reach (hS : SepLast (byteStream sum sd intbytes) S) (hph : ∀ x, Phantom x → S x) (hf : 256 ≤ fuel) (ops : List (SOp IntKey)) :
    ∀ {n : Nat} {s s' : St IntKey Unit} {t : T IntKey Ptr Unit} {F : Nat → Prop} {os : List (SOut IntKey)},
    PInv (IntSet sum).cfg sd S n s h t F → (∀ k, SStores ops k → S k) → (IntSet sum).run fuel (some h) ops s = .ok (os, s') →
    ∃ n' t' F', PInv (IntSet sum).cfg sd S n' s' h t' F' := by
  induction ops with
  | nil =>
    intro n s s' t F os hi _ e
    cases e
    exact ⟨n, t, F, hi⟩
  | cons op ops ih =>
    intro n s s' t F os hi hks e
    rw [SetImpl.run] at e
    obtain ⟨o, s1, e1, e⟩ := bind_ok_inv e
    obtain ⟨os', s2, e2, e⟩ := bind_ok_inv e
    cases e
    rcases int_set_step hi hS hph op (fun k hk => hks k ⟨op, by simp, hk⟩) with ⟨h1, h2⟩ | ⟨o', s1', n1, t1, F1, g1, i1, c1, st1⟩
    · rw [h2 fuel hf] at e1; cases e1
    · rw [g1 fuel hf] at e1
      cases e1
      exact ih i1 (fun k hk => hks k (by obtain ⟨op', h1, h2⟩ := hk; exact ⟨op', by simp [h1], h2⟩)) e2

/-- After calls that return, an `IntMap` is in a state that the invariant describes. -/
theorem int_map_reach (hS : SepLast (byteStream sum sd intbytes) S) (hph : ∀ x, Phantom x → S x) (hf : 256 ≤ fuel) (ops : List (MOp IntKey V)) :
    ∀ {n : Nat} {s s' : St IntKey V} {t : T IntKey Ptr V} {F : Nat → Prop} {os : List (MOut IntKey V)},
    KInv sum sd S n s h t F → (∀ k, Stores ops k → S k) → (IntMap (V := V) sum).run fuel (some h) ops s = .ok (os, s') →
    ∃ n' t' F', KInv sum sd S n' s' h t' F' := by
  induction ops with
  | nil =>
    intro n s s' t F os hi _ e
    cases e
    exact ⟨n, t, F, hi⟩
  | cons op ops ih =>
    intro n s s' t F os hi hks e
    rw [MapImpl.run] at e
    obtain ⟨o, s1, e1, e⟩ := bind_ok_inv e
    obtain ⟨os', s2, e2, e⟩ := bind_ok_inv e
    cases e
    rcases int_map_step hi hS hph op (fun k hk => hks k ⟨op, by simp, hk⟩) with ⟨h1, h2⟩ | ⟨h1, h2⟩ | ⟨o', s1', n1, t1, F1, g1, i1, st1⟩
    · rw [h2 fuel hf] at e1; cases e1
    · rw [h2 fuel hf] at e1; cases e1
    · rw [g1 fuel hf] at e1
      cases e1
      exact ih i1 (fun k hk => hks k (by obtain ⟨op', h1, h2⟩ := hk; exact ⟨op', by simp [h1], h2⟩)) e2

theorem int_set_session {ops : List (SOp IntKey)} (hS : LastApart (byteStream sum sd intbytes) (fun k => SStores ops k ∨ Phantom k))
    (hf : 256 ≤ fuel) {s s' : St IntKey Unit} {m : Handle} {os : List (SOut IntKey)} (e : (IntSet sum).session fuel sd ops s = .ok ((m, os), s')) :
    ∃ r n t F, m = some r ∧ PInv (IntSet sum).cfg sd (fun k => SStores ops k ∨ Phantom k) n s' r t F := by
  obtain ⟨s1, e1, i1⟩ := PInv.new (IntSet sum).cfg sd (fun k => SStores ops k ∨ Phantom k) s
  rw [SetImpl.session, SetImpl.New, bind_ok e1] at e
  obtain ⟨os', s2, e2, e⟩ := bind_ok_inv e
  cases e
  obtain ⟨n, t, F, hi⟩ := int_set_reach (sepLast_of hS) (fun _ h => Or.inr h) hf ops i1 (fun _ h => Or.inl h) e2
  exact ⟨_, n, t, F, rfl, hi⟩

theorem int_map_session {ops : List (MOp IntKey V)} (hS : LastApart (byteStream sum sd intbytes) (fun k => Stores ops k ∨ Phantom k))
    (hf : 256 ≤ fuel) {s s' : St IntKey V} {m : Handle} {os : List (MOut IntKey V)} (e : (IntMap sum).session fuel sd ops s = .ok ((m, os), s')) :
    ∃ r n t F, m = some r ∧ KInv sum sd (fun k => Stores ops k ∨ Phantom k) n s' r t F := by
  obtain ⟨s1, e1, i1⟩ := PInv.new (V := V) (intCfg .bare sum) sd (fun k => Stores ops k ∨ Phantom k) s
  rw [MapImpl.session, MapImpl.New, bind_ok e1] at e
  obtain ⟨os', s2, e2, e⟩ := bind_ok_inv e
  cases e
  obtain ⟨n, t, F, hi⟩ := int_map_reach (sepLast_of hS) (fun _ h => Or.inr h) hf ops
    ⟨i1, by intro e he; rw [leaves_node] at he; simp [leaves] at he⟩ (fun _ h => Or.inl h) e2
  exact ⟨_, n, t, F, rfl, hi⟩

/-- C27 for `IntSet`, on every history that returns, whatever the keys. -/
theorem C27_IntSet {ops : List (SOp IntKey)} (hS : LastApart (byteStream sum sd intbytes) (fun k => SStores ops k ∨ Phantom k))
    (hf : 256 ≤ fuel) {s s' : St IntKey Unit} {m : Handle} {os : List (SOut IntKey)} (e : (IntSet sum).session fuel sd ops s = .ok ((m, os), s')) :
    ∃ r, m = some r ∧ Tightly s' r := by
  obtain ⟨r, n, t, F, e1, hi⟩ := int_set_session hS hf e
  exact ⟨r, e1, rep_tight hi.rep hi.node hi.ht⟩

/-- C27 for `IntMap`, on every history that returns, whatever the keys. -/
theorem C27_IntMap {ops : List (MOp IntKey V)} (hS : LastApart (byteStream sum sd intbytes) (fun k => Stores ops k ∨ Phantom k))
    (hf : 256 ≤ fuel) {s s' : St IntKey V} {m : Handle} {os : List (MOut IntKey V)} (e : (IntMap sum).session fuel sd ops s = .ok ((m, os), s')) :
    ∃ r, m = some r ∧ Tightly s' r := by
  obtain ⟨r, n, t, F, e1, hi⟩ := int_map_session hS hf e
  exact ⟨r, e1, rep_tight hi.inv.rep hi.inv.node hi.inv.ht⟩

/-! ### C22 -/

end

end Amt

namespace Amt
open T Spec

/-! ### C26 -/

/-- Keys 0 and 1 have the same digests, which depend on the iteration. -/
def iterKey : KeyImpl Nat := ⟨fun a b => decide (a = b), fun k _ n => if k = 2 then 0x10#64 else if n = 0 then 0#64 else 0x555#64⟩

/-- C26 is false for `Map` in general: `Set` and `Mod` of a key with the same digests as a stored one return, because the stored one is
rehashed wrongly; it is lost. -/
theorem C26_Map_refuted :
    (∀ a b, iterKey.equal a b = true ↔ a = b) ∧ (∀ n, iterKey.hash 0 0#64 n = iterKey.hash 1 0#64 n) ∧
      ∀ op ∈ ([.set 1 7, .mod 1 fun _ _ => 7] : List (MOp Nat Nat)), ∀ fuel, 256 ≤ fuel → ∃ os m s',
        (GenericMap iterKey).session fuel 0#64 ([.set 0 5, .set 2 6, op] ++ [.get 0, .get 1, .get 2, .len]) St.init
          = .ok ((m, os ++ [.pair 0 false, .pair 7 true, .pair 6 true, .num 3#64]), s') := by
  refine ⟨fun a b => by simp [iterKey], fun n => rfl, fun op hop fuel hf => ?_⟩
  simp only [List.mem_cons, List.not_mem_nil, or_false] at hop
  rcases hop with rfl | rfl
  · obtain ⟨m, s', e⟩ := MapImpl.outs_of (V := Nat) (GenericMap_mono iterKey) (f := 256) (sd := 0#64)
      (ops := [.set 0 5, .set 2 6, .set 1 7] ++ [.get 0, .get 1, .get 2, .len]) (s := St.init)
      (os := [.unit, .unit, .unit] ++ [.pair 0 false, .pair 7 true, .pair 6 true, .num 3#64]) (by decide +kernel) hf
    exact ⟨_, m, s', e⟩
  · obtain ⟨m, s', e⟩ := MapImpl.outs_of (V := Nat) (GenericMap_mono iterKey) (f := 256) (sd := 0#64)
      (ops := [.set 0 5, .set 2 6, .mod 1 fun _ _ => 7] ++ [.get 0, .get 1, .get 2, .len]) (s := St.init)
      (os := [.unit, .unit, .calls [(0, false)]] ++ [.pair 0 false, .pair 7 true, .pair 6 true, .num 3#64]) (by decide +kernel) hf
    exact ⟨_, m, s', e⟩

/-- C26 is false for `Set` in general. -/
theorem C26_Set_refuted :
    (∀ a b, iterKey.equal a b = true ↔ a = b) ∧ (∀ n, iterKey.hash 0 0#64 n = iterKey.hash 1 0#64 n) ∧
      ∀ fuel, 256 ≤ fuel → ∃ os m s',
        (GenericSet iterKey).session fuel 0#64 ([.add 0, .add 2, .add 1] ++ [.has 0, .has 1, .has 2, .len]) St.init
          = .ok ((m, os ++ [.bool false, .bool true, .bool true, .num 3#64]), s') := by
  refine ⟨fun a b => by simp [iterKey], fun n => rfl, fun fuel hf => ?_⟩
  obtain ⟨m, s', e⟩ := SetImpl.outs_of (GenericSet_mono iterKey) (f := 256) (sd := 0#64)
    (ops := [.add 0, .add 2, .add 1] ++ [.has 0, .has 1, .has 2, .len]) (s := St.init)
    (os := [.unit, .unit, .unit] ++ [.bool false, .bool true, .bool true, .num 3#64]) (by decide +kernel) hf
  exact ⟨_, m, s', e⟩

/-! ### The hypotheses hold in non-trivial cases -/

/-- A history in which a key is lost. -/
example := C27_Map_twice (V := Nat) xorKey xorKey_eq 0#64 (m := 1) (by decide)
  (ops := [.set 0x321 1, .set 0x051 2, .set 0x421 3, .set 0x321 4, .del 0x421]) (stores_apart (by decide) _) (Nat.le_refl 256) St.init

example := C27_Set_twice xorKey xorKey_eq 0#64 (m := 1) (by decide)
  (ops := [.add 0x321, .add 0x051, .add 0x421, .has 0x321, .len])
  (xorKey_apart (fun a ⟨op, h1, h2⟩ => by
    simp only [List.mem_cons, List.not_mem_nil, or_false] at h1
    rcases h1 with rfl | rfl | rfl | rfl | rfl <;> simp [SOp.stores] at h2 <;> omega) _) (Nat.le_refl 256) St.init

/-- Two keys become a phantom, and a third one stays. -/
example : ∃ os m s', (IntMap (V := Nat) toyHash).session 256 0#64 [.set (-1#64) 7, .set 255#64 8, .set 1#64 9] St.init = .ok ((m, os), s') ∧
    ∃ r, m = some r ∧ Tightly s' r := by
  obtain ⟨m, s', e⟩ := MapImpl.outs_of (V := Nat) (IntMap_mono toyHash) (f := 256) (sd := 0#64)
    (ops := [.set (-1#64) 7, .set 255#64 8, .set 1#64 9]) (s := St.init) (os := [.unit, .unit, .unit]) (by decide +kernel) (Nat.le_refl 256)
  have hS : ∀ S, LastApart (byteStream toyHash 0#64 intbytes) S := fun S a b _ _ hab => by rw [toyHash_int, toyHash_int]; exact hab
  exact ⟨_, m, s', e, C27_IntMap (hS _) (Nat.le_refl _) e⟩

example : ∃ os m s', (IntSet toyHash).session 256 0#64 [.add (-1#64), .add 255#64, .add 1#64] St.init = .ok ((m, os), s') ∧
    ∃ r, m = some r ∧ Tightly s' r := by
  obtain ⟨m, s', e⟩ := SetImpl.outs_of (IntSet_mono toyHash) (f := 256) (sd := 0#64)
    (ops := [.add (-1#64), .add 255#64, .add 1#64]) (s := St.init) (os := [.unit, .unit, .unit]) (by decide +kernel) (Nat.le_refl 256)
  have hS : ∀ S, LastApart (byteStream toyHash 0#64 intbytes) S := fun S a b _ _ hab => by rw [toyHash_int, toyHash_int]; exact hab
  exact ⟨_, m, s', e, C27_IntSet (hS _) (Nat.le_refl _) e⟩

end Amt
