/- Each container meets the requirements of the simulation theorems (or not). -/
import Verif.Inv
import Verif.Containers
import Verif.SpecLemmas

set_option linter.unusedVariables false
set_option linter.unusedSectionVars false

namespace Amt
open T Spec

variable {K V : Type}

/-! ### Nibbles -/

theorem nbOf_eq_nibble (H : K → Nat → BitVec 64) (k : K) (j : Nat) : nbOf H k j = nibble H k j := by
  unfold nbOf radixOf hdAt nibble
  rw [BitVec.toNat_and, BitVec.toNat_ushiftRight, Nat.shiftRight_eq_div_pow]
  rw [show (2 : Nat) ^ (4 * (j % 16)) = 16 ^ (j % 16) by rw [Nat.pow_mul]]
  exact Nat.and_two_pow_sub_one_eq_mod _ 4

theorem Apart.sepK {H : K → Nat → BitVec 64} {t : T K Ptr V} {key : K} (h : ∀ e ∈ leaves t, Apart H key e.1) :
    SepK H key t := by
  intro e he hne
  obtain ⟨j, h1, h2⟩ := h e he
  exact ⟨j, h1, by rw [nbOf_eq_nibble, nbOf_eq_nibble]; exact h2⟩

/-- The condition on pairs of keys gives that on a key and a trie. -/
theorem SafePair.safeFor {H : K → Nat → BitVec 64} {up : K → BitVec 32} {t : T K Ptr V} {key : K}
    (h : ∀ e ∈ leaves t, SafePair H up key e.1) : SafeFor (nbOf H) up key t := by
  intro e he hne j hj hag
  have := h e he (Ne.symm hne) j hj (fun i hi => by
    rw [← nbOf_eq_nibble, ← nbOf_eq_nibble]; exact (hag i (by omega)).symm)
  rw [nbOf_eq_nibble]; exact this

/-! ### Cells -/

section Cells
variable {c : Cfg K}

theorem newKv_ok (c : Cfg K) (key : K) (v : V) (s : St K V) :
    ∃ p s', newKv c key v s = .ok (p, s') ∧ NewCell c s s' key p v := by
  unfold newKv
  cases hs : c.store with
  | boxed =>
    refine ⟨.blk s.next, _, rfl, ⟨?_, ?_, ?_, ?_, rfl⟩⟩
    · simp [KvAt, hs]
    · intro a ha; simp only; rw [if_neg (by omega)]
    · simp
    · intro a ha; cases ha; simp
  | inline =>
    refine ⟨.blk s.next, _, rfl, ⟨?_, ?_, ?_, ?_, rfl⟩⟩
    · simp [KvAt, hs]
    · intro a ha; simp only; rw [if_neg (by omega)]
    · simp
    · intro a ha; cases ha; simp
  | bare =>
    refine ⟨.nil, s, rfl, ⟨?_, fun _ _ => rfl, Nat.le_refl _, (fun a ha => nomatch ha), rfl⟩⟩
    simp [KvAt, hs]

theorem KvAt.load (hs : c.store ≠ .bare) {s : St K V} {k : K} {p : Ptr} {v : V} (h : KvAt c s.mem k p v) :
    ∃ o, loadKv p s = .ok ((o, v), s) := by
  unfold KvAt at h
  cases hc : c.store with
  | boxed => rw [hc] at h; obtain ⟨a, rfl, h2⟩ := h; exact ⟨_, loadKv_ok h2⟩
  | inline => rw [hc] at h; obtain ⟨a, rfl, h2⟩ := h; exact ⟨_, loadKv_ok h2⟩
  | bare => exact absurd hc hs

theorem KvAt.store (hs : c.store ≠ .bare) {s : St K V} {k : K} {p : Ptr} {v : V} (w : V)
    (h : KvAt c s.mem k p v) : ∃ s', storeVal p w s = .ok ((), s') ∧ CellSet c s s' k p w := by
  unfold KvAt at h
  cases hc : c.store with
  | boxed =>
    rw [hc] at h; obtain ⟨a, rfl, h2⟩ := h
    refine ⟨_, storeVal_ok h2, ⟨by simp [KvAt, hc], ?_, rfl, rfl, fun hb => by rw [hc] at hb; cases hb⟩⟩
    intro x hx; rw [put_mem, if_neg (fun e => hx (by rw [e]))]
  | inline =>
    rw [hc] at h; obtain ⟨a, rfl, h2⟩ := h
    refine ⟨_, storeVal_ok h2, ⟨by simp [KvAt, hc], ?_, rfl, rfl, fun hb => by rw [hc] at hb; cases hb⟩⟩
    intro x hx; rw [put_mem, if_neg (fun e => hx (by rw [e]))]
  | bare => exact absurd hc hs

theorem CellSet.refl {s : St K V} {k : K} {p : Ptr} {v : V} (h : KvAt c s.mem k p v) : CellSet c s s k p v :=
  ⟨h, fun _ _ => rfl, rfl, rfl, fun _ => rfl⟩

end Cells

/-! ### Hooks -/

/-- The rehash of a conflicting key agrees with the search loop. -/
def ChashOk (sd : Seed) (H : K → Nat → BitVec 64) (chash : Chash K) : Prop :=
  ∀ key ckey d fuel, d < 256 → 17 ≤ fuel → chash sd key ckey d fuel = .ok (hdAt H ckey d, d / 16 + 1)

section Hooks
variable {c : Cfg K} {sd : Seed} {H : K → Nat → BitVec 64} {chash : Chash K}

theorem setIns_ok (hs : c.store ≠ .bare) (hc : ChashOk sd H chash) {key : K} (g : Bool)
    (v : V) : InsOk c sd H (setIns c chash g key v) key (fun _ => v) v v (fun _ => ()) () where
  chash ckey d fuel := hc key ckey d fuel
  hit s p w h := KvAt.store hs v h
  newSlot s := by
    obtain ⟨p, s', e, h⟩ := newKv_ok c key v s
    exact ⟨p, s', by simp only [setIns]; rw [bind_ok e]; rfl, h⟩
  newSplit s := by
    obtain ⟨p, s', e, h⟩ := newKv_ok c key v s
    exact ⟨p, s', by simp only [setIns]; rw [bind_ok e]; rfl, h⟩

theorem setInsArr_ok [Inhabited V] (hs : c.store ≠ .bare) (hc : ChashOk sd H chash) {key : K}
    (v : V) : InsOk c sd H (setInsArr c chash key v) key (fun _ => v) v default (fun _ => ()) () where
  chash ckey d fuel := hc key ckey d fuel
  hit s p w h := KvAt.store hs v h
  newSlot s := by
    obtain ⟨p, s', e, h⟩ := newKv_ok c key v s
    exact ⟨p, s', by simp only [setInsArr]; rw [bind_ok e]; rfl, h⟩
  newSplit s := by
    obtain ⟨p, s', e, h⟩ := newKv_ok c key (default : V) s
    exact ⟨p, s', by simp only [setInsArr]; rw [bind_ok e]; rfl, h⟩

theorem modIns_ok [Inhabited V] (hs : c.store ≠ .bare) (hc : ChashOk sd H chash) {key : K}
    (g : Bool) (f : V → Bool → V) :
    InsOk c sd H (modIns c chash g key f) key (fun v => f v true) (f default false) (f default false)
      (fun v => [(v, true)]) [(default, false)] where
  chash ckey d fuel := hc key ckey d fuel
  hit s p w h := by
    obtain ⟨o, e1⟩ := h.load hs
    obtain ⟨s', e2, h2⟩ := KvAt.store hs (f w true) h
    exact ⟨s', by simp only [modIns]; rw [bind_ok e1, bind_ok e2]; rfl, h2⟩
  newSlot s := by
    obtain ⟨p, s', e, h⟩ := newKv_ok c key (f default false) s
    exact ⟨p, s', by simp only [modIns]; rw [bind_ok e]; rfl, h⟩
  newSplit s := by
    obtain ⟨p, s', e, h⟩ := newKv_ok c key (f default false) s
    exact ⟨p, s', by simp only [modIns]; rw [bind_ok e]; rfl, h⟩

theorem addIns_ok {c : Cfg K} (hc : ChashOk sd H chash) {key : K} :
    InsOk c sd H (addIns c chash key) key (fun _ => ()) () () (fun _ => ()) () where
  chash ckey d fuel := hc key ckey d fuel
  hit s p w h := ⟨s, rfl, CellSet.refl h⟩
  newSlot s := by
    obtain ⟨p, s', e, h⟩ := newKv_ok c key () s
    exact ⟨p, s', by simp only [addIns]; rw [bind_ok e]; rfl, h⟩
  newSplit s := by
    obtain ⟨p, s', e, h⟩ := newKv_ok c key () s
    exact ⟨p, s', by simp only [addIns]; rw [bind_ok e]; rfl, h⟩

end Hooks

/-! ### Rehashing -/

/-- The `uint8` loop terminates with `d/16 + 1` writes when `d < 240`. -/
theorem chwLoop_ok {d : Nat} (hd : d < 240) :
    ∀ (n fuel w : Nat), n + w = d / 16 + 1 → n < fuel → chwLoop d fuel (16 * w) w = .ok (d / 16 + 1) := by
  intro n
  induction n with
  | zero =>
    intro fuel w h1 h2
    obtain ⟨f, rfl⟩ : ∃ f, fuel = f + 1 := ⟨fuel - 1, by omega⟩
    rw [chwLoop, if_neg (by omega)]
    congr 1; omega
  | succ n ih =>
    intro fuel w h1 h2
    obtain ⟨f, rfl⟩ : ∃ f, fuel = f + 1 := ⟨fuel - 1, by omega⟩
    rw [chwLoop, if_pos (by omega), show (16 * w + 16) % 256 = 16 * (w + 1) by omega]
    exact ih f (w + 1) (by omega) (by omega)

theorem byteChash_ok (sum : Maphash) (kb : K → List UInt8) (sd : Seed) :
    ∀ key ckey d fuel, d < 240 → 17 ≤ fuel →
      byteChash sum kb sd key ckey d fuel = .ok (hdAt (byteStream sum sd kb) ckey d, d / 16 + 1) := by
  intro key ckey d fuel hd hf
  have h := chwLoop_ok hd (d / 16 + 1) fuel 0 rfl (by omega)
  unfold byteChash
  rw [Nat.mul_zero] at h
  rw [h]
  rfl

/-! ### Laws -/

theorem boxed_laws [DecidableEq K] (sum : Maphash) (kb : K → List UInt8) (sd : Seed) :
    Laws (boxedCfg sum kb) sd (byteStream sum sd kb) where
  eq_iff a b := by simp [boxedCfg]
  digest k d _ _ := rfl
  dec h := absurd rfl h
  keep _ := rfl

theorem int_dec (k : IntKey) :
    (k.setWidth 32).setWidth 64 ||| (((k.sshiftRight 32).setWidth 32).setWidth 64 <<< 32) = k := by
  apply BitVec.eq_of_getLsbD_eq
  intro i hi
  simp only [BitVec.getLsbD_or, BitVec.getLsbD_setWidth, BitVec.getLsbD_shiftLeft, BitVec.getLsbD_sshiftRight]
  by_cases h : i < 32
  · have h64 : i < 64 := by omega
    simp [h, h64]
  · have h1 : ¬ 64 ≤ i - 32 := by omega
    have h2 : i - 32 < 32 := by omega
    have h3 : i - 32 < 64 := by omega
    have h4 : 32 + (i - 32) < 64 := by omega
    have h5 : 32 + (i - 32) = i := by omega
    simp [h, hi, h1, h2, h3, h5]

theorem int_laws (st : Store) (sum : Maphash) (sd : Seed) :
    Laws (intCfg st sum) sd (byteStream sum sd intbytes) where
  eq_iff a b := by simp [intCfg]
  digest k d _ _ := rfl
  dec _ k := by simp only [intCfg]; rw [int_dec]
  keep _ := rfl

theorem intSet_laws (sum : Maphash) (sd : Seed) : Laws (intSetCfg sum) sd (byteStream sum sd intbytes) :=
  ⟨(int_laws .bare sum sd).eq_iff, (int_laws .bare sum sd).digest, (int_laws .bare sum sd).dec, fun h => absurd rfl h⟩

theorem generic_laws (I : KeyImpl K) (sd : Seed) (heq : ∀ a b, I.equal a b = true ↔ a = b) :
    Laws (genericCfg I) sd (fun k n => I.hash k sd n) where
  eq_iff := heq
  digest k d _ _ := rfl
  dec h := absurd rfl h
  keep _ := rfl

theorem int_encT (st : Store) (sum : Maphash) {k : IntKey} (h : k.toNat < 2 ^ 32) : (intCfg st sum).encT k = 0#32 := by
  apply BitVec.eq_of_getLsbD_eq
  intro i hi
  simp only [intCfg, BitVec.getLsbD_setWidth, BitVec.getLsbD_sshiftRight, BitVec.getLsbD_zero]
  have hz : ∀ j, 32 ≤ j → k.getLsbD j = false := by
    intro j hj
    rw [BitVec.getLsbD, Nat.testBit_lt_two_pow]
    exact Nat.lt_of_lt_of_le h (Nat.pow_le_pow_right (by decide) hj)
  have h1 : 32 + i < 64 := by omega
  rw [hz (32 + i) (by omega), if_pos h1]
  simp

/-! ### What a map or set implementation must satisfy -/

/-- The rehash of a conflicting key that agrees with the search loop. -/
def idealChash (H : K → Nat → BitVec 64) : Chash K := fun _ _ ckey d _ => .ok (hdAt H ckey d, d / 16 + 1)

/-- A map implementation that works as long as `P m ks k` holds whenever a new key `k` is inserted by `Set`
(`m = false`) or `Mod` (`m = true`) next to the stored keys `ks`, except that `Set` of a colliding new key stores
`lossy v`.  If `cl`, no stored key leaves wrong type bits behind. -/
structure MapOk [Inhabited V] (I : MapImpl K V) (sd : Seed) (H : K → Nat → BitVec 64) (P : Bool → List K → K → Prop)
    (cl : Prop) (lossy : V → V) (okS okM : K → K → Nat → Prop) : Prop where
  laws : Laws I.cfg sd H
  store : I.cfg.store ≠ .bare
  congr : ∀ m ks ks' k, (∀ x, x ∈ ks ↔ x ∈ ks') → P m ks k → P m ks' k
  apart : ∀ m ks k, P m ks k → ∀ k' ∈ ks, Apart H k k'
  safe : ∀ m ks k, P m ks k → (cl → ∀ k' ∈ ks, I.cfg.encT k' = 0#32) → ∀ k' ∈ ks, SafePair H I.cfg.encT k k'
  clean : cl → ∀ m ks k, P m ks k → I.cfg.encT k = 0#32
  coll : ∀ ks k, P false ks k → ∀ k' d, CollidesAt H ks k k' d → okS k k' d
  collM : ∀ ks k, P true ks k → ∀ k' d, CollidesAt H ks k k' d → okM k k' d
  exact : cl ∨ (∀ v, lossy v = v) ∧
    (∀ ks k, P false ks k → ∀ k' ∈ ks, ∀ d, Agree H k k' (d + 1) → okS k k' d) ∧
    ∀ ks k, P true ks k → ∀ k' ∈ ks, ∀ d, Agree H k k' (d + 1) → okM k k' d
  set : ∀ k v, InsOk I.cfg sd H { I.setI k v with chash := idealChash H } k (fun _ => v) v (lossy v) (fun _ => ()) ()
  setC : ∀ k v ckey d fuel, 17 ≤ fuel → okS k ckey d →
    (I.setI k v).chash sd k ckey d fuel = idealChash H sd k ckey d fuel
  mod : ∀ k f, InsOk I.cfg sd H { I.modI k f with chash := idealChash H } k (fun v => f v true) (f default false)
    (f default false) (fun v => [(v, true)]) [(default, false)]
  modC : ∀ k f ckey d fuel, 17 ≤ fuel → okM k ckey d →
    (I.modI k f).chash sd k ckey d fuel = idealChash H sd k ckey d fuel
  skip : ∀ b, I.delSkip b = !b

/-- A set implementation that works as long as `P ks k` holds whenever a new key `k` is inserted next to the
stored keys `ks`, except that the test in `Del` is inverted if `inv`. -/
structure SetOk (I : SetImpl K) (sd : Seed) (H : K → Nat → BitVec 64) (P : List K → K → Prop)
    (cl : Prop) (inv : Bool) (okA : K → K → Nat → Prop) : Prop where
  laws : Laws I.cfg sd H
  congr : ∀ ks ks' k, (∀ x, x ∈ ks ↔ x ∈ ks') → P ks k → P ks' k
  apart : ∀ ks k, P ks k → ∀ k' ∈ ks, Apart H k k'
  safe : ∀ ks k, P ks k → (cl → ∀ k' ∈ ks, I.cfg.encT k' = 0#32) → ∀ k' ∈ ks, SafePair H I.cfg.encT k k'
  clean : cl → ∀ ks k, P ks k → I.cfg.encT k = 0#32
  coll : ∀ ks k, P ks k → ∀ k' d, CollidesAt H ks k k' d → okA k k' d
  exact : cl ∨ inv = false ∧ ∀ ks k, P ks k → ∀ k' ∈ ks, ∀ d, Agree H k k' (d + 1) → okA k k' d
  add : ∀ k, InsOk I.cfg sd H { I.addI k with chash := idealChash H } k (fun _ => ()) () () (fun _ => ()) ()
  addC : ∀ k ckey d fuel, 17 ≤ fuel → okA k ckey d →
    (I.addI k).chash sd k ckey d fuel = idealChash H sd k ckey d fuel
  skip : ∀ b, I.delSkip b = if inv = true then b else !b

theorem idealChash_ok (sd : Seed) (H : K → Nat → BitVec 64) : ChashOk sd H (idealChash H) := fun _ _ _ _ _ _ => rfl

theorem SafePair.zero {H : K → Nat → BitVec 64} {up : K → BitVec 32} {a b : K} (h : up b = 0#32) : SafePair H up a b := by
  intro _ j _ _; rw [h]; simp

/-- The conversion `uint32(int64 >> 32)` of the code takes the upper half. -/
theorem int_upper (st : Store) (sum : Maphash) (k : IntKey) : (intCfg st sum).encT k = upper k := by
  apply BitVec.eq_of_getLsbD_eq
  intro i hi
  simp only [intCfg, upper, BitVec.getLsbD_setWidth, BitVec.getLsbD_sshiftRight, BitVec.getLsbD_extractLsb']
  have h1 : 32 + i < 64 := by omega
  have h2 : i < 64 := by omega
  have h3 : ¬ 64 ≤ i := by omega
  simp [h1, h3, hi]

section
variable [Inhabited V] (sum : Maphash) (sd : Seed)

theorem StringMap_ok : MapOk (V := V) (StringMap sum) sd (byteStream sum sd id) (fun _ => ByteFits (byteStream sum sd id)) True id (fun _ _ d => d < 240) (fun _ _ d => d < 240) where
  laws := boxed_laws sum id sd
  store := fun h => by cases h
  congr _ ks ks' k hk h := ByteFits.congr hk h
  apart _ ks k h := h.1
  safe _ ks k h hz k' hk' := SafePair.zero rfl
  clean _ _ _ _ _ := rfl
  coll ks k h := h.2
  collM ks k h := h.2
  exact := Or.inl trivial
  set k v := setIns_ok (by intro h; cases h) (idealChash_ok sd _) _ v
  setC k v ckey d fuel h1 h2 := byteChash_ok sum id sd k ckey d fuel h2 h1
  mod k f := modIns_ok (by intro h; cases h) (idealChash_ok sd _) _ f
  modC k f ckey d fuel h1 h2 := byteChash_ok sum id sd k ckey d fuel h2 h1
  skip _ := rfl

theorem BytesMap_ok : MapOk (V := V) (BytesMap sum) sd (byteStream sum sd id) (fun _ => ByteFits (byteStream sum sd id)) True id (fun _ _ d => d < 240) (fun _ _ d => d < 240) where
  laws := boxed_laws sum id sd
  store := fun h => by cases h
  congr _ ks ks' k hk h := ByteFits.congr hk h
  apart _ ks k h := h.1
  safe _ ks k h hz k' hk' := SafePair.zero rfl
  clean _ _ _ _ _ := rfl
  coll ks k h := h.2
  collM ks k h := h.2
  exact := Or.inl trivial
  set k v := setIns_ok (by intro h; cases h) (idealChash_ok sd _) _ v
  setC k v ckey d fuel h1 h2 := byteChash_ok sum id sd k ckey d fuel h2 h1
  mod k f := modIns_ok (by intro h; cases h) (idealChash_ok sd _) _ f
  modC k f ckey d fuel h1 h2 := byteChash_ok sum id sd k ckey d fuel h2 h1
  skip _ := rfl

theorem ArrMap_ok [DecidableEq K] (kb : K → List UInt8) :
    MapOk (V := V) (ArrMap sum kb) sd (byteStream sum sd kb) (fun _ => ByteFits (byteStream sum sd kb)) True (fun _ => default) (fun _ _ d => d < 240) (fun _ _ d => d < 240) where
  laws := boxed_laws sum kb sd
  store := fun h => by cases h
  congr _ ks ks' k hk h := ByteFits.congr hk h
  apart _ ks k h := h.1
  safe _ ks k h hz k' hk' := SafePair.zero rfl
  clean _ _ _ _ _ := rfl
  coll ks k h := h.2
  collM ks k h := h.2
  exact := Or.inl trivial
  set k v := setInsArr_ok (by intro h; cases h) (idealChash_ok sd _) v
  setC k v ckey d fuel h1 h2 := byteChash_ok sum kb sd k ckey d fuel h2 h1
  mod k f := modIns_ok (by intro h; cases h) (idealChash_ok sd _) _ f
  modC k f ckey d fuel h1 h2 := byteChash_ok sum kb sd k ckey d fuel h2 h1
  skip _ := rfl

/-- `IntMap` on keys that can be inserted one after the other. -/
theorem IntMap_ok : MapOk (V := V) (IntMap sum) sd (byteStream sum sd intbytes)
    (fun _ => IntSafe (byteStream sum sd intbytes)) False id (fun _ _ d => d < 240) (fun _ _ d => d < 240) where
  laws := int_laws .inline sum sd
  store := fun h => by cases h
  congr _ ks ks' k hk h k' hk' := h k' ((hk k').2 hk')
  apart _ ks k h k' hk' := (h k' hk').1.apart
  safe _ ks k h _ k' hk' := by
    have : (IntMap (V := V) sum).cfg.encT = upper := funext (fun k => int_upper .inline sum k)
    rw [this]; exact (h k' hk').2
  clean h := h.elim
  coll ks k h k' d hc := (h k' hc.1).1.lt hc.2.1
  collM ks k h k' d hc := (h k' hc.1).1.lt hc.2.1
  exact := Or.inr ⟨fun _ => rfl, fun _ _ h k' hk' _ hd => (h k' hk').1.lt hd, fun _ _ h k' hk' _ hd => (h k' hk').1.lt hd⟩
  set k v := setIns_ok (by intro h; cases h) (idealChash_ok sd _) _ v
  setC k v ckey d fuel h1 h2 := byteChash_ok sum intbytes sd k ckey d fuel h2 h1
  mod k f := modIns_ok (by intro h; cases h) (idealChash_ok sd _) _ f
  modC k f ckey d fuel h1 h2 := byteChash_ok sum intbytes sd k ckey d fuel h2 h1
  skip _ := rfl

/-- `IntMap` on keys in `[0, 2^32)`. -/
theorem IntMap_ok32 : MapOk (V := V) (IntMap sum) sd (byteStream sum sd intbytes)
    (fun _ => IntSmall (byteStream sum sd intbytes)) True id (fun _ _ d => d < 240) (fun _ _ d => d < 240) where
  laws := int_laws .inline sum sd
  store := fun h => by cases h
  congr _ ks ks' k hk h := ⟨h.1, ByteFits.congr hk h.2⟩
  apart _ ks k h := h.2.1
  safe _ ks k h hz k' hk' := SafePair.zero (hz trivial k' hk')
  clean _ _ ks k h := int_encT _ _ h.1
  coll ks k h := h.2.2
  collM ks k h := h.2.2
  exact := Or.inl trivial
  set k v := setIns_ok (by intro h; cases h) (idealChash_ok sd _) _ v
  setC k v ckey d fuel h1 h2 := byteChash_ok sum intbytes sd k ckey d fuel h2 h1
  mod k f := modIns_ok (by intro h; cases h) (idealChash_ok sd _) _ f
  modC k f ckey d fuel h1 h2 := byteChash_ok sum intbytes sd k ckey d fuel h2 h1
  skip _ := rfl

theorem GenericMap_ok (I : KeyImpl K) (heq : ∀ a b, I.equal a b = true ↔ a = b) :
    MapOk (V := V) (GenericMap I) sd (fun k n => I.hash k sd n) (GenFits fun k n => I.hash k sd n) True id
      (GenOk fun k n => I.hash k sd n) (GenModOk fun k n => I.hash k sd n) where
  laws := generic_laws I sd heq
  store := fun h => by cases h
  congr _ ks ks' k hk h := ⟨fun k' hk' => h.1 k' ((hk k').2 hk'), fun k' d hc => h.2 k' d (CollidesAt.congr (fun x => (hk x).symm) hc)⟩
  apart _ ks k h := h.1
  safe _ ks k h hz k' hk' := SafePair.zero rfl
  clean _ _ _ _ _ := rfl
  coll ks k h := h.2
  collM ks k h := h.2
  exact := Or.inl trivial
  set k v := setIns_ok (by intro h; cases h) (idealChash_ok sd _) _ v
  setC k v ckey d fuel h2 h := by
    have h' : I.hash ckey sd (d % 16) >>> (4 * (d % 16)) = I.hash ckey sd (d / 16) >>> (4 * (d % 16)) := h
    show genericChashSet I sd k ckey d fuel = _
    unfold genericChashSet
    rw [h']; rfl
  mod k f := modIns_ok (by intro h; cases h) (idealChash_ok sd _) _ f
  modC k f ckey d fuel h2 h := by
    have h' : I.hash k sd (d % 16) >>> (4 * (d % 16)) = I.hash ckey sd (d / 16) >>> (4 * (d % 16)) := h
    show genericChashMod I sd k ckey d fuel = _
    unfold genericChashMod
    rw [h']; rfl
  skip _ := rfl

theorem StringSet_ok : SetOk (StringSet sum) sd (byteStream sum sd id) (ByteFits (byteStream sum sd id)) True false (fun _ _ d => d < 240) where
  laws := boxed_laws sum id sd
  congr ks ks' k hk h := ByteFits.congr hk h
  apart ks k h := h.1
  safe ks k h hz k' hk' := SafePair.zero rfl
  clean _ _ _ _ := rfl
  coll ks k h := h.2
  exact := Or.inl trivial
  add k := addIns_ok (idealChash_ok sd _)
  addC k ckey d fuel h1 h2 := byteChash_ok sum id sd k ckey d fuel h2 h1
  skip _ := rfl

theorem BytesSet_ok : SetOk (BytesSet sum) sd (byteStream sum sd id) (ByteFits (byteStream sum sd id)) True true (fun _ _ d => d < 240) where
  laws := boxed_laws sum id sd
  congr ks ks' k hk h := ByteFits.congr hk h
  apart ks k h := h.1
  safe ks k h hz k' hk' := SafePair.zero rfl
  clean _ _ _ _ := rfl
  coll ks k h := h.2
  exact := Or.inl trivial
  add k := addIns_ok (idealChash_ok sd _)
  addC k ckey d fuel h1 h2 := byteChash_ok sum id sd k ckey d fuel h2 h1
  skip _ := rfl

theorem ArrSet_ok [DecidableEq K] (kb : K → List UInt8) :
    SetOk (ArrSet sum kb) sd (byteStream sum sd kb) (ByteFits (byteStream sum sd kb)) True false (fun _ _ d => d < 240) where
  laws := boxed_laws sum kb sd
  congr ks ks' k hk h := ByteFits.congr hk h
  apart ks k h := h.1
  safe ks k h hz k' hk' := SafePair.zero rfl
  clean _ _ _ _ := rfl
  coll ks k h := h.2
  exact := Or.inl trivial
  add k := addIns_ok (idealChash_ok sd _)
  addC k ckey d fuel h1 h2 := byteChash_ok sum kb sd k ckey d fuel h2 h1
  skip _ := rfl

theorem IntSet_ok : SetOk (IntSet sum) sd (byteStream sum sd intbytes)
    (IntSafe (byteStream sum sd intbytes)) False false (fun _ _ d => d < 240) where
  laws := intSet_laws sum sd
  congr ks ks' k hk h k' hk' := h k' ((hk k').2 hk')
  apart ks k h k' hk' := (h k' hk').1.apart
  safe ks k h _ k' hk' := by
    have : (IntSet sum).cfg.encT = upper := funext (fun k => int_upper .bare sum k)
    rw [this]; exact (h k' hk').2
  clean h := h.elim
  coll ks k h k' d hc := (h k' hc.1).1.lt hc.2.1
  exact := Or.inr ⟨rfl, fun _ _ h k' hk' _ hd => (h k' hk').1.lt hd⟩
  add k := addIns_ok (idealChash_ok sd _)
  addC k ckey d fuel h1 h2 := byteChash_ok sum intbytes sd k ckey d fuel h2 h1
  skip _ := rfl

theorem IntSet_ok32 : SetOk (IntSet sum) sd (byteStream sum sd intbytes) (IntSmall (byteStream sum sd intbytes)) True false (fun _ _ d => d < 240) where
  laws := intSet_laws sum sd
  congr ks ks' k hk h := ⟨h.1, ByteFits.congr hk h.2⟩
  apart ks k h := h.2.1
  safe ks k h hz k' hk' := SafePair.zero (hz trivial k' hk')
  clean _ ks k h := int_encT .bare sum h.1
  coll ks k h := h.2.2
  exact := Or.inl trivial
  add k := addIns_ok (idealChash_ok sd _)
  addC k ckey d fuel h1 h2 := byteChash_ok sum intbytes sd k ckey d fuel h2 h1
  skip _ := rfl

theorem GenericSet_ok (I : KeyImpl K) (heq : ∀ a b, I.equal a b = true ↔ a = b) :
    SetOk (GenericSet I) sd (fun k n => I.hash k sd n) (GenFits (fun k n => I.hash k sd n) false) True false (GenOk fun k n => I.hash k sd n) where
  laws := generic_laws I sd heq
  congr ks ks' k hk h := ⟨fun k' hk' => h.1 k' ((hk k').2 hk'), fun k' d hc => h.2 k' d (CollidesAt.congr (fun x => (hk x).symm) hc)⟩
  apart ks k h := h.1
  safe ks k h hz k' hk' := SafePair.zero rfl
  clean _ _ _ _ := rfl
  coll ks k h := h.2
  exact := Or.inl trivial
  add k := addIns_ok (idealChash_ok sd _)
  addC k ckey d fuel h2 h := by
    have h' : I.hash ckey sd (d % 16) >>> (4 * (d % 16)) = I.hash ckey sd (d / 16) >>> (4 * (d % 16)) := h
    show genericChashSet I sd k ckey d fuel = _
    unfold genericChashSet
    rw [h']; rfl
  skip _ := rfl

end

/-! ### The callbacks of `All` -/

theorem visitMap_ok {c : Cfg K} {sd : Seed} {H : K → Nat → BitVec 64} (L : Laws c sd H) (hs : c.store ≠ .bare) {U : Type}
    (f : U → K → V → U × V × Bool) : VisitOk c (visitMap c f) f := by
  intro s u k p v h
  obtain ⟨o, e1⟩ := h.load hs
  obtain ⟨s', e2, h2⟩ := KvAt.store hs (f u k v).2.1 h
  refine ⟨s', ?_, h2⟩
  rw [visitMap, bind_ok (readKey_ok L (m := s.mem) h)]
  simp only [show (mkLink c k p).ptr = p from rfl]
  rw [bind_ok e1, bind_ok e2]
  rfl

theorem visitSet_ok {c : Cfg K} {sd : Seed} {H : K → Nat → BitVec 64} (L : Laws c sd H) {U : Type}
    (f : U → K → U × Bool) :
    VisitOk c (visitSet (V := V) c f) (fun u k v => ((f u k).1, v, (f u k).2)) := by
  intro s u k p v h
  refine ⟨s, ?_, CellSet.refl h⟩
  rw [visitSet, bind_ok (readKey_ok L (m := s.mem) h)]
  rfl

end Amt
