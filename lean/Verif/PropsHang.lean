/-
C24-C26, C39: memory safety, termination, and when an insertion never returns.

For the containers that hash bytes (`ByteMap`, `ByteSet` below; the integer ones on keys in `[0, 2^32)`) the
behaviour of every history of calls is determined: either every new key fits, and then all calls return; or
some new key does not fit, and the first such call hangs.  Nothing else happens, in particular no memory fault,
provided that keys with the same first 256 nibbles have all nibbles in common (`Settled`; without it see
`C24_deep_refuted` in `Verif/Bugs.lean`).
-/
import Verif.Diverge
import Verif.Api

set_option linter.unusedVariables false
set_option linter.unusedSectionVars false

namespace Spec

/-- Keys in `S` that agree on their first 256 nibbles agree on all of them. -/
def Settled {K : Type} (H : K → Nat → BitVec 64) (S : K → Prop) : Prop :=
  ∀ a b, S a → S b → Agree H a b 256 → ∀ j, nibble H a j = nibble H b j

end Spec

namespace Amt
open T Spec

/-- The four maps that hash bytes; `S` restricts the keys and `lossy` is as in `MapContainer`. -/
inductive ByteMap {V : Type} [Inhabited V] : {K : Type} → [DecidableEq K] → MapImpl K V → Seed →
    (K → Nat → BitVec 64) → (K → Prop) → (V → V) → Prop where
  | string (sum : Maphash) (sd : Seed) : ByteMap (StringMap sum) sd (byteStream sum sd id) (fun _ => True) id
  | bytes (sum : Maphash) (sd : Seed) : ByteMap (BytesMap sum) sd (byteStream sum sd id) (fun _ => True) id
  | arr (sum : Maphash) (sd : Seed) {K : Type} [DecidableEq K] (kb : K → List UInt8) :
      ByteMap (ArrMap sum kb) sd (byteStream sum sd kb) (fun _ => True) (fun _ => default)
  | int32 (sum : Maphash) (sd : Seed) :
      ByteMap (IntMap sum) sd (byteStream sum sd intbytes) (fun k => k.toNat < 2 ^ 32) id

/-- The four sets that hash bytes; `inv` is as in `SetContainer`. -/
inductive ByteSet : {K : Type} → [DecidableEq K] → SetImpl K → Seed →
    (K → Nat → BitVec 64) → (K → Prop) → Bool → Prop where
  | string (sum : Maphash) (sd : Seed) : ByteSet (StringSet sum) sd (byteStream sum sd id) (fun _ => True) false
  | bytes (sum : Maphash) (sd : Seed) : ByteSet (BytesSet sum) sd (byteStream sum sd id) (fun _ => True) true
  | arr (sum : Maphash) (sd : Seed) {K : Type} [DecidableEq K] (kb : K → List UInt8) :
      ByteSet (ArrSet sum kb) sd (byteStream sum sd kb) (fun _ => True) false
  | int32 (sum : Maphash) (sd : Seed) :
      ByteSet (IntSet sum) sd (byteStream sum sd intbytes) (fun k => k.toNat < 2 ^ 32) false

/-- A program that runs out of one budget runs out of every smaller one. -/
theorem Ext.hang {K V α : Type} {x y : M K V α} (h : Ext x y) {s : St K V} (hy : y s = .error .diverge) :
    x s = .error .diverge := by
  rcases h s with h' | h'
  · exact h'
  · rw [← h', hy]

/-- A program that returns, or runs out of budget, with one budget does one of the two with every other. -/
theorem Ext.safe {K V α : Type} {x y : M K V α} (h : Ext x y) {s : St K V} {r : α × St K V} (hy : y s = .ok r) :
    x s = .ok r ∨ x s = .error .diverge := by
  rcases h s with h' | h'
  · exact Or.inr h'
  · exact Or.inl (by rw [← h', hy])

/-! ### Maps -/

section
variable {K V : Type} [DecidableEq K] [Inhabited V] {I : MapImpl K V} {sd : Seed} {H : K → Nat → BitVec 64}
  {P : Bool → List K → K → Prop} {S : K → Prop} {lossy : V → V} {ex : Prop} {fuel : Nat}

/-- The map rehashes the displaced key by writing its bytes again. -/
def MapImpl.BytesHashed (I : MapImpl K V) (sd : Seed) (H : K → Nat → BitVec 64) : Prop :=
  ∃ sum kb, H = byteStream sum sd kb ∧ (∀ k v, (I.setI k v).chash = byteChash sum kb) ∧
    (∀ k f, (I.modI k f).chash = byteChash sum kb) ∧ ∀ k w d, I.cfg.digest sd k (w + 1) d = H k w

theorem ByteMap.hashed (hc : ByteMap I sd H S lossy) : I.BytesHashed sd H := by
  cases hc with
  | string sum sd => exact ⟨sum, id, rfl, fun _ _ => rfl, fun _ _ => rfl, fun _ _ _ => rfl⟩
  | bytes sum sd => exact ⟨sum, id, rfl, fun _ _ => rfl, fun _ _ => rfl, fun _ _ _ => rfl⟩
  | arr sum sd kb => exact ⟨sum, kb, rfl, fun _ _ => rfl, fun _ _ => rfl, fun _ _ _ => rfl⟩
  | int32 sum sd => exact ⟨sum, intbytes, rfl, fun _ _ => rfl, fun _ _ => rfl, fun _ _ _ => rfl⟩

theorem ByteMap.container (hc : ByteMap I sd H S lossy) :
    ∃ P, MapContainer I sd H P lossy True ∧ ∀ m ks k, P m ks k ↔ S k ∧ ByteFits H ks k := by
  cases hc with
  | string sum sd => exact ⟨_, .string sum sd, by simp⟩
  | bytes sum sd => exact ⟨_, .bytes sum sd, by simp⟩
  | arr sum sd kb => exact ⟨_, .arr sum sd kb, by simp⟩
  | int32 sum sd => exact ⟨_, .int32 sum sd, fun _ _ _ => Iff.rfl⟩

theorem EachNew.of_stores {ks : List K} {ops : List (MOp K V)} (h : EachNew (fun _ => ByteFits H) ks ops)
    (hS : ∀ k, Stores ops k → S k) (hP : ∀ m ks k, S k → ByteFits H ks k → P m ks k) : EachNew P ks ops := by
  induction ops generalizing ks with
  | nil => trivial
  | cons op ops ih =>
    exact ⟨fun k hk hn => hP _ _ _ (hS k ⟨op, by simp, hk⟩) (h.1 k hk hn),
      ih h.2 fun k ⟨o, ho, hk⟩ => hS k ⟨o, by simp [ho], hk⟩⟩

theorem mem_keysAfter {ks : List K} {ops : List (MOp K V)} {x : K} (h : x ∈ keysAfter ks ops) : x ∈ ks ∨ Stores ops x := by
  induction ops generalizing ks with
  | nil => exact Or.inl h
  | cons op ops ih =>
    rcases ih (ks := op.after ks) h with h1 | ⟨o, ho, hk⟩
    · have : x ∈ ks ∨ x ∈ op.stores := by
        cases op <;> simp only [MOp.after, MOp.stores, List.mem_filter] at h1 ⊢ <;>
          first | exact Or.inl h1 | exact Or.inl h1.1 | (split at h1 <;> simp_all) | skip
        all_goals rcases h1 with rfl | h1 <;> simp_all
      exact this.imp id fun h => ⟨op, by simp, h⟩
    · exact Or.inr ⟨o, by simp [ho], hk⟩

/-- One call that inserts a key that does not fit. -/
theorem exec_hang {okS okM : K → K → Nat → Prop} {s : St K V} {h : Nat} {t : T K Ptr V} {F : Nat → Prop} (hb : I.BytesHashed sd H)
    (ok : MapOk I sd H P True lossy okS okM) (hi : Inv I.cfg sd H True s h t F) (hf : 256 ≤ fuel) {op : MOp K V} {k : K}
    (hk : k ∈ op.stores) (hn : k ∉ (absT t).keys) (hbad : ¬ ByteFits H (absT t).keys k)
    (hset : ∀ k' ∈ (absT t).keys, Agree H k k' 256 → ∀ j, nibble H k j = nibble H k' j) :
    I.exec fuel (some h) op s = .error .diverge := by
  obtain ⟨sum, kb, hH, h1, h2, h3⟩ := hb
  cases op <;> simp only [MOp.stores, List.mem_singleton, List.not_mem_nil] at hk
  · subst hk
    rw [MapImpl.exec, MapImpl.Set, deref, pure_bind_M, bind_run,
      hi.upsert_unfit ok.laws trivial hH hf (h1 _ _) h3 hn hset hbad]
  · subst hk
    rw [MapImpl.exec, MapImpl.Mod, deref, pure_bind_M, bind_run,
      hi.upsert_unfit ok.laws trivial hH hf (h2 _ _) h3 hn hset hbad]

theorem run_hang {okS okM : K → K → Nat → Prop} {h : Nat} (hb : I.BytesHashed sd H)
    (ok : MapOk I sd H P True lossy okS okM) (hP : ∀ m ks k, S k → ByteFits H ks k → P m ks k)
    (hf : 256 ≤ fuel) (hset : Settled H S) {ops : List (MOp K V)} (hS : ∀ k, Stores ops k → S k)
    {s : St K V} {t : T K Ptr V} {F : Nat → Prop} {ks : List K} (hi : Inv I.cfg sd H True s h t F)
    (hks : ∀ x, x ∈ ks ↔ x ∈ (absT t).keys) (hkS : ∀ x ∈ ks, S x) (hn : ¬ EachNew (fun _ => ByteFits H) ks ops) :
    I.run fuel (some h) ops s = .error .diverge := by
  induction ops generalizing s t F ks with
  | nil => exact absurd trivial hn
  | cons op ops ih =>
    by_cases hop : ∀ k ∈ op.stores, k ∉ ks → ByteFits H ks k
    · have hop' : NewOk P (absT t).keys op := fun k hk hk' => by
        refine hP _ _ _ (hS k ⟨op, by simp, hk⟩) ?_
        exact ByteFits.congr hks (hop k hk fun hx => hk' ((hks k).1 hx))
      obtain ⟨o, s1, t1, F1, e1, i1, c1, ⟨m1, st1, p1⟩, k1⟩ := map_step ok hi hf op hop'
      have hks1 : ∀ x, x ∈ op.after ks ↔ x ∈ (absT t1).keys := by
        intro x
        rw [← (FMap.keys_perm p1).mem_iff, st1.after_keys, mem_after hks]
      rw [MapImpl.run, bind_ok e1, bind_run, ih (fun k ⟨o, ho, hk⟩ => hS k ⟨o, by simp [ho], hk⟩) i1 hks1 ?_
        fun h2 => hn ⟨hop, h2⟩]
      intro x hx
      rcases mem_keysAfter (ops := [op]) hx with h1 | ⟨o, ho, hk⟩
      · exact hkS x h1
      · rw [List.mem_singleton] at ho
        exact hS x ⟨o, by simp [ho], hk⟩
    · obtain ⟨k, hk1, hk2, hk3⟩ : ∃ k, k ∈ op.stores ∧ k ∉ ks ∧ ¬ ByteFits H ks k := by
        simpa only [Classical.not_forall, exists_prop] using hop
      rw [MapImpl.run, bind_run, exec_hang hb ok hi hf hk1 (fun hx => hk2 ((hks k).2 hx))
        (fun hx => hk3 (ByteFits.congr (fun x => (hks x).symm) hx))
        fun k' hk' hag => hset k k' (hS k ⟨op, by simp, hk1⟩) (hkS k' ((hks k').2 hk')) hag]

/-- Every history of calls on a byte-hashed map: if every new key fits, all calls return, and answer as
specified; otherwise the first one that does not fit never returns.  (The keys stored by the history are in
`S`, and settled.) -/
theorem C25_map_total (hc : ByteMap I sd H S lossy) {ops : List (MOp K V)} (hS : ∀ k, Stores ops k → S k)
    (hset : Settled H (Stores ops)) (s : St K V) :
    (EachNew (fun _ => ByteFits H) [] ops ∧ ∃ os s' m, RunBy (MStepX H True lossy) [] ops os m ∧
      ∀ fuel, 256 ≤ fuel → I.session fuel sd ops s = .ok ((some s.next, os), s')) ∨
    (¬ EachNew (fun _ => ByteFits H) [] ops ∧ ∀ fuel, I.session fuel sd ops s = .error .diverge) := by
  obtain ⟨P, h1, h2⟩ := hc.container
  by_cases hn : EachNew (fun _ => ByteFits H) [] ops
  · obtain ⟨os, s', t, F, m, e1, _, e3, _⟩ := h1.session (EachNew.of_stores hn hS fun m ks k a b => (h2 m ks k).2 ⟨a, b⟩)
      (Nat.le_refl 256) s
    exact Or.inl ⟨hn, os, s', m, e3, fun fuel hf => (MapImpl.session_ext h1.mono hf sd ops).ok e1⟩
  · refine Or.inr ⟨hn, fun fuel => (MapImpl.session_ext h1.mono (Nat.le_max_left fuel 256) sd ops).hang ?_⟩
    obtain ⟨okS, okM, h3⟩ := h1.ok
    obtain ⟨s1, e1, i1, _⟩ := Inv.new (K := K) (V := V) I.cfg sd H True s
    have hS' : ∀ k, Stores ops k → S k ∧ Stores ops k := fun k h => ⟨hS k h, h⟩
    rw [MapImpl.session, MapImpl.New, bind_ok e1, bind_run, run_hang (S := fun k => S k ∧ Stores ops k) (ks := [])
      hc.hashed h3 (fun m ks k a b => (h2 m ks k).2 ⟨a.1, b⟩) (Nat.le_max_right fuel 256)
      (fun a b ha hb => hset a b ha.2 hb.2) hS' i1 (by rw [absT_new]; simp [FMap.keys]) (by simp) hn]

/-- The history is covered, but the call after it never returns. -/
theorem MapContainer.hang (hc : MapContainer I sd H P lossy ex) {ops : List (MOp K V)} (h : EachNew P [] ops) {op : MOp K V}
    (hx : ∀ (fuel : Nat) (s' : St K V) (h' : Nat) (t : T K Ptr V) (F : Nat → Prop), 256 ≤ fuel → Inv I.cfg sd H ex s' h' t F →
      (∀ x, x ∈ keysAfter [] ops ↔ x ∈ (absT t).keys) → I.exec fuel (some h') op s' = .error .diverge)
    (rest : List (MOp K V)) (s : St K V) (fuel : Nat) : I.session fuel sd (ops ++ op :: rest) s = .error .diverge := by
  refine (MapImpl.session_ext hc.mono (Nat.le_max_left fuel 256) sd _).hang ?_
  obtain ⟨os, s', t, F, m, e1, i1, e3, e4⟩ := hc.session h (Nat.le_max_right fuel 256) s
  rw [MapImpl.session_append, bind_ok e1, bind_run, MapImpl.run, bind_run, hx _ _ _ _ _ (Nat.le_max_right fuel 256) i1
    fun x => by rw [← (FMap.keys_perm e4).mem_iff]; exact (e3.keysAfter x).symm]

/-- C24 for the covered histories of every map: there is no memory fault, whatever the loop budget. -/
theorem C24_map (hc : MapContainer I sd H P lossy ex) {ops : List (MOp K V)} (h : EachNew P [] ops) (s : St K V) (fuel : Nat) :
    (∃ r, I.session fuel sd ops s = .ok r) ∨ I.session fuel sd ops s = .error .diverge := by
  obtain ⟨os, s', t, F, m, e1, _⟩ := hc.session h (Nat.le_max_right fuel 256) s
  exact ((MapImpl.session_ext hc.mono (Nat.le_max_left fuel 256) sd _).safe e1).imp (fun h => ⟨_, h⟩) id

/-- C24 for every history of calls on the byte-hashed maps, covered or not. -/
theorem C24_map_any (hc : ByteMap I sd H S lossy) {ops : List (MOp K V)} (hS : ∀ k, Stores ops k → S k)
    (hset : Settled H (Stores ops)) (s : St K V) (fuel : Nat) :
    (∃ r, I.session fuel sd ops s = .ok r) ∨ I.session fuel sd ops s = .error .diverge := by
  obtain ⟨P, h1, _⟩ := hc.container
  rcases C25_map_total hc hS hset s with ⟨_, os, s', m, _, h⟩ | ⟨_, h⟩
  · exact ((MapImpl.session_ext h1.mono (Nat.le_max_left fuel 256) sd _).safe (h _ (Nat.le_max_right fuel 256))).imp
      (fun h => ⟨_, h⟩) id
  · exact Or.inr (h fuel)

/-- C25.  Every call of a covered history returns after at most 256 rounds of each loop it runs: a larger budget
makes no difference. -/
theorem C25_map (hc : MapContainer I sd H P lossy ex) {ops : List (MOp K V)} (h : EachNew P [] ops) (s : St K V) :
    ∃ r, ∀ fuel, 256 ≤ fuel → I.session fuel sd ops s = .ok r := by
  obtain ⟨os, s', t, F, m, e1, _⟩ := hc.session h (Nat.le_refl 256) s
  exact ⟨_, fun fuel hf => (MapImpl.session_ext hc.mono hf sd _).ok e1⟩

/-- A call to `Set` or `Mod` with a new key that has all nibbles in common with a stored one. -/
theorem exec_same {okS okM : K → K → Nat → Prop} {s : St K V} {h : Nat} {t : T K Ptr V} {F : Nat → Prop} (hb : I.BytesHashed sd H)
    (ok : MapOk I sd H P ex lossy okS okM) (hi : Inv I.cfg sd H ex s h t F) (hf : 256 ≤ fuel) {op : MOp K V} {a b : K}
    (ho : b ∈ op.stores) (ha : a ∈ (absT t).keys) (hne : a ≠ b) (hag : ∀ j, nibble H b j = nibble H a j) :
    I.exec fuel (some h) op s = .error .diverge := by
  obtain ⟨sum, kb, hH, h1, h2, h3⟩ := hb
  cases op <;> simp only [MOp.stores, List.mem_singleton, List.not_mem_nil] at ho
  · subst ho
    rw [MapImpl.exec, MapImpl.Set, deref, pure_bind_M, bind_run, hi.upsert_same ok.laws hH hf (h1 _ _) h3 ha hne hag]
  · subst ho
    rw [MapImpl.exec, MapImpl.Mod, deref, pure_bind_M, bind_run, hi.upsert_same ok.laws hH hf (h2 _ _) h3 ha hne hag]

/-- C26 for the byte-hashed maps.  After a covered history that stored `a`, neither `Set` nor `Mod` of a new key `b`
that agrees with `a` on all nibbles ever returns. -/
theorem C26_map (hc : ByteMap I sd H S lossy) {ops : List (MOp K V)} (hS : ∀ k, Stores ops k → S k)
    (h : EachNew (fun _ => ByteFits H) [] ops) {a b : K} (ha : a ∈ keysAfter [] ops) (hb : b ∉ keysAfter [] ops)
    (hag : ∀ j, nibble H a j = nibble H b j) {op : MOp K V} (ho : b ∈ op.stores) (rest : List (MOp K V)) (s : St K V)
    (fuel : Nat) : I.session fuel sd (ops ++ op :: rest) s = .error .diverge := by
  obtain ⟨P, h1, h2⟩ := hc.container
  obtain ⟨okS, okM, h3⟩ := h1.ok
  refine h1.hang (EachNew.of_stores h hS fun m ks k a b => (h2 m ks k).2 ⟨a, b⟩) (fun fuel s' h' t F hf hi hk => ?_) rest s fuel
  exact exec_same hc.hashed h3 hi hf ho ((hk a).1 ha) (fun e => hb (e ▸ ha)) (fun j => (hag j).symm)

/-- C26 for `IntMap` with arbitrary 64-bit keys. -/
theorem C26_IntMap (sum : Maphash) (sd : Seed) {ops : List (MOp IntKey V)}
    (h : EachNew (fun _ => IntSafe (byteStream sum sd intbytes)) [] ops) {a b : IntKey} (ha : a ∈ keysAfter [] ops)
    (hb : b ∉ keysAfter [] ops) (hag : ∀ j, nibble (byteStream sum sd intbytes) a j = nibble (byteStream sum sd intbytes) b j)
    {op : MOp IntKey V} (ho : b ∈ op.stores) (rest : List (MOp IntKey V)) (s : St IntKey V) (fuel : Nat) :
    (IntMap sum).session fuel sd (ops ++ op :: rest) s = .error .diverge :=
  (MapContainer.int sum sd).hang h (fun fuel s' h' t F hf hi hk =>
    exec_same (ByteMap.int32 sum sd).hashed (IntMap_ok sum sd) hi hf ho ((hk a).1 ha) (fun e => hb (e ▸ ha))
      (fun j => (hag j).symm)) rest s fuel

/-- C26 for the generic map, where agreement on the first 256 nibbles is enough (the digests repeat after that),
but the key that `b` collides with must be rehashed correctly. -/
theorem C26_Map (sd : Seed) (J : KeyImpl K) (heq : ∀ a b, J.equal a b = true ↔ a = b) {ops : List (MOp K V)}
    (h : EachNew (GenFits fun k n => J.hash k sd n) [] ops) {a b : K} (ha : a ∈ keysAfter [] ops) (hb : b ∉ keysAfter [] ops)
    (hag : Agree (fun k n => J.hash k sd n) a b 256) {op : MOp K V} (ho : b ∈ op.stores)
    (hre : ∀ k' d, CollidesAt (fun k n => J.hash k sd n) (keysAfter [] ops) b k' d →
      if op.isMod then GenModOk (fun k n => J.hash k sd n) b k' d else GenOk (fun k n => J.hash k sd n) b k' d)
    (rest : List (MOp K V)) (s : St K V) (fuel : Nat) :
    (GenericMap J).session fuel sd (ops ++ op :: rest) s = .error .diverge := by
  have ok := GenericMap_ok (V := V) sd J heq
  refine (MapContainer.generic sd J heq).hang h (fun fuel s' h' t F hf hi hk => ?_) rest s fuel
  have ha' := (hk a).1 ha
  have hne : a ≠ b := fun e => hb (e ▸ ha)
  have hag' : Agree (fun k n => J.hash k sd n) b a 256 := fun j hj => (hag j hj).symm
  have hd : ∀ (c : Cfg K), c = genericCfg J → ∀ k w d, d < 256 → c.digest sd k w d = J.hash k sd (d / 16) := by
    rintro _ rfl k w d _; rfl
  have hca : ∀ d, d = lev (nbOf fun k n => J.hash k sd n) b t 0 - 1 →
      CollidesAt (fun k n => J.hash k sd n) (keysAfter [] ops) b a d := by
    intro d hd
    obtain ⟨e, hs, rfl⟩ := hi.slot_of_agree ha' hag'
    have := slot_collidesAt hi.node hi.wf (hi.canon trivial) hs
    rw [← absT_keys, ← hd] at this
    exact this.congr fun x => (hk x).symm
  cases op <;> simp only [MOp.stores, List.mem_singleton, List.not_mem_nil] at ho
  · subst ho
    rw [MapImpl.exec, MapImpl.Set, deref, pure_bind_M, bind_run, hi.upsert_same_gen ok.laws hf rfl (hd _ rfl) ha' hne hag'
      fun d hd => ok.setC _ _ _ _ _ (by omega) (hre _ _ (hca d hd))]
  · subst ho
    rw [MapImpl.exec, MapImpl.Mod, deref, pure_bind_M, bind_run, hi.upsert_same_gen ok.laws hf rfl (hd _ rfl) ha' hne hag'
      fun d hd => ok.modC _ _ _ _ _ (by omega) (hre _ _ (hca d hd))]

/-- C39 for the byte-hashed maps.  After a covered history, neither `Set` nor `Mod` of a new key that collides with
a stored one at a depth of 240 or more ever returns. -/
theorem C39_map (hc : ByteMap I sd H S lossy) {ops : List (MOp K V)} (hS : ∀ k, Stores ops k → S k)
    (h : EachNew (fun _ => ByteFits H) [] ops) {a b : K} {d : Nat} (hb : b ∉ keysAfter [] ops)
    (hca : CollidesAt H (keysAfter [] ops) b a d) (hd : 240 ≤ d) {op : MOp K V} (ho : b ∈ op.stores)
    (rest : List (MOp K V)) (s : St K V) (fuel : Nat) :
    I.session fuel sd (ops ++ op :: rest) s = .error .diverge := by
  obtain ⟨P, h1, h2⟩ := hc.container
  obtain ⟨okS, okM, h3⟩ := h1.ok
  refine h1.hang (EachNew.of_stores h hS fun m ks k a b => (h2 m ks k).2 ⟨a, b⟩) (fun fuel s' h' t F hf hi hk => ?_) rest s fuel
  obtain ⟨sum, kb, hH, g1, g2, g3⟩ := hc.hashed
  have hb' : b ∉ (absT t).keys := fun hx => hb ((hk b).2 hx)
  have hca' := hca.congr hk
  cases op <;> simp only [MOp.stores, List.mem_singleton, List.not_mem_nil] at ho
  · subst ho
    rw [MapImpl.exec, MapImpl.Set, deref, pure_bind_M, bind_run, hi.upsert_deep h3.laws trivial hf (g1 _ _) hb' hca' hd]
  · subst ho
    rw [MapImpl.exec, MapImpl.Mod, deref, pure_bind_M, bind_run, hi.upsert_deep h3.laws trivial hf (g2 _ _) hb' hca' hd]

end

/-! Examples: keys of at least eight bytes are hashed by `toyHash` as their first eight bytes. -/

theorem toyHash_long (sd : Seed) (k : ByteStr) (hk : 8 ≤ k.length) (n : Nat) :
    byteStream toyHash sd id k n = toyHash sd k := by
  rw [byteStream, toyHash, toyHash, List.replicate_succ, List.flatten_cons, id, List.take_append_of_le_length hk]

/-- Two indistinguishable keys. -/
def twinA : ByteStr := [1, 1, 1, 1, 1, 1, 1, 1]
def twinB : ByteStr := [1, 1, 1, 1, 1, 1, 1, 1, 2]

theorem twins (sd : Seed) (j : Nat) : nibble (byteStream toyHash sd id) twinA j = nibble (byteStream toyHash sd id) twinB j := by
  rw [nibble, nibble, toyHash_long _ _ (by decide), toyHash_long _ _ (by decide)]; rfl

theorem twins_settled : Settled (byteStream toyHash 0#64 id)
    (Stores (V := Nat) [.set twinA 1, .set (strKey 1) 2, .set twinB 3]) := by
  have h : ∀ k, Stores (V := Nat) [.set twinA 1, .set (strKey 1) 2, .set twinB 3] k → k = twinA ∨ k = strKey 1 ∨ k = twinB := by
    rintro k ⟨op, h1, h2⟩
    simp only [List.mem_cons, List.not_mem_nil, or_false] at h1
    rcases h1 with rfl | rfl | rfl <;> simp [MOp.stores] at h2 <;> simp [h2]
  intro a b ha hb hag
  have hA : ¬ nibble (byteStream toyHash 0#64 id) twinA 2 = nibble (byteStream toyHash 0#64 id) (strKey 1) 2 := by decide +kernel
  have hB : ¬ nibble (byteStream toyHash 0#64 id) twinB 2 = nibble (byteStream toyHash 0#64 id) (strKey 1) 2 := by decide +kernel
  have h2 := hag 2 (by decide)
  rcases h a ha with rfl | rfl | rfl <;> rcases h b hb with rfl | rfl | rfl
  · exact fun _ => rfl
  · exact absurd h2 hA
  · exact twins 0#64
  · exact absurd h2.symm hA
  · exact fun _ => rfl
  · exact absurd h2.symm hB
  · exact fun j => (twins 0#64 j).symm
  · exact absurd h2 hB
  · exact fun _ => rfl

/-- A history that does not fit: the two indistinguishable keys, with another one in between. -/
example : ∀ fuel, (StringMap toyHash).session fuel 0#64 [.set twinA 1, .set (strKey 1) 2, .set twinB 3] (St.init (V := Nat)) =
    .error .diverge :=
  ((C25_map_total (ByteMap.string (V := Nat) toyHash 0#64) (fun _ _ => trivial) twins_settled St.init).resolve_left
    fun h => absurd h.1 (by decide +kernel)).2

example := C24_map_any (ByteMap.bytes (V := Nat) toyHash 0#64) (fun _ _ => trivial) twins_settled St.init

example := C24_map (MapContainer.int (V := Nat) toyHash 0#64) exOps_int St.init
example := C25_map (MapContainer.generic (V := Nat) 0#64 onceKey (by simp [onceKey])) exOps_gen St.init

example := C26_map (ByteMap.string (V := Nat) toyHash 0#64) (ops := [.set twinA 1, .set (strKey 1) 2]) (a := twinA) (b := twinB)
  (fun _ _ => trivial) (by decide +kernel) (by decide +kernel) (by decide +kernel) (twins 0#64)
  (op := .mod twinB fun v _ => v + 1) (by decide)

/-- A hash that ignores its input. -/
def zeroHash : Maphash := fun _ _ => 0#64

example := C26_IntMap (V := Nat) zeroHash 0#64 (ops := [.set (-1#64) 1]) (a := -1#64) (b := 7#64) (by decide +kernel)
  (by decide) (by decide) (fun _ => rfl) (op := .set 7#64 2) (by decide)

/-- A key type with indistinguishable keys: numbers that differ by a multiple of `2^64`. -/
example := C26_Map (V := Nat) 0#64 constKey (by simp [constKey]) (ops := [.set 1 1, .set 0x11 2]) (a := 0x11) (b := 0x11 + 2 ^ 64)
  (by decide +kernel) (by decide +kernel) (by decide +kernel) (by decide +kernel) (op := .mod (0x11 + 2 ^ 64) fun v _ => v)
  (by decide)
  (fun k' d h => by
    have : k' = 0x11 ∨ k' = 1 := by simpa [keysAfter, MOp.after] using h.1
    rcases this with rfl | rfl
    · rfl
    · exact absurd (h.2.2.1 0x11 (by decide) fun j _ => rfl) (by decide))

/-- A hash of one-byte keys that is zero until the sixteenth digest. -/
def lateHash : Maphash := fun _ bs => if bs.length < 16 then 0#64 else BitVec.ofNat 64 (bs.headD 0).toNat

/-- The stored keys first differ in nibble 240, which the third key shares with one of them. -/
example := C39_map (ByteMap.arr (V := Nat) lateHash 0#64 fun b : UInt8 => [b]) (ops := [.set 0x01 1, .set 0x02 2]) (a := 0x01)
  (b := 0x11) (d := 240) (fun _ _ => trivial) (by decide +kernel) (by decide +kernel) (by decide +kernel) (by decide)
  (op := .set 0x11 3) (by decide)

/-! ### Sets -/

section
variable {K : Type} [DecidableEq K] {I : SetImpl K} {sd : Seed} {H : K → Nat → BitVec 64}
  {P : List K → K → Prop} {S : K → Prop} {inv : Bool} {ex : Prop} {fuel : Nat}

/-- The set rehashes the displaced key by writing its bytes again. -/
def SetImpl.BytesHashed (I : SetImpl K) (sd : Seed) (H : K → Nat → BitVec 64) : Prop :=
  ∃ sum kb, H = byteStream sum sd kb ∧ (∀ k, (I.addI k).chash = byteChash sum kb) ∧
    ∀ k w d, I.cfg.digest sd k (w + 1) d = H k w

theorem ByteSet.hashed (hc : ByteSet I sd H S inv) : I.BytesHashed sd H := by
  cases hc with
  | string sum sd => exact ⟨sum, id, rfl, fun _ => rfl, fun _ _ _ => rfl⟩
  | bytes sum sd => exact ⟨sum, id, rfl, fun _ => rfl, fun _ _ _ => rfl⟩
  | arr sum sd kb => exact ⟨sum, kb, rfl, fun _ => rfl, fun _ _ _ => rfl⟩
  | int32 sum sd => exact ⟨sum, intbytes, rfl, fun _ => rfl, fun _ _ _ => rfl⟩

theorem ByteSet.container (hc : ByteSet I sd H S inv) :
    ∃ P, SetContainer I sd H P inv True ∧ ∀ ks k, P ks k ↔ S k ∧ ByteFits H ks k := by
  cases hc with
  | string sum sd => exact ⟨_, .string sum sd, by simp⟩
  | bytes sum sd => exact ⟨_, .bytes sum sd, by simp⟩
  | arr sum sd kb => exact ⟨_, .arr sum sd kb, by simp⟩
  | int32 sum sd => exact ⟨_, .int32 sum sd, fun _ _ => Iff.rfl⟩

theorem SEachNew.of_stores {ks : List K} {ops : List (SOp K)} (h : SEachNew H inv (ByteFits H) ks ops)
    (hS : ∀ k, SStores ops k → S k) (hP : ∀ ks k, S k → ByteFits H ks k → P ks k) : SEachNew H inv P ks ops := by
  induction ops generalizing ks with
  | nil => trivial
  | cons op ops ih =>
    exact ⟨fun k hk hn => hP _ _ (hS k ⟨op, by simp, hk⟩) (h.1 k hk hn),
      ih h.2 fun k ⟨o, ho, hk⟩ => hS k ⟨o, by simp [ho], hk⟩⟩

theorem mem_afterX_stores {ks : List K} {op : SOp K} {x : K} (h : x ∈ op.afterX H inv ks) : x ∈ ks ∨ x ∈ op.stores := by
  cases op with
  | add k =>
    simp only [SOp.afterX, SOp.after, SOp.stores, List.mem_singleton] at h ⊢
    split at h
    · exact Or.inl h
    · rw [List.mem_cons] at h; exact h.symm
  | del k =>
    left
    simp only [SOp.afterX] at h
    split at h
    · split at h
      · exact h
      · exact (List.mem_filter.1 h).1
    · exact (List.mem_filter.1 h).1
  | _ => exact Or.inl h

theorem exec_hang_set {okA : K → K → Nat → Prop} {s : St K Unit} {h : Nat} {t : T K Ptr Unit} {F : Nat → Prop}
    (hb : I.BytesHashed sd H) (ok : SetOk I sd H P True inv okA) (hi : Inv I.cfg sd H True s h t F) (hf : 256 ≤ fuel)
    {op : SOp K} {k : K} (hk : k ∈ op.stores) (hn : k ∉ absS t) (hbad : ¬ ByteFits H (absS t) k)
    (hset : ∀ k' ∈ absS t, Agree H k k' 256 → ∀ j, nibble H k j = nibble H k' j) :
    I.exec fuel (some h) op s = .error .diverge := by
  obtain ⟨sum, kb, hH, h1, h3⟩ := hb
  cases op <;> simp only [SOp.stores, List.mem_singleton, List.not_mem_nil] at hk
  subst hk
  rw [absS_eq] at hn hbad hset
  rw [SetImpl.exec, SetImpl.Add, deref, pure_bind_M, bind_run,
    hi.upsert_unfit ok.laws trivial hH hf (h1 _) h3 hn hset hbad]

theorem run_hang_set {okA : K → K → Nat → Prop} {h : Nat} (hb : I.BytesHashed sd H)
    (ok : SetOk I sd H P True inv okA) (hP : ∀ ks k, S k → ByteFits H ks k → P ks k)
    (hf : 256 ≤ fuel) (hset : Settled H S) {ops : List (SOp K)} (hS : ∀ k, SStores ops k → S k)
    {s : St K Unit} {t : T K Ptr Unit} {F : Nat → Prop} {ks : List K} (hi : Inv I.cfg sd H True s h t F)
    (hks : ∀ x, x ∈ ks ↔ x ∈ absS t) (hkS : ∀ x ∈ ks, S x) (hn : ¬ SEachNew H inv (ByteFits H) ks ops) :
    I.run fuel (some h) ops s = .error .diverge := by
  induction ops generalizing s t F ks with
  | nil => exact absurd trivial hn
  | cons op ops ih =>
    by_cases hop : ∀ k ∈ op.stores, k ∉ ks → ByteFits H ks k
    · obtain ⟨o, s1, t1, F1, e1, i1, c1, ⟨m1, st1, p1⟩⟩ := set_step ok hi hf op fun k hk hk' =>
        hP _ _ (hS k ⟨op, by simp, hk⟩) (ByteFits.congr hks (hop k hk fun hx => hk' ((hks k).1 hx)))
      have hks1 : ∀ x, x ∈ op.afterX H inv ks ↔ x ∈ absS t1 := by
        intro x
        rw [← p1.mem_iff, st1.mem_afterX, Spec.mem_afterX hks]
      rw [SetImpl.run, bind_ok e1, bind_run, ih (fun k ⟨o, ho, hk⟩ => hS k ⟨o, by simp [ho], hk⟩) i1 hks1 ?_
        fun h2 => hn ⟨hop, h2⟩]
      intro x hx
      rcases mem_afterX_stores hx with h1 | hk
      · exact hkS x h1
      · exact hS x ⟨op, by simp, hk⟩
    · obtain ⟨k, hk1, hk2, hk3⟩ : ∃ k, k ∈ op.stores ∧ k ∉ ks ∧ ¬ ByteFits H ks k := by
        simpa only [Classical.not_forall, exists_prop] using hop
      rw [SetImpl.run, bind_run, exec_hang_set hb ok hi hf hk1 (fun hx => hk2 ((hks k).2 hx))
        (fun hx => hk3 (ByteFits.congr (fun x => (hks x).symm) hx))
        fun k' hk' hag => hset k k' (hS k ⟨op, by simp, hk1⟩) (hkS k' ((hks k').2 hk')) hag]

/-- Every history of calls on a byte-hashed set: if every new key fits, all calls return, and answer as
specified; otherwise the first one that does not fit never returns. -/
theorem C25_set_total (hc : ByteSet I sd H S inv) {ops : List (SOp K)} (hS : ∀ k, SStores ops k → S k)
    (hset : Settled H (SStores ops)) (s : St K Unit) :
    (SEachNew H inv (ByteFits H) [] ops ∧ ∃ os s' m, SRunBy (SStepX H True inv) [] ops os m ∧
      ∀ fuel, 256 ≤ fuel → I.session fuel sd ops s = .ok ((some s.next, os), s')) ∨
    (¬ SEachNew H inv (ByteFits H) [] ops ∧ ∀ fuel, I.session fuel sd ops s = .error .diverge) := by
  obtain ⟨P, h1, h2⟩ := hc.container
  by_cases hn : SEachNew H inv (ByteFits H) [] ops
  · obtain ⟨os, s', t, F, m, e1, _, e3, _⟩ := h1.session (SEachNew.of_stores hn hS fun ks k a b => (h2 ks k).2 ⟨a, b⟩)
      (Nat.le_refl 256) s
    exact Or.inl ⟨hn, os, s', m, e3, fun fuel hf => (SetImpl.session_ext h1.mono hf sd ops).ok e1⟩
  · refine Or.inr ⟨hn, fun fuel => (SetImpl.session_ext h1.mono (Nat.le_max_left fuel 256) sd ops).hang ?_⟩
    obtain ⟨okA, h3⟩ := h1.ok
    obtain ⟨s1, e1, i1, _⟩ := Inv.new (K := K) (V := Unit) I.cfg sd H True s
    have hS' : ∀ k, SStores ops k → S k ∧ SStores ops k := fun k h => ⟨hS k h, h⟩
    rw [SetImpl.session, SetImpl.New, bind_ok e1, bind_run, run_hang_set (S := fun k => S k ∧ SStores ops k) (ks := [])
      hc.hashed h3 (fun ks k a b => (h2 ks k).2 ⟨a.1, b⟩) (Nat.le_max_right fuel 256)
      (fun a b ha hb => hset a b ha.2 hb.2) hS' i1 (by rw [absS_new]; simp) (by simp) hn]

/-- The history is covered, but the call after it never returns. -/
theorem SetContainer.hang (hc : SetContainer I sd H P inv ex) {ops : List (SOp K)} (h : SEachNew H inv P [] ops) {op : SOp K}
    (hx : ∀ (fuel : Nat) (s' : St K Unit) (h' : Nat) (t : T K Ptr Unit) (F : Nat → Prop), 256 ≤ fuel →
      Inv I.cfg sd H ex s' h' t F → (∀ x, x ∈ elemsAfterX H inv [] ops ↔ x ∈ (absT t).keys) →
      I.exec fuel (some h') op s' = .error .diverge)
    (rest : List (SOp K)) (s : St K Unit) (fuel : Nat) : I.session fuel sd (ops ++ op :: rest) s = .error .diverge := by
  refine (SetImpl.session_ext hc.mono (Nat.le_max_left fuel 256) sd _).hang ?_
  obtain ⟨os, s', t, F, m, e1, i1, e3, e4⟩ := hc.session h (Nat.le_max_right fuel 256) s
  rw [SetImpl.session_append, bind_ok e1, bind_run, SetImpl.run, bind_run, hx _ _ _ _ _ (Nat.le_max_right fuel 256) i1
    fun x => by rw [← absS_eq, ← e4.mem_iff]; exact (e3.elemsAfterX x).symm]

/-- C24 for the covered histories of every set: there is no memory fault, whatever the loop budget. -/
theorem C24_set (hc : SetContainer I sd H P inv ex) {ops : List (SOp K)} (h : SEachNew H inv P [] ops) (s : St K Unit)
    (fuel : Nat) : (∃ r, I.session fuel sd ops s = .ok r) ∨ I.session fuel sd ops s = .error .diverge := by
  obtain ⟨os, s', t, F, m, e1, _⟩ := hc.session h (Nat.le_max_right fuel 256) s
  exact ((SetImpl.session_ext hc.mono (Nat.le_max_left fuel 256) sd _).safe e1).imp (fun h => ⟨_, h⟩) id

/-- C24 for every history of calls on the byte-hashed sets, covered or not. -/
theorem C24_set_any (hc : ByteSet I sd H S inv) {ops : List (SOp K)} (hS : ∀ k, SStores ops k → S k)
    (hset : Settled H (SStores ops)) (s : St K Unit) (fuel : Nat) :
    (∃ r, I.session fuel sd ops s = .ok r) ∨ I.session fuel sd ops s = .error .diverge := by
  obtain ⟨P, h1, _⟩ := hc.container
  rcases C25_set_total hc hS hset s with ⟨_, os, s', m, _, h⟩ | ⟨_, h⟩
  · exact ((SetImpl.session_ext h1.mono (Nat.le_max_left fuel 256) sd _).safe (h _ (Nat.le_max_right fuel 256))).imp
      (fun h => ⟨_, h⟩) id
  · exact Or.inr (h fuel)

/-- C25.  Every call of a covered history returns after at most 256 rounds of each loop it runs. -/
theorem C25_set (hc : SetContainer I sd H P inv ex) {ops : List (SOp K)} (h : SEachNew H inv P [] ops) (s : St K Unit) :
    ∃ r, ∀ fuel, 256 ≤ fuel → I.session fuel sd ops s = .ok r := by
  obtain ⟨os, s', t, F, m, e1, _⟩ := hc.session h (Nat.le_refl 256) s
  exact ⟨_, fun fuel hf => (SetImpl.session_ext hc.mono hf sd _).ok e1⟩

/-- C26 for the byte-hashed sets.  After a covered history that stored `a`, `Add` of a new key `b` that agrees with
`a` on all nibbles never returns. -/
theorem C26_set (hc : ByteSet I sd H S inv) {ops : List (SOp K)} (hS : ∀ k, SStores ops k → S k)
    (h : SEachNew H inv (ByteFits H) [] ops) {a b : K} (ha : a ∈ elemsAfterX H inv [] ops)
    (hb : b ∉ elemsAfterX H inv [] ops) (hag : ∀ j, nibble H a j = nibble H b j) (rest : List (SOp K)) (s : St K Unit)
    (fuel : Nat) : I.session fuel sd (ops ++ .add b :: rest) s = .error .diverge := by
  obtain ⟨P, h1, h2⟩ := hc.container
  obtain ⟨okA, h3⟩ := h1.ok
  refine h1.hang (SEachNew.of_stores h hS fun ks k a b => (h2 ks k).2 ⟨a, b⟩) (fun fuel s' h' t F hf hi hk => ?_) rest s fuel
  obtain ⟨sum, kb, hH, g1, g3⟩ := hc.hashed
  have hne : a ≠ b := fun e => hb (e ▸ ha)
  rw [SetImpl.exec, SetImpl.Add, deref, pure_bind_M, bind_run, hi.upsert_same h3.laws hH hf (g1 _) g3 ((hk a).1 ha)
    hne (fun j => (hag j).symm)]

/-- C26 for `IntSet` with arbitrary 64-bit keys. -/
theorem C26_IntSet (sum : Maphash) (sd : Seed) {ops : List (SOp IntKey)}
    (h : SEachNew (byteStream sum sd intbytes) false (IntSafe (byteStream sum sd intbytes)) [] ops) {a b : IntKey}
    (ha : a ∈ elemsAfterX (byteStream sum sd intbytes) false [] ops) (hb : b ∉ elemsAfterX (byteStream sum sd intbytes) false [] ops)
    (hag : ∀ j, nibble (byteStream sum sd intbytes) a j = nibble (byteStream sum sd intbytes) b j)
    (rest : List (SOp IntKey)) (s : St IntKey Unit) (fuel : Nat) :
    (IntSet sum).session fuel sd (ops ++ .add b :: rest) s = .error .diverge :=
  (SetContainer.int sum sd).hang h (fun fuel s' h' t F hf hi hk => by
    have hne : a ≠ b := fun e => hb (e ▸ ha)
    rw [SetImpl.exec, SetImpl.Add, deref, pure_bind_M, bind_run, hi.upsert_same (IntSet_ok sum sd).laws rfl hf rfl
      (fun _ _ _ => rfl) ((hk a).1 ha) hne (fun j => (hag j).symm)]) rest s fuel

/-- C26 for the generic set, where agreement on the first 256 nibbles is enough, but the key that `b` collides with
must be rehashed correctly. -/
theorem C26_Set (sd : Seed) (J : KeyImpl K) (heq : ∀ a b, J.equal a b = true ↔ a = b) {ops : List (SOp K)}
    (h : SEachNew (fun k n => J.hash k sd n) false (GenFits (fun k n => J.hash k sd n) false) [] ops) {a b : K}
    (ha : a ∈ elemsAfterX (fun k n => J.hash k sd n) false [] ops) (hb : b ∉ elemsAfterX (fun k n => J.hash k sd n) false [] ops)
    (hag : Agree (fun k n => J.hash k sd n) a b 256)
    (hre : ∀ k' d, CollidesAt (fun k n => J.hash k sd n) (elemsAfterX (fun k n => J.hash k sd n) false [] ops) b k' d →
      GenOk (fun k n => J.hash k sd n) b k' d)
    (rest : List (SOp K)) (s : St K Unit) (fuel : Nat) :
    (GenericSet J).session fuel sd (ops ++ .add b :: rest) s = .error .diverge := by
  have ok := GenericSet_ok sd J heq
  refine (SetContainer.generic sd J heq).hang h (fun fuel s' h' t F hf hi hk => ?_) rest s fuel
  have ha' := (hk a).1 ha
  have hag' : Agree (fun k n => J.hash k sd n) b a 256 := fun j hj => (hag j hj).symm
  have hne : a ≠ b := fun e => hb (e ▸ ha)
  rw [SetImpl.exec, SetImpl.Add, deref, pure_bind_M, bind_run, hi.upsert_same_gen ok.laws hf rfl
    (fun _ _ _ _ => rfl) ha' hne hag' fun d hd => ok.addC _ _ _ _ (by omega) (hre _ _ ?_)]
  obtain ⟨e, hs, rfl⟩ := hi.slot_of_agree ha' hag'
  have := slot_collidesAt hi.node hi.wf (hi.canon trivial) hs
  rw [← absT_keys, ← hd] at this
  exact this.congr fun x => (hk x).symm

/-- C39 for the byte-hashed sets.  After a covered history, `Add` of a new key that collides with a stored one at a
depth of 240 or more never returns. -/
theorem C39_set (hc : ByteSet I sd H S inv) {ops : List (SOp K)} (hS : ∀ k, SStores ops k → S k)
    (h : SEachNew H inv (ByteFits H) [] ops) {a b : K} {d : Nat} (hb : b ∉ elemsAfterX H inv [] ops)
    (hca : CollidesAt H (elemsAfterX H inv [] ops) b a d) (hd : 240 ≤ d)
    (rest : List (SOp K)) (s : St K Unit) (fuel : Nat) :
    I.session fuel sd (ops ++ .add b :: rest) s = .error .diverge := by
  obtain ⟨P, h1, h2⟩ := hc.container
  obtain ⟨okA, h3⟩ := h1.ok
  refine h1.hang (SEachNew.of_stores h hS fun ks k a b => (h2 ks k).2 ⟨a, b⟩) (fun fuel s' h' t F hf hi hk => ?_) rest s fuel
  obtain ⟨sum, kb, hH, g1, g3⟩ := hc.hashed
  rw [SetImpl.exec, SetImpl.Add, deref, pure_bind_M, bind_run, hi.upsert_deep h3.laws trivial hf (g1 _)
    (fun hx => hb ((hk b).2 hx)) (hca.congr hk) hd]

/-- Without inverted deletions, the elements are computed as usual. -/
theorem elemsAfterX_false (ks : List K) (ops : List (SOp K)) : elemsAfterX H false ks ops = elemsAfter ks ops := by
  induction ops generalizing ks with
  | nil => rfl
  | cons op ops ih =>
    show elemsAfterX H false (op.afterX H false ks) ops = elemsAfter (op.after ks) ops
    have : op.afterX H false ks = op.after ks := by cases op <;> rfl
    rw [this, ih]

theorem seachNew_false {ks : List K} {ops : List (SOp K)} (h : SEachNew H false P ks ops) : SEachNew' P ks ops := by
  induction ops generalizing ks with
  | nil => trivial
  | cons op ops ih =>
    refine ⟨h.1, ih ?_⟩
    have : op.afterX H false ks = op.after ks := by cases op <;> rfl
    rw [← this]; exact h.2

end

theorem twins_settled_set : Settled (byteStream toyHash 0#64 id) (SStores [.add twinA, .del twinB, .add twinB]) := by
  have h : ∀ k, SStores [.add twinA, .del twinB, .add twinB] k → k = twinA ∨ k = twinB := by
    rintro k ⟨op, h1, h2⟩
    simp only [List.mem_cons, List.not_mem_nil, or_false] at h1
    rcases h1 with rfl | rfl | rfl <;> simp [SOp.stores] at h2 <;> simp [h2]
  intro a b ha hb hag
  rcases h a ha with rfl | rfl <;> rcases h b hb with rfl | rfl
  · exact fun _ => rfl
  · exact twins 0#64
  · exact fun j => (twins 0#64 j).symm
  · exact fun _ => rfl

/-- In a `StringSet` the second `Add` hangs. -/
example : ∀ fuel, (StringSet toyHash).session fuel 0#64 [.add twinA, .del twinB, .add twinB] St.init = .error .diverge :=
  ((C25_set_total (ByteSet.string toyHash 0#64) (fun _ _ => trivial) twins_settled_set St.init).resolve_left
    fun h => absurd (seachNew_false h.1) (by decide +kernel)).2

/-- In a `BytesSet` the inverted `Del` has removed the first key, and the second `Add` returns.  -/
example := C24_set_any (ByteSet.bytes toyHash 0#64) (fun _ _ => trivial) twins_settled_set St.init

example := C24_set (SetContainer.bytes toyHash 0#64) exOpsS_bytes St.init
example := C25_set (SetContainer.int toyHash 0#64) exOpsS_int St.init

example := C26_set (ByteSet.string toyHash 0#64) (ops := [.add twinA, .add (strKey 1)]) (a := twinA) (b := twinB)
  (fun _ _ => trivial) (SEachNew'.toX _ (by decide +kernel)) (by rw [elemsAfterX_false]; decide +kernel)
  (by rw [elemsAfterX_false]; decide +kernel) (twins 0#64)

example := C26_IntSet zeroHash 0#64 (ops := [.add (-1#64)]) (a := -1#64) (b := 7#64) (SEachNew'.toX _ (by decide +kernel))
  (by rw [elemsAfterX_false]; decide) (by rw [elemsAfterX_false]; decide) (fun _ => rfl)

example := C26_Set 0#64 constKey (by simp [constKey]) (ops := [.add 1, .add 0x11]) (a := 0x11) (b := 0x11 + 2 ^ 64)
  (SEachNew'.toX _ (by decide +kernel)) (by rw [elemsAfterX_false]; decide +kernel)
  (by rw [elemsAfterX_false]; decide +kernel) (by decide +kernel) (fun k' d h => rfl)

example := C39_set (ByteSet.arr lateHash 0#64 fun b : UInt8 => [b]) (ops := [.add 0x01, .add 0x02]) (a := 0x01)
  (b := 0x11) (d := 240) (fun _ _ => trivial) (SEachNew'.toX _ (by decide +kernel)) (by rw [elemsAfterX_false]; decide +kernel)
  (by rw [elemsAfterX_false]; decide +kernel) (by decide)

end Amt
