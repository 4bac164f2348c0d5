/-
Further properties that fail for the generic containers (findings 4 and 5), for integer keys of more than 32 bits
(finding 3) and for `ArrMap` (finding 1): concrete runs, computed by the kernel.
-/
import Verif.BugsMore
import Verif.BugsLoose
import Verif.PropsShape
import Verif.PropsCallback

set_option linter.unusedVariables false
set_option linter.unusedSectionVars false

namespace Amt
open Spec

/-- A key type with two digests, one the complement of the other. -/
def flipKey : KeyImpl Nat where
  equal a b := decide (a = b)
  hash k _ i := if i = 0 then BitVec.ofNat 64 k else ~~~ BitVec.ofNat 64 k

theorem flipKey_eq : ∀ a b, flipKey.equal a b = true ↔ a = b := by simp [flipKey]

theorem flipKey_apart {S : Nat → Prop} (h : ∀ a, S a → a < 2 ^ 64) (sd : Seed) : TwiceApart (fun k n => flipKey.hash k sd n) S 1 := by
  intro a b ha hb hab
  have h0 : BitVec.ofNat 64 a ≠ BitVec.ofNat 64 b := by
    intro he
    have h3 := congrArg BitVec.toNat he
    rw [BitVec.toNat_ofNat, BitVec.toNat_ofNat, Nat.mod_eq_of_lt (h a ha), Nat.mod_eq_of_lt (h b hb)] at h3
    exact hab h3
  exact ⟨⟨0, by omega, h0⟩, 1, by omega, by omega, fun he => h0 (BitVec.not_inj.1 he)⟩

theorem flip_stores {ops : List (MOp Nat Nat)} (h : ∀ op ∈ ops, ∀ k ∈ op.stores, k < 2 ^ 64) (sd : Seed) :
    TwiceApart (fun k n => flipKey.hash k sd n) (Stores ops) 1 :=
  flipKey_apart (fun a ⟨op, h1, h2⟩ => h op h1 a h2) sd

theorem flip_sstores {ops : List (SOp Nat)} (h : ∀ op ∈ ops, ∀ k ∈ op.stores, k < 2 ^ 64) (sd : Seed) :
    TwiceApart (fun k n => flipKey.hash k sd n) (SStores ops) 1 :=
  flipKey_apart (fun a ⟨op, h1, h2⟩ => h op h1 a h2) sd

/-! ### Order and depth -/

/-- C18 is false for `Map`: the order of `All` depends on the order in which the keys were set. -/
theorem C18_Map_refuted : ∃ (J : KeyImpl Nat) (sd : Seed) (ops₁ ops₂ : List (MOp Nat Nat)),
    (∀ a b, J.equal a b = true ↔ a = b) ∧ TwiceApart (fun k n => J.hash k sd n) (Stores ops₁) 1 ∧ ops₂.Perm ops₁ ∧
    (∀ k f, .mod k f ∉ ops₁) ∧
    ∀ fuel, 256 ≤ fuel → (GenericMap J).After fuel sd St.init ops₁ [.all readAll] [.log [(0x321, 1), (0x421, 3), (0x051, 2)]] ∧
      (GenericMap J).After fuel sd St.init ops₂ [.all readAll] [.log [(0x421, 3), (0x321, 1), (0x051, 2)]] :=
  ⟨flipKey, 0#64, [.set 0x321 1, .set 0x421 3, .set 0x051 2], [.set 0x321 1, .set 0x051 2, .set 0x421 3], flipKey_eq,
    flip_stores (by decide) _, (List.Perm.swap _ _ []).cons _, by simp, fun fuel hf =>
    ⟨MapImpl.after_of (GenericMap_mono flipKey) (f := 256) (by decide +kernel) hf,
      MapImpl.after_of (GenericMap_mono flipKey) (f := 256) (by decide +kernel) hf⟩⟩

/-- The same for `Set`. -/
theorem C18_Set_refuted : ∃ (J : KeyImpl Nat) (sd : Seed) (ops₁ ops₂ : List (SOp Nat)),
    (∀ a b, J.equal a b = true ↔ a = b) ∧ TwiceApart (fun k n => J.hash k sd n) (SStores ops₁) 1 ∧ ops₂.Perm ops₁ ∧
    ∀ fuel, 256 ≤ fuel → (GenericSet J).After fuel sd St.init ops₁ [.all fun _ _ => true] [.log [0x321, 0x421, 0x051]] ∧
      (GenericSet J).After fuel sd St.init ops₂ [.all fun _ _ => true] [.log [0x421, 0x321, 0x051]] :=
  ⟨flipKey, 0#64, [.add 0x321, .add 0x421, .add 0x051], [.add 0x321, .add 0x051, .add 0x421], flipKey_eq,
    flip_sstores (by decide) _, (List.Perm.swap _ _ []).cons _, fun fuel hf =>
    ⟨SetImpl.after_of (GenericSet_mono flipKey) (f := 256) (by decide +kernel) hf,
      SetImpl.after_of (GenericSet_mono flipKey) (f := 256) (by decide +kernel) hf⟩⟩

/-- C15 and C19 are false for `Map`: `Dep` depends on the order in which the keys were set, and differs from the mean depth. -/
theorem C19_Map_refuted : ∃ (J : KeyImpl Nat) (sd : Seed) (ops₁ ops₂ : List (MOp Nat Nat)),
    (∀ a b, J.equal a b = true ↔ a = b) ∧ TwiceApart (fun k n => J.hash k sd n) (Stores ops₁) 1 ∧ ops₂.Perm ops₁ ∧
    (∀ k f, .mod k f ∉ ops₁) ∧ meanDepth (fun k n => J.hash k sd n) (keysAfter [] ops₁) = 5 / 3 ∧
    ∀ fuel, 256 ≤ fuel → (GenericMap J).After fuel sd St.init ops₁ [.len, .dep] [.num 3#64, .rat (5 / 3)] ∧
      (GenericMap J).After fuel sd St.init ops₂ [.len, .dep] [.num 3#64, .rat (7 / 3)] :=
  ⟨flipKey, 0#64, [.set 0x321 1, .set 0xc21 3, .set 0x051 2], [.set 0x321 1, .set 0x051 2, .set 0xc21 3], flipKey_eq,
    flip_stores (by decide) _, (List.Perm.swap _ _ []).cons _, by simp, by decide +kernel, fun fuel hf =>
    ⟨MapImpl.after_of (GenericMap_mono flipKey) (f := 256) (by decide +kernel) hf,
      MapImpl.after_of (GenericMap_mono flipKey) (f := 256) (by decide +kernel) hf⟩⟩

/-- The same for `Set`. -/
theorem C19_Set_refuted : ∃ (J : KeyImpl Nat) (sd : Seed) (ops₁ ops₂ : List (SOp Nat)),
    (∀ a b, J.equal a b = true ↔ a = b) ∧ TwiceApart (fun k n => J.hash k sd n) (SStores ops₁) 1 ∧ ops₂.Perm ops₁ ∧
    meanDepth (fun k n => J.hash k sd n) (elemsAfter [] ops₁) = 5 / 3 ∧
    ∀ fuel, 256 ≤ fuel → (GenericSet J).After fuel sd St.init ops₁ [.len, .dep] [.num 3#64, .rat (5 / 3)] ∧
      (GenericSet J).After fuel sd St.init ops₂ [.len, .dep] [.num 3#64, .rat (7 / 3)] :=
  ⟨flipKey, 0#64, [.add 0x321, .add 0xc21, .add 0x051], [.add 0x321, .add 0x051, .add 0xc21], flipKey_eq,
    flip_sstores (by decide) _, (List.Perm.swap _ _ []).cons _, by decide +kernel, fun fuel hf =>
    ⟨SetImpl.after_of (GenericSet_mono flipKey) (f := 256) (by decide +kernel) hf,
      SetImpl.after_of (GenericSet_mono flipKey) (f := 256) (by decide +kernel) hf⟩⟩

/-- The answer to a call with a given loop budget, after the calls `ops` with budget 256. -/
def MapImpl.within {K V : Type} [DecidableEq K] [Inhabited V] (I : MapImpl K V) (n : Nat) (sd : Seed) (ops : List (MOp K V)) (op : MOp K V) :
    Except Fault (MOut K V) :=
  match I.session 256 sd ops St.init with
  | .error e => .error e
  | .ok r => (I.exec n r.1.1 op r.2).map (fun x => x.1)

/-- C37 is false for `Map`: two keys share two nibbles, and no two share three; but `Get` of one of them visits four branches. -/
theorem C37_Map_refuted : ∃ (J : KeyImpl Nat) (sd : Seed) (ops : List (MOp Nat Nat)) (k : Nat),
    (∀ a b, J.equal a b = true ↔ a = b) ∧ TwiceApart (fun k n => J.hash k sd n) (Stores ops) 1 ∧ (∀ k f, .mod k f ∉ ops) ∧
    levels (fun k n => J.hash k sd n) (keysAfter [] ops) k = 3 ∧
    (∀ x ∈ keysAfter [] ops, x ≠ k → sharedLen (fun k n => J.hash k sd n) k x ≤ 2) ∧
    (GenericMap J).within 3 sd ops (.get k) = .error .diverge ∧ (GenericMap J).within 4 sd ops (.get k) = .ok (.pair 3 true) :=
  ⟨flipKey, 0#64, [.set 0x321 1, .set 0x051 2, .set 0xc21 3], 0xc21, flipKey_eq, flip_stores (by decide) _, by simp,
    by decide +kernel, by decide +kernel, by decide +kernel, by decide +kernel⟩

/-! ### Values and pointers -/

/-- C20 is false for `Map`: `All` visits the key 0x321 and its callback assigns 9, but `Get` does not find the key afterwards. -/
theorem C20_Map_refuted : ∃ (J : KeyImpl Nat) (sd : Seed) (ops : List (MOp Nat Nat)),
    (∀ a b, J.equal a b = true ↔ a = b) ∧ TwiceApart (fun k n => J.hash k sd n) (Stores ops) 1 ∧ (∀ k f, .mod k f ∉ ops) ∧
    ∀ fuel, 256 ≤ fuel → (GenericMap J).After fuel sd St.init ops [.all fun _ _ _ => (9, true), .get 0x321]
      [.log [(0x321, 1), (0x421, 3), (0x051, 2)], .pair 0 false] :=
  ⟨xorKey, 0#64, [.set 0x321 1, .set 0x051 2, .set 0x421 3], xorKey_eq, stores_apart (by decide) _, by simp, fun fuel hf =>
    MapImpl.after_of (GenericMap_mono xorKey) (f := 256) (by decide +kernel) hf⟩

/-- C21 is false for `Map`: the pointer of a key becomes nil when another key is set. -/
theorem C21_Map_refuted : ∃ (J : KeyImpl Nat) (sd : Seed) (ops : List (MOp Nat Nat)) (k k' : Nat),
    (∀ a b, J.equal a b = true ↔ a = b) ∧ TwiceApart (fun k n => J.hash k sd n) (Stores (ops ++ [.set k' 3])) 1 ∧ (∀ k f, .mod k f ∉ ops) ∧ k ≠ k' ∧
    ∀ fuel, 256 ≤ fuel → (GenericMap J).After fuel sd St.init ops [.ptr k, .set k' 3, .ptr k] [.opt (some 1), .unit, .opt none] :=
  ⟨xorKey, 0#64, [.set 0x321 1, .set 0x051 2], 0x321, 0x421, xorKey_eq, stores_apart (by decide) _, by simp, by decide, fun fuel hf =>
    MapImpl.after_of (GenericMap_mono xorKey) (f := 256) (by decide +kernel) hf⟩

/-- C21 is false for `IntMap` with keys outside `[0, 2^32)`. -/
theorem C21_IntMap_refuted : ∃ (sum : Maphash) (sd : Seed) (ops : List (MOp IntKey Nat)) (k k' : IntKey),
    Separated (byteStream sum sd intbytes) (Stores (ops ++ [.set k' 8])) ∧ k ≠ k' ∧
    ∀ fuel, 256 ≤ fuel → (IntMap sum).After fuel sd St.init ops [.ptr k, .set k' 8, .ptr k] [.opt (some 7), .unit, .opt none] := by
  refine ⟨toyHash, 0#64, [.set (-1#64) 7], -1#64, 255#64, ?_, by decide, fun fuel hf =>
    MapImpl.after_of (IntMap_mono toyHash) (f := 256) (by decide +kernel) hf⟩
  intro a b ha hb hab
  simp [Stores, MOp.stores] at ha hb
  rcases ha with rfl | rfl <;> rcases hb with rfl | rfl <;>
    first | exact absurd rfl hab | exact ⟨2, by decide, by decide +kernel⟩

/-- C23 is false for `IntMap` with keys outside `[0, 2^32)`: `Get` does not find what the callback of `Mod` left. -/
theorem C23_IntMap_refuted : ∃ (sum : Maphash) (sd : Seed) (ops : List (MOp IntKey Nat)) (k : IntKey),
    Separated (byteStream sum sd intbytes) (Stores (ops ++ [.mod k fun _ _ => 8])) ∧
    ∀ fuel, 256 ≤ fuel → (IntMap sum).After fuel sd St.init ops [.mod k fun _ _ => 8, .get k] [.calls [(0, false)], .pair 0 false] := by
  refine ⟨toyHash, 0#64, [.set (-1#64) 7], 255#64, ?_, fun fuel hf =>
    MapImpl.after_of (IntMap_mono toyHash) (f := 256) (by decide +kernel) hf⟩
  intro a b ha hb hab
  simp [Stores, MOp.stores] at ha hb
  rcases ha with rfl | rfl <;> rcases hb with rfl | rfl <;>
    first | exact absurd rfl hab | exact ⟨2, by decide, by decide +kernel⟩

/-! ### Emptying, extensionality, copying -/

/-- C36 is false for `Map`: after deleting every key that was set, `Len` is 1 and `All` visits an entry. -/
theorem C36_Map_refuted : ∃ (J : KeyImpl Nat) (sd : Seed) (ops : List (MOp Nat Nat)) (ks : List Nat),
    (∀ a b, J.equal a b = true ↔ a = b) ∧ TwiceApart (fun k n => J.hash k sd n) (Stores ops) 1 ∧ (∀ k f, .mod k f ∉ ops) ∧
    (∀ k ∈ keysAfter [] ops, k ∈ ks) ∧
    ∀ fuel, 256 ≤ fuel → (GenericMap J).After fuel sd St.init (ops ++ ks.map .del) [.len, .all readAll] [.num 1#64, .log [(0x321, 1)]] :=
  ⟨xorKey, 0#64, [.set 0x321 1, .set 0x051 2, .set 0x421 3], [0x321, 0x421, 0x051], xorKey_eq, stores_apart (by decide) _, by simp, by decide,
    fun fuel hf => MapImpl.after_of (GenericMap_mono xorKey) (f := 256) (by decide +kernel) hf⟩

/-- C36 is false for `IntSet` with keys outside `[0, 2^32)`: after deleting both keys that were added, `Len` is 2. -/
theorem C36_IntSet_refuted : ∃ (sum : Maphash) (sd : Seed) (ops : List (SOp IntKey)) (ks : List IntKey),
    Separated (byteStream sum sd intbytes) (SStores ops) ∧ (∀ k ∈ elemsAfter [] ops, k ∈ ks) ∧
    ∀ fuel, 256 ≤ fuel → (IntSet sum).After fuel sd St.init (ops ++ ks.map .del) [.len] [.num 2#64] := by
  refine ⟨toyHash, 0#64, [.add (-1#64), .add 255#64], [-1#64, 255#64], ?_, by simp [elemsAfter, SOp.after], fun fuel hf =>
    SetImpl.after_of (IntSet_mono toyHash) (f := 256) (by decide +kernel) hf⟩
  intro a b ha hb hab
  simp [SStores, SOp.stores] at ha hb
  rcases ha with rfl | rfl <;> rcases hb with rfl | rfl <;>
    first | exact absurd rfl hab | exact ⟨2, by decide, by decide +kernel⟩

/-- `Get` finds only keys that were set. -/
theorem get_other {ops : List (MOp Nat Nat)} (hS : ∀ op ∈ ops, ∀ k ∈ op.stores, k < 2 ^ 64) (hset : ∀ op ∈ ops, ∃ k v, op = .set k v)
    {k : Nat} (hk : ¬ Stores ops k) {fuel : Nat} (hf : 256 ≤ fuel) : (GenericMap xorKey).After fuel 0#64 St.init ops [.get k] [.pair 0 false] := by
  obtain ⟨os, s', E, hr, hs⟩ := C48_Map (V := Nat) xorKey xorKey_eq 0#64 (m := 1) (by decide) (ops := ops ++ [.get k])
    (stores_apart (by
      intro op h1
      rcases List.mem_append.1 h1 with h1 | h1
      · exact hS op h1
      · rw [List.mem_singleton.1 h1]; simp [MOp.stores]) _) St.init
  obtain ⟨os1, os2, E1, rfl, h1, h2⟩ := GRun.append hr
  obtain ⟨o, os3, E2, rfl, ⟨rfl, rfl⟩, rfl, rfl⟩ := h2
  have hh := (h1.holds (P := fun k _ => Stores ops k) (fun e he => by cases he) (by
    intro op hop
    obtain ⟨k, v, rfl⟩ := hset op hop
    exact ⟨_, hop, by simp [MOp.stores]⟩)).1
  have hn : (seen E).get k = none := by
    cases hg : (seen E).get k with
    | none => rfl
    | some v =>
      have h3 := (FMap.get_eq_some (GRun.nodup h1 List.nodup_nil)).1 hg
      rw [mem_seen] at h3
      exact absurd (hh (k, v) (List.mem_map.2 ⟨_, h3, rfl⟩)) hk
  rw [hn] at hs
  have h4 := hs fuel hf
  rw [MapImpl.session_append] at h4
  obtain ⟨os', s1, _, _, hs1⟩ := C48_Map (V := Nat) xorKey xorKey_eq 0#64 (m := 1) (by decide) (ops := ops) (stores_apart hS _) St.init
  rw [bind_ok (hs1 fuel hf)] at h4
  generalize (St.init : St Nat Nat).next = n₀ at h4 hs1
  cases hrun : (GenericMap xorKey).exec fuel (some n₀) (.get k) s1 with
  | error e =>
    rw [MapImpl.run, bind_assoc_M, bind_err hrun] at h4; cases h4
  | ok r =>
    obtain ⟨o, s2⟩ := r
    have h5 : (GenericMap xorKey).run fuel (some n₀) [.get k] s1 = .ok ([o], s2) := by
      rw [MapImpl.run, bind_ok hrun]; rfl
    rw [bind_ok h5] at h4
    have h6 : os' ++ [o] = os1 ++ [.pair 0 false] := congrArg (fun x => x.1.2) (Except.ok.inj h4)
    have h7 : o = .pair 0 false := by
      have := congrArg List.getLast? h6
      simpa using this
    rw [h7] at h5
    exact ⟨_, _, _, _, hs1 fuel hf, h5⟩

/-- C42 is false for `Map`: after two histories `Get` returns the same for every key, but `Len` does not. -/
theorem C42_Map_refuted : ∃ (J : KeyImpl Nat) (sd : Seed) (ops₁ ops₂ : List (MOp Nat Nat)),
    (∀ a b, J.equal a b = true ↔ a = b) ∧ TwiceApart (fun k n => J.hash k sd n) (Stores ops₁) 1 ∧ TwiceApart (fun k n => J.hash k sd n) (Stores ops₂) 1 ∧
    (∀ k f, .mod k f ∉ ops₁) ∧ (∀ k f, .mod k f ∉ ops₂) ∧
    ∀ fuel, 256 ≤ fuel → (∀ k, ∃ o, (GenericMap J).After fuel sd St.init ops₁ [.get k] [o] ∧ (GenericMap J).After fuel sd St.init ops₂ [.get k] [o]) ∧
      (GenericMap J).After fuel sd St.init ops₁ [.len] [.num 3#64] ∧ (GenericMap J).After fuel sd St.init ops₂ [.len] [.num 2#64] := by
  refine ⟨xorKey, 0#64, [.set 0x321 1, .set 0x051 2, .set 0x421 3], [.set 0x051 2, .set 0x421 3], xorKey_eq, stores_apart (by decide) _,
    stores_apart (by decide) _, by simp, by simp, fun fuel hf => ⟨fun k => ?_, ?_, ?_⟩⟩
  · by_cases h1 : k = 0x321
    · subst h1
      exact ⟨.pair 0 false, MapImpl.after_of (GenericMap_mono xorKey) (f := 256) (by decide +kernel) hf,
        MapImpl.after_of (GenericMap_mono xorKey) (f := 256) (by decide +kernel) hf⟩
    · by_cases h2 : k = 0x051
      · subst h2
        exact ⟨.pair 2 true, MapImpl.after_of (GenericMap_mono xorKey) (f := 256) (by decide +kernel) hf,
          MapImpl.after_of (GenericMap_mono xorKey) (f := 256) (by decide +kernel) hf⟩
      · by_cases h3 : k = 0x421
        · subst h3
          exact ⟨.pair 3 true, MapImpl.after_of (GenericMap_mono xorKey) (f := 256) (by decide +kernel) hf,
            MapImpl.after_of (GenericMap_mono xorKey) (f := 256) (by decide +kernel) hf⟩
        · exact ⟨.pair 0 false, get_other (by decide) (by simp) (by simp [Stores, MOp.stores, h1, h2, h3]) hf,
            get_other (by decide) (by simp) (by simp [Stores, MOp.stores, h2, h3]) hf⟩
  · exact MapImpl.after_of (GenericMap_mono xorKey) (f := 256) (by decide +kernel) hf
  · exact MapImpl.after_of (GenericMap_mono xorKey) (f := 256) (by decide +kernel) hf

/-- `src.All` with a callback that sets the entries in `dst`, then the calls `ops` on `dst`: the answers. -/
def copied {K : Type} [DecidableEq K] (I I' : MapImpl K Nat) (fuel : Nat) (sd : Seed) (src dst ops : List (MOp K Nat)) : Except Fault (List (MOut K Nat)) :=
  match I.session fuel sd src St.init with
  | .error e => .error e
  | .ok r₁ => match I'.session fuel sd dst r₁.2 with
    | .error e => .error e
    | .ok r₂ => match I.AllWith fuel r₁.1.1 (I.callback fuel r₁.1.1 (I'.exec fuel r₂.1.1) copyBody) () r₂.2 with
      | .error e => .error e
      | .ok r₃ => match I'.run fuel r₂.1.1 ops r₃.2 with
        | .error e => .error e
        | .ok r₄ => .ok r₄.1

/-- C45 is false if the destination is an `ArrMap`: the copy of a value is zero. -/
theorem C45_ArrMap_refuted : ∃ (sum : Maphash) (sd : Seed) (kb : UInt8 → List UInt8) (src : List (MOp UInt8 Nat)) (k : UInt8),
    Separated (byteStream sum sd kb) (Stores src) ∧
    copied (ArrMap sum kb) (ArrMap sum kb) 256 sd src [] [.get k] = .ok [.pair 0 true] ∧
    (ArrMap sum kb).After 256 sd St.init src [.get k] [.pair 8 true] := by
  refine ⟨toyHash, 0#64, fun k => [k], [.set 1 7, .set 0x11 8, .set 0x11 8], 0x11, ?_, by decide +kernel,
    MapImpl.after_of (ArrMap_mono toyHash _) (f := 256) (by decide +kernel) (Nat.le_refl _)⟩
  intro a b ha hb hab
  simp [Stores, MOp.stores] at ha hb
  rcases ha with rfl | rfl <;> rcases hb with rfl | rfl <;> first | exact absurd rfl hab | exact ⟨1, by decide, by decide⟩

/-- C45 is false if the destination is a `Map`: a key that both have is missing there after copying. -/
theorem C45_Map_refuted : ∃ (J : KeyImpl Nat) (sd : Seed) (src dst : List (MOp Nat Nat)) (k : Nat),
    (∀ a b, J.equal a b = true ↔ a = b) ∧ TwiceApart (fun k n => J.hash k sd n) (Stores (src ++ dst)) 1 ∧ k ∈ keysAfter [] src ∧ k ∈ keysAfter [] dst ∧
    copied (GenericMap J) (GenericMap J) 256 sd src dst [.get k] = .ok [.pair 0 false] ∧
    (GenericMap J).After 256 sd St.init src [.get k] [.pair 1 true] ∧ (GenericMap J).After 256 sd St.init dst [.get k] [.pair 9 true] :=
  ⟨xorKey, 0#64, [.set 0x321 1, .set 0x421 3], [.set 0x321 9, .set 0x051 2], 0x321, xorKey_eq, stores_apart (by decide) _, by decide, by decide,
    by decide +kernel, MapImpl.after_of (GenericMap_mono xorKey) (f := 256) (by decide +kernel) (Nat.le_refl _),
    MapImpl.after_of (GenericMap_mono xorKey) (f := 256) (by decide +kernel) (Nat.le_refl _)⟩

end Amt
