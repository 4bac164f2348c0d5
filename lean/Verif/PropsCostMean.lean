/-
The mean number of accesses over a family of hash functions (C88): C85 and C87 with the mean number of levels of C63.
-/
import Verif.PropsCostMod
import Verif.PropsExpect

set_option linter.unusedVariables false
set_option linter.unusedSectionVars false

namespace Amt.Par
open Amt Spec

section
variable {W K V : Type} [DecidableEq K] {c m L n : Nat}

theorem mean_of {Ω cov : List W} {H : W → K → Nat → BitVec 64} {ks : List K} {k : K} (hcov : cov.Sublist Ω) (hn : ks.Nodup)
    (hs : Spread c m Ω H (k :: ks)) (hN : (ks.filter fun x => decide (x ≠ k)).length ≤ 16 ^ L) (hL : L ≤ m) (hm : m ≤ 256) {q : W → Nat} {a b : Nat}
    (hq : ∀ w ∈ cov, q w ≤ a + b * levels (H w) ks k) : ((cov.map q).sum : Rat) ≤ Ω.length * (a + b * (1 + depthBound c m L)) := by
  have h1 : (cov.map q).sum ≤ (Ω.map fun w => a + b * levels (H w) ks k).sum := Nat.le_trans (sum_le_sum hq) (sum_sublist hcov _)
  rw [sum_add, sum_const, sum_mul] at h1
  have h2 := Rat.natCast_le_natCast.2 h1
  have h3 := levels_avg hn hs hN hL hm
  rw [Rat.natCast_add, Rat.natCast_mul, Rat.natCast_mul] at h2
  have h4 : (b : Rat) * ((Ω.map fun w => levels (H w) ks k).sum : Nat) ≤ b * (Ω.length * (1 + depthBound c m L)) :=
    Rat.mul_le_mul_of_nonneg_left h3 (by exact_mod_cast Nat.zero_le b)
  grind

/-- A memory and what was returned for each member of the family. -/
theorem choose_for {Out : Type} {cov : List W} {p : W → Handle → List Out → St K V → Prop} (h : ∀ w ∈ cov, ∃ mp os s, p w mp os s) :
    ∃ r : W → Handle × List Out × St K V, ∀ w ∈ cov, p w (r w).1 (r w).2.1 (r w).2.2 := by
  have h' : ∀ w, ∃ r : Handle × List Out × St K V, w ∈ cov → p w r.1 r.2.1 r.2.2 := fun w => by
    by_cases hw : w ∈ cov
    · obtain ⟨mp, os, s, h1⟩ := h w hw
      exact ⟨(mp, os, s), fun _ => h1⟩
    · exact ⟨(none, [], St.init), fun h => absurd h hw⟩
  exact ⟨fun w => Classical.choose (h' w), fun w => Classical.choose_spec (h' w)⟩

theorem others_le {ks ks' : List K} {k : K} (hn : ks'.Nodup) (h : ∀ x ∈ ks', x = k ∨ x ∈ ks) : (ks'.filter fun x => decide (x ≠ k)).length ≤ ks.length := by
  refine List.Nodup.length_le_of_subset (List.Pairwise.filter _ hn) fun x hx => ?_
  obtain ⟨h1, h2⟩ := List.mem_filter.1 hx
  exact (h x h1).resolve_left (of_decide_eq_true h2)

/-- C88.  After a history that leaves at most `16^L` keys, and for a family `Ω` of hash functions (or seeds) that spreads these keys and `k`,
the mean over the family of the number of accesses of `Get`, `Del`, `Set` and `Mod` of `k` is at most a constant and a multiple of
`1 + depthBound c m L`, that is, of the logarithm of the number of keys; so is the mean number of objects that `Set` allocates.  (Functions with
which the history is not covered count as zero, as in C63.) -/
theorem C88_map [Inhabited V] {Ω cov : List W} {G : W → MapTree K V} {C : W → Go.MapCode K V} {I : W → MapImpl K V} {sd : W → Seed}
    {H : W → K → Nat → BitVec 64} {P : W → Bool → List K → K → Prop} {lossy : V → V} {ex : Prop} (hA : ∀ w, MapAll (G w) (C w) (I w))
    (hc : ∀ w, MapContainer (I w) (sd w) (H w) (P w) lossy ex) (hex : ex) {ops : List (MOp K V)} (hcov : cov.Sublist Ω)
    (h : ∀ w ∈ cov, EachNew (P w) [] ops) (hN : (keysAfter [] ops).length ≤ 16 ^ L) (hL : L ≤ m) (hm : m ≤ 256) (hn : 256 ≤ n)
    {s : W → St K V} (hs : ∀ w, Go.Tidy (s w)) :
    ∃ r : W → Handle × List (MOut K V) × St K V, (∀ w ∈ cov, (C w).session n (sd w) ops (s w) = .ok (((r w).1, (r w).2.1), (r w).2.2)) ∧
      ∀ k, Spread c m Ω H (k :: keysAfter [] ops) →
        ((cov.map fun w => ((G w).Get n (r w).1 k).cost Price.access (r w).2.2).sum : Rat) ≤ Ω.length * (10 + 13 * (1 + depthBound c m L)) ∧
        (∀ path : W → List PathLink, (∀ w, (path w).length = 12) →
          ((cov.map fun w => ((G w).Del n (r w).1 k (path w)).cost Price.access (r w).2.2).sum : Rat) ≤ Ω.length * (700 + 52 * (1 + depthBound c m L))) ∧
        (∀ v, (∀ w ∈ cov, k ∉ keysAfter [] ops → P w false (keysAfter [] ops) k) →
          ((cov.map fun w => ((G w).Set n (r w).1 k v).cost Price.access (r w).2.2).sum : Rat) ≤ Ω.length * (900 + 21 * (1 + depthBound c m L)) ∧
          ((cov.map fun w => ((G w).Set n (r w).1 k v).cost Price.alloc (r w).2.2).sum : Rat) ≤ Ω.length * (2 + (1 + depthBound c m L))) ∧
        (∀ f, (∀ w ∈ cov, k ∉ keysAfter [] ops → P w true (keysAfter [] ops) k) →
          ((cov.map fun w => ((G w).Mod n (r w).1 k (modCb f) []).cost Price.access (r w).2.2).sum : Rat) ≤ Ω.length * (902 + 21 * (1 + depthBound c m L)) ∧
          ((cov.map fun w => ((G w).Mod n (r w).1 k (modCb f) []).cost Price.alloc (r w).2.2).sum : Rat) ≤ Ω.length * (2 + (1 + depthBound c m L))) := by
  obtain ⟨r, hr⟩ := choose_for fun w (hw : w ∈ cov) => C85_map (hA w) (hc w) hex (h w hw) hn (hs w)
  refine ⟨r, fun w hw => (hr w hw).1, fun k hsp => ?_⟩
  have hnd := nodup_keysAfter (V := V) (ks := []) (by simp) ops
  have hle : ((keysAfter [] ops).filter fun x => decide (x ≠ k)).length ≤ 16 ^ L := Nat.le_trans (List.length_filter_le _ _) hN
  refine ⟨?_, fun path hpath => ?_, fun v hP => ?_, fun f hP => ?_⟩
  · exact mean_of hcov hnd hsp hle hL hm fun w hw => ((hr w hw).2 k).2.1
  · exact mean_of hcov hnd hsp hle hL hm fun w hw => ((hr w hw).2 k).2.2.2 (path w) (hpath w)
  · have hnd' := nodup_keysAfter (V := V) (ks := []) (by simp) (ops ++ [.set k v])
    have hin : ∀ x ∈ keysAfter [] (ops ++ [.set k v]), x = k ∨ x ∈ keysAfter [] ops := by
      intro x hx
      have : keysAfter [] (ops ++ [.set k v]) = MOp.after (keysAfter [] ops) (.set k v) := by simp [keysAfter, List.foldl_append]
      rw [this, MOp.after] at hx
      split at hx
      · exact Or.inr hx
      · exact List.mem_cons.1 hx
    have hsp' : Spread c m Ω H (k :: keysAfter [] (ops ++ [.set k v])) := spread_sub hsp fun x hx => by
      rcases List.mem_cons.1 hx with rfl | hx
      · exact List.mem_cons_self
      · exact List.mem_cons.2 (hin x hx)
    have hle' := Nat.le_trans (others_le hnd' hin) hN
    have hb : ∀ w ∈ cov, ((G w).Set n (r w).1 k v).cost Price.access (r w).2.2 ≤ 900 + 21 * levels (H w) (keysAfter [] (ops ++ [.set k v])) k ∧
        ((G w).Set n (r w).1 k v).cost Price.alloc (r w).2.2 ≤ 2 + levels (H w) (keysAfter [] (ops ++ [.set k v])) k := fun w hw => by
      obtain ⟨mp, os, s₁, e1, e2⟩ := C87_map (hA w) (hc w) hex (h w hw) hn (hs w)
      rw [(hr w hw).1] at e1
      cases e1
      exact e2 k v (hP w hw)
    refine ⟨mean_of hcov hnd' hsp' hle' hL hm fun w hw => (hb w hw).1, ?_⟩
    have := mean_of (b := 1) (a := 2) hcov hnd' hsp' hle' hL hm (fun w hw => by rw [Nat.one_mul]; exact (hb w hw).2)
    grind
  · have hnd' := nodup_keysAfter (V := V) (ks := []) (by simp) (ops ++ [.mod k f])
    have hin : ∀ x ∈ keysAfter [] (ops ++ [.mod k f]), x = k ∨ x ∈ keysAfter [] ops := by
      intro x hx
      have : keysAfter [] (ops ++ [.mod k f]) = MOp.after (keysAfter [] ops) (.mod k f) := by simp [keysAfter, List.foldl_append]
      rw [this, MOp.after] at hx
      split at hx
      · exact Or.inr hx
      · exact List.mem_cons.1 hx
    have hsp' : Spread c m Ω H (k :: keysAfter [] (ops ++ [.mod k f])) := spread_sub hsp fun x hx => by
      rcases List.mem_cons.1 hx with rfl | hx
      · exact List.mem_cons_self
      · exact List.mem_cons.2 (hin x hx)
    have hle' := Nat.le_trans (others_le hnd' hin) hN
    have hb : ∀ w ∈ cov, ((G w).Mod n (r w).1 k (modCb f) []).cost Price.access (r w).2.2 ≤ 902 + 21 * levels (H w) (keysAfter [] (ops ++ [.mod k f])) k ∧
        ((G w).Mod n (r w).1 k (modCb f) []).cost Price.alloc (r w).2.2 ≤ 2 + levels (H w) (keysAfter [] (ops ++ [.mod k f])) k := fun w hw => by
      obtain ⟨mp, os, s₁, e1, e2⟩ := C87_mod (hA w) (hc w) hex (h w hw) hn (hs w)
      rw [(hr w hw).1] at e1
      cases e1
      exact e2 k f (hP w hw)
    refine ⟨mean_of hcov hnd' hsp' hle' hL hm fun w hw => (hb w hw).1, ?_⟩
    have := mean_of (b := 1) (a := 2) hcov hnd' hsp' hle' hL hm (fun w hw => by rw [Nat.one_mul]; exact (hb w hw).2)
    grind

/-- C88 for sets whose `Del` does what it should: `Has`, `Del` and `Add`. -/
theorem C88_set {Ω cov : List W} {G : W → SetTree K} {C : W → Go.SetCode K} {I : W → SetImpl K} {sd : W → Seed}
    {H : W → K → Nat → BitVec 64} {P : W → List K → K → Prop} {ex : Prop} (hA : ∀ w, SetAll (G w) (C w) (I w))
    (hc : ∀ w, SetContainer (I w) (sd w) (H w) (P w) false ex) (hex : ex) {ops : List (SOp K)} (hcov : cov.Sublist Ω)
    (h : ∀ w ∈ cov, SEachNew (H w) false (P w) [] ops) (hN : (elemsAfter [] ops).length ≤ 16 ^ L) (hL : L ≤ m) (hm : m ≤ 256) (hn : 256 ≤ n)
    {s : W → St K Unit} (hs : ∀ w, Go.Tidy (s w)) :
    ∃ r : W → Handle × List (SOut K) × St K Unit, (∀ w ∈ cov, (C w).session n (sd w) ops (s w) = .ok (((r w).1, (r w).2.1), (r w).2.2)) ∧
      ∀ k, Spread c m Ω H (k :: elemsAfter [] ops) →
        ((cov.map fun w => ((G w).Has n (r w).1 k).cost Price.access (r w).2.2).sum : Rat) ≤ Ω.length * (9 + 13 * (1 + depthBound c m L)) ∧
        (∀ path : W → List PathLink, (∀ w, (path w).length = 12) →
          ((cov.map fun w => ((G w).Del n (r w).1 k (path w)).cost Price.access (r w).2.2).sum : Rat) ≤ Ω.length * (700 + 52 * (1 + depthBound c m L))) ∧
        ((∀ w ∈ cov, k ∉ elemsAfter [] ops → P w (elemsAfter [] ops) k) →
          ((cov.map fun w => ((G w).Add n (r w).1 k).cost Price.access (r w).2.2).sum : Rat) ≤ Ω.length * (900 + 21 * (1 + depthBound c m L)) ∧
          ((cov.map fun w => ((G w).Add n (r w).1 k).cost Price.alloc (r w).2.2).sum : Rat) ≤ Ω.length * (2 + (1 + depthBound c m L))) := by
  obtain ⟨r, hr⟩ := choose_for fun w (hw : w ∈ cov) => C85_set (hA w) (hc w) hex (h w hw) hn (hs w)
  simp only [elemsAfterX_false] at hr
  refine ⟨r, fun w hw => (hr w hw).1, fun k hsp => ?_⟩
  have hnd : ∀ ops : List (SOp K), (elemsAfter [] ops).Nodup := fun ops => by
    rw [← elemsAfterX_false (H := fun _ _ => 0#64)]
    exact nodup_elemsAfterX false (by simp) ops
  have hle : ((elemsAfter [] ops).filter fun x => decide (x ≠ k)).length ≤ 16 ^ L := Nat.le_trans (List.length_filter_le _ _) hN
  refine ⟨?_, fun path hpath => ?_, fun hP => ?_⟩
  · exact mean_of hcov (hnd _) hsp hle hL hm fun w hw => ((hr w hw).2 k).1
  · exact mean_of hcov (hnd _) hsp hle hL hm fun w hw => ((hr w hw).2 k).2 (path w) (hpath w)
  · have hin : ∀ x ∈ elemsAfter [] (ops ++ [.add k]), x = k ∨ x ∈ elemsAfter [] ops := by
      intro x hx
      have : elemsAfter [] (ops ++ [.add k]) = SOp.after (elemsAfter [] ops) (.add k) := by simp [elemsAfter, List.foldl_append]
      rw [this, SOp.after] at hx
      split at hx
      · exact Or.inr hx
      · exact List.mem_cons.1 hx
    have hsp' : Spread c m Ω H (k :: elemsAfter [] (ops ++ [.add k])) := spread_sub hsp fun x hx => by
      rcases List.mem_cons.1 hx with rfl | hx
      · exact List.mem_cons_self
      · exact List.mem_cons.2 (hin x hx)
    have hle' := Nat.le_trans (others_le (hnd _) hin) hN
    have hb : ∀ w ∈ cov, ((G w).Add n (r w).1 k).cost Price.access (r w).2.2 ≤ 900 + 21 * levels (H w) (elemsAfter [] (ops ++ [.add k])) k ∧
        ((G w).Add n (r w).1 k).cost Price.alloc (r w).2.2 ≤ 2 + levels (H w) (elemsAfter [] (ops ++ [.add k])) k := fun w hw => by
      obtain ⟨mp, os, s₁, e1, e2⟩ := C87_set (hA w) (hc w) hex (h w hw) hn (hs w)
      rw [(hr w hw).1] at e1
      cases e1
      simp only [elemsAfterX_false] at e2
      exact e2 k (hP w hw)
    refine ⟨mean_of hcov (hnd _) hsp' hle' hL hm fun w hw => (hb w hw).1, ?_⟩
    have := mean_of (b := 1) (a := 2) hcov (hnd _) hsp' hle' hL hm (fun w hw => by rw [Nat.one_mul]; exact (hb w hw).2)
    grind

end

/-- C88 for a random hash function: over all functions from the stored keys and `k` to 64-bit digests, `Get` of a `StringMap` with at most `16^L`
keys makes at most `23 + 13 (L + 1/15)` accesses on average, and a negligible number more. -/
theorem C88_random {V : Type} [Inhabited V] {n L : Nat} (sd : Seed) {ops : List (MOp ByteStr V)} (k : ByteStr) {cov : List (List (BitVec 64))}
    (hcov : cov.Sublist (allHashes (k :: keysAfter [] ops)))
    (h : ∀ v ∈ cov, EachNew (fun _ => ByteFits (byteStream (tableHash (k :: keysAfter [] ops) v) sd id)) [] ops)
    (hN : (keysAfter [] ops).length ≤ 16 ^ L) (hL : L ≤ 16) (hn : 256 ≤ n) {s : St ByteStr V} (hs : Go.Tidy s) :
    ∃ q : List (BitVec 64) → Nat,
      (∀ v ∈ cov, ∃ m os s₁, (Go.stringMap (tableHash (k :: keysAfter [] ops) v)).session n sd ops s = .ok ((m, os), s₁) ∧
        ((stringMap (tableHash (k :: keysAfter [] ops) v)).Get n m k).cost Price.access s₁ = q v) ∧
      ((cov.map q).sum : Rat) ≤ ((2 ^ 64) ^ ((keysAfter [] ops).length + 1) : Nat) * (23 + 13 * (L + 1 / 15 + 240 * 16 ^ L / 16 ^ 16)) := by
  obtain ⟨r, h1, h2⟩ := C88_map (c := 1) (m := 16) (fun v => MapAll.string (V := V) (tableHash (k :: keysAfter [] ops) v))
    (fun v => MapContainer.string (tableHash (k :: keysAfter [] ops) v) sd) trivial hcov h hN hL (by decide) hn (s := fun _ => s) fun _ => hs
  refine ⟨_, fun v hv => ⟨_, _, _, h1 v hv, rfl⟩, ?_⟩
  have h3 := (h2 k (spread_all _ sd)).1
  rw [allHashes, length_vecs, digests, List.length_map, List.length_range] at h3
  have e : (10 + 13 * (1 + depthBound 1 16 L) : Rat) = 23 + 13 * (L + 1 / 15 + 240 * 16 ^ L / 16 ^ 16) := by
    rw [depthBound]
    grind
  rw [← e]
  exact h3

/-! ### Instances -/

example := C88_map (c := 1) (m := 1) (L := 1) (fun sd => MapAll.string (V := Nat) affineHash) (fun sd => MapContainer.string (V := Nat) affineHash sd) trivial
  (List.Sublist.refl exSeeds) affine_covered (by decide +kernel) (by decide) (by decide) (Nat.le_refl 256) (s := fun _ => St.init) fun _ => Go.init_tidy

/-- The key that is looked up; its `Set` is covered, too. -/
example : Spread 1 1 exSeeds (fun sd => byteStream affineHash sd id) (strKey 0x12 :: keysAfter [] (exOps strKey)) ∧
    ∀ sd ∈ exSeeds, strKey 0x12 ∉ keysAfter [] (exOps strKey) → ByteFits (byteStream affineHash sd id) (keysAfter [] (exOps strKey)) (strKey 0x12) := by
  have : exSeeds.all (fun sd => decide (Soon (byteStream affineHash sd id) (keysAfter [] (exOps strKey)) (strKey 0x12))) = true := by
    decide +kernel
  exact ⟨spread_affine, fun sd hsd _ => Soon.fits (of_decide_eq_true (List.all_eq_true.1 this sd hsd))⟩

example := C88_set (c := 1) (m := 1) (L := 1) (fun sd => SetAll.string affineHash) (fun sd => SetContainer.string affineHash sd) trivial
  (List.Sublist.refl exSeeds) affine_covered_set (by decide +kernel) (by decide) (by decide) (Nat.le_refl 256) (s := fun _ => St.init) fun _ => Go.init_tidy

theorem exVec5 : [0x22#64, 0x11#64, 0x21#64, 0x31#64, 0x12#64] ∈ allHashes (strKey 0x77 :: keysAfter [] (exOps strKey)) := by
  have h : (strKey 0x77 :: keysAfter [] (exOps strKey)).length = 5 := by decide +kernel
  rw [allHashes, h]
  exact mem_vecs (v := [0x22#64, 0x11#64, 0x21#64, 0x31#64, 0x12#64]) fun x _ => mem_digests x

example := C88_random (L := 1) (ops := exOps strKey) 0#64 (strKey 0x77) (cov := [[0x22#64, 0x11#64, 0x21#64, 0x31#64, 0x12#64]])
  (List.singleton_sublist.2 exVec5) (by decide +kernel) (by decide +kernel) (by decide) (Nat.le_refl 256) Go.init_tidy

/-- With a random hash function and four billion keys, `Get` accesses the memory less than 128 times on average. -/
example : (23 + 13 * (8 + 1 / 15 + 240 * 16 ^ 8 / 16 ^ 16) : Rat) < 128 := by decide +kernel

end Amt.Par
