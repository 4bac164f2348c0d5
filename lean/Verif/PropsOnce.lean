/-
C94: for almost all hash functions of a family, a history of calls goes as it should, and no key is hashed twice in a call.
-/
import Verif.PropsKeyUse
import Verif.PropsExpect
import Verif.PropsRefine

set_option linter.unusedVariables false
set_option linter.unusedSectionVars false

namespace Spec
open Amt

/-- The keys that a call names. -/
def MOp.names {K V : Type} (op : MOp K V) : List K := op.seeks.toList ++ op.stores

/-- As `MOp.names`, for sets. -/
def SOp.names {K : Type} (op : SOp K) : List K := op.seeks.toList ++ op.stores

/-- Two different keys of the list share their first `j` nibbles. -/
def clash {K : Type} [DecidableEq K] (H : K → Nat → BitVec 64) (j : Nat) : List K → Bool
  | [] => false
  | a :: l => (l.any fun b => decide (a ≠ b) && decide (∀ i, i < j → nibble H a i = nibble H b i)) || clash H j l

end Spec

namespace Amt
open Spec T

section
variable {W K : Type} [DecidableEq K] {Ω : List W} {H : W → K → Nat → BitVec 64} {ks : List K} {c m j : Nat}

theorem clash_false {H : K → Nat → BitVec 64} (h : clash H j ks = false) {a b : K} (ha : a ∈ ks) (hb : b ∈ ks) (hab : a ≠ b) :
    ∃ i, i < j ∧ nibble H a i ≠ nibble H b i := by
  induction ks with
  | nil => cases ha
  | cons x l ih =>
    rw [clash, Bool.or_eq_false_iff] at h
    have h1 : ∀ y ∈ l, x ≠ y → ∃ i, i < j ∧ nibble H x i ≠ nibble H y i := fun y hy hxy => by
      have := List.any_eq_false.1 h.1 y hy
      simp only [Bool.and_eq_true, decide_eq_true_eq, not_and] at this
      have := this hxy
      simpa [Classical.not_forall] using this
    rcases List.mem_cons.1 ha with ha' | ha'
    · rcases List.mem_cons.1 hb with hb' | hb'
      · exact absurd (ha'.trans hb'.symm) hab
      · rw [ha'] at hab ⊢
        exact h1 b hb' hab
    · rcases List.mem_cons.1 hb with hb' | hb'
      · rw [hb'] at hab ⊢
        obtain ⟨i, h2, h3⟩ := h1 a ha' (Ne.symm hab)
        exact ⟨i, h2, Ne.symm h3⟩
      · exact ih h.2 ha' hb'

/-- The number of functions with which two of the keys clash, by the pairs of keys. -/
theorem clash_count (hs : Spread c m Ω H ks) (hj : j ≤ m) :
    2 * (16 ^ j * Ω.countP fun w => clash (H w) j ks) ≤ ks.length * (ks.length - 1) * (c * Ω.length) := by
  induction ks with
  | nil =>
    have : (Ω.countP fun w => clash (H w) j ([] : List K)) = 0 := List.countP_eq_zero.2 fun w _ => by simp [clash]
    rw [this]
    omega
  | cons a l ih =>
    have ih := ih (spread_sub hs fun x hx => List.mem_cons_of_mem _ hx)
    have h1 : (Ω.countP fun w => clash (H w) j (a :: l)) ≤
        (Ω.map fun w => (l.any fun b => decide (a ≠ b) && decide (∀ i, i < j → nibble (H w) a i = nibble (H w) b i)).toNat).sum +
          Ω.countP fun w => clash (H w) j l := by
      rw [List.countP_eq_length_filter, List.countP_eq_length_filter, length_filter_eq, length_filter_eq, ← sum_add]
      apply sum_le_sum
      intro w _
      simp only [clash]
      cases (l.any fun b => decide (a ≠ b) && decide (∀ i, i < j → nibble (H w) a i = nibble (H w) b i)) <;> cases clash (H w) j l <;> decide
    have h2 : 16 ^ j * (Ω.map fun w => (l.any fun b => decide (a ≠ b) && decide (∀ i, i < j → nibble (H w) a i = nibble (H w) b i)).toNat).sum
        ≤ l.length * (c * Ω.length) := by
      refine Nat.le_trans (Nat.mul_le_mul_left _ (sum_le_sum fun w _ => any_toNat_le _ _)) ?_
      rw [sum_swap, ← sum_mul]
      refine Nat.le_trans (sum_le_sum (g := fun _ => c * Ω.length) fun b hb => ?_) (by rw [sum_const, Nat.mul_comm]; exact Nat.le_refl _)
      by_cases hab : a = b
      · have : (Ω.map fun w => (decide (a ≠ b) && decide (∀ i, i < j → nibble (H w) a i = nibble (H w) b i)).toNat).sum = 0 := by
          rw [← length_filter_eq, ← List.countP_eq_length_filter]
          exact List.countP_eq_zero.2 fun w _ => by simp [hab]
        rw [this]
        omega
      · refine Nat.le_trans (Nat.mul_le_mul_left _ (Nat.le_of_eq ?_)) (hs a List.mem_cons_self b (List.mem_cons_of_mem _ hb) hab j hj)
        rw [meets, length_filter_eq]
        congr 1
        apply List.map_congr_left
        intro w _
        rw [decide_eq_true hab, Bool.true_and]
    have h3 := Nat.mul_le_mul_left (16 ^ j) h1
    rw [Nat.mul_add] at h3
    have h4 : (a :: l).length * ((a :: l).length - 1) * (c * Ω.length) = 2 * (l.length * (c * Ω.length)) + l.length * (l.length - 1) * (c * Ω.length) := by
      rw [List.length_cons, Nat.add_sub_cancel, ← Nat.mul_assoc 2, ← Nat.add_mul]
      congr 1
      cases l.length with
      | zero => rfl
      | succ n => rw [Nat.add_sub_cancel]; grind
    rw [h4]
    omega

end

/-! ### A family of containers -/

section
variable {W K V : Type} [DecidableEq K] [Inhabited V] {Ω : List W} {c m : Nat}

/-- Only few functions of a family go wrong on the keys `ks`: at most one in `2 · 16^m / (c n (n - 1))`, for `n` keys. -/
def Few (Ω : List W) (c m : Nat) (ks : List K) (bad : W → Bool) : Prop := 2 * (16 ^ m * Ω.countP bad) ≤ ks.length * (ks.length - 1) * (c * Ω.length)

theorem near_of_clash {H : K → Nat → BitVec 64} {ks : List K} (hm : m ≤ 241) (h : clash H m ks = false) {a b : K} (ha : a ∈ ks) (hb : b ∈ ks) (hab : a ≠ b) :
    Near H a b := by
  obtain ⟨i, h1, h2⟩ := clash_false h ha hb hab
  exact ⟨i, by omega, h2⟩

theorem fits_of_clash {H : K → Nat → BitVec 64} {ks : List K} (hm : m ≤ 241) (h : clash H m ks = false) {ks' : List K} {k : K} (h' : ∀ x ∈ ks', x ∈ ks)
    (hk : k ∈ ks) (hn : k ∉ ks') : ByteFits H ks' k :=
  ByteFits.of_near fun x hx => near_of_clash hm h hk (h' x hx) fun e => hn (e ▸ hx)

theorem stored_named {ops : List (MOp K V)} {ks : List K} (h : ∀ op ∈ ops, ∀ k ∈ op.names, k ∈ ks) {k : K} (hk : Stores ops k) : k ∈ ks := by
  obtain ⟨op, h1, h2⟩ := hk
  exact h op h1 k (List.mem_append_right _ h2)

theorem sstored_named {ops : List (SOp K)} {ks : List K} (h : ∀ op ∈ ops, ∀ k ∈ op.names, k ∈ ks) {k : K} (hk : SStores ops k) : k ∈ ks := by
  obtain ⟨op, h1, h2⟩ := hk
  exact h op h1 k (List.mem_append_right _ h2)

theorem byte_covered {H : K → Nat → BitVec 64} {ops : List (MOp K V)} {ks : List K} (h : ∀ op ∈ ops, ∀ k ∈ op.names, k ∈ ks) (hm : m ≤ 241)
    (hc : clash H m ks = false) : EachNew (fun _ => ByteFits H) [] ops :=
  Separated.eachNew fun a b ha hb hab => near_of_clash hm hc (stored_named h ha) (stored_named h hb) hab

theorem sbyte_covered {H : K → Nat → BitVec 64} {inv : Bool} {ops : List (SOp K)} {ks : List K} (h : ∀ op ∈ ops, ∀ k ∈ op.names, k ∈ ks) (hm : m ≤ 241)
    (hc : clash H m ks = false) : SEachNew H inv (ByteFits H) [] ops :=
  Separated.seachNew fun a b ha hb hab => near_of_clash hm hc (sstored_named h ha) (sstored_named h hb) hab

/-! ### Levels -/

/-- Where no other key shares 16 nibbles, a search visits at most 16 levels. -/
theorem levels_le_16 {H : K → Nat → BitVec 64} {ks : List K} {k : K} (hn : ks.Nodup) (h : ∀ x ∈ ks, x ≠ k → ∃ i, i < 16 ∧ nibble H k i ≠ nibble H x i) :
    levels H ks k ≤ 16 := by
  have h1 := levels_crowded (k := k) (H := H) hn
  have h2 : ∀ j, 16 ≤ j → crowded H ks k j = false := fun j hj => by
    rw [crowded, List.any_eq_false]
    intro x hx
    obtain ⟨g1, g2⟩ := List.mem_filter.1 hx
    obtain ⟨i, g3, g4⟩ := h x g1 (of_decide_eq_true g2)
    rw [decide_eq_true_eq]
    exact fun g => g4 (g i (by omega))
  have h3 : ((List.range 256).map fun j => (crowded H ks k (j + 1)).toNat).sum ≤ 15 := by
    rw [show List.range 256 = List.range 15 ++ (List.range 241).map (fun i => 15 + i) from List.range_add (n := 15) (m := 241), List.map_append, List.sum_append]
    have h4 : (((List.range 241).map (fun i => 15 + i)).map fun j => (crowded H ks k (j + 1)).toNat).sum = 0 := by
      rw [List.map_map]
      show ((List.range 241).map fun i => (crowded H ks k (15 + i + 1)).toNat).sum = 0
      rw [← length_filter_eq (α := Nat), List.length_eq_zero_iff, List.filter_eq_nil_iff]
      intro i _
      rw [h2 _ (by omega)]
      simp
    have h5 : ((List.range 15).map fun j => (crowded H ks k (j + 1)).toNat).sum ≤ 15 := by
      rw [← length_filter_eq (α := Nat)]
      exact Nat.le_trans (List.length_filter_le _ _) (by simp)
    omega
  omega

/-- Every call of the history, after those before it, hashes no key more than once. -/
def _root_.Amt.MapImpl.Once (I : MapImpl K V) (sd : Seed) (ops : List (MOp K V)) : Prop :=
  ∀ ops₁ op ops₂, ops = ops₁ ++ op :: ops₂ → ∀ n, 256 ≤ n → ∀ s : St K V, ∃ mp os s₁, I.session n sd ops₁ s = .ok ((mp, os), s₁) ∧
    ∀ y, (I.execQ byteHashing n mp op s₁).1.count (.hash y) ≤ 1

/-- As `MapImpl.Once`, for sets. -/
def _root_.Amt.SetImpl.Once (I : SetImpl K) (sd : Seed) (ops : List (SOp K)) : Prop :=
  ∀ ops₁ op ops₂, ops = ops₁ ++ op :: ops₂ → ∀ n, 256 ≤ n → ∀ s : St K Unit, ∃ mp os s₁, I.session n sd ops₁ s = .ok ((mp, os), s₁) ∧
    ∀ y, (I.execQ byteHashing n mp op s₁).1.count (.hash y) ≤ 1

theorem SeekLogIn.once {ks : List K} {k : K} {l : List (Use K)} (h : SeekLogIn ks k 1 l) (y : K) : l.count (.hash y) ≤ 1 := by
  obtain ⟨e, rfl, h1, _⟩ := h
  have h2 : e.count (Use.hash y) = 0 := by
    rcases h1 with rfl | ⟨x, _, rfl⟩
    · rfl
    · rw [List.count_singleton]; simp
  rw [List.count_append, h2]
  exact Nat.le_trans (Nat.le_of_eq (Nat.add_zero _)) (Nat.le_trans List.count_le_length (by simp))

theorem PutLogIn.once {ks : List K} {k : K} {l : List (Use K)} (h : PutLogIn ks k 1 0 l) (y : K) : l.count (.hash y) ≤ 1 := by
  obtain ⟨x, h1, h2, h3⟩ := h
  by_cases hy : y = k
  · rw [hy]; exact h2
  · by_cases hx : y = x
    · rw [hx]
      exact (h3 (hx ▸ hy)).2
    · obtain ⟨n, e, rfl, h4⟩ := h1
      have h5 : (Use.hash y) ∉ List.replicate n (Use.hash k) ++ e := by
        intro hm
        rcases List.mem_append.1 hm with hm | hm
        · exact hy (Use.hash.inj (List.mem_replicate.1 hm).2)
        · rcases h4 with rfl | ⟨e', rfl, h5⟩
          · cases hm
          · rcases List.mem_cons.1 hm with hm | hm
            · cases hm
            · rcases h5 _ hm with h | h
              · exact hy (Use.hash.inj h)
              · exact hx (Use.hash.inj h)
      rw [List.count_eq_zero.2 h5]
      omega

theorem hashes_one {n : Nat} (h : n ≤ 16) : hashes n = 1 := by unfold hashes; omega

theorem seek_one {k : K} (y : K) : (List.replicate 1 (Use.hash k) ++ [Use.equal k k]).count (Use.hash y) ≤ 1 :=
  SeekLogIn.once (ks := [k]) (k := k) ⟨_, rfl, Or.inr ⟨k, List.mem_singleton.2 rfl, rfl⟩, fun _ => rfl⟩ y

theorem after_named {ops : List (MOp K V)} {ks : List K} (h : ∀ op ∈ ops, ∀ k ∈ op.names, k ∈ ks) : ∀ k ∈ keysAfter [] ops, k ∈ ks := by
  have : ∀ (ops : List (MOp K V)) (ks' : List K), (∀ op ∈ ops, ∀ k ∈ op.names, k ∈ ks) → (∀ k ∈ ks', k ∈ ks) → ∀ k ∈ keysAfter ks' ops, k ∈ ks := by
    intro ops
    induction ops with
    | nil => exact fun ks' _ h k hk => h k hk
    | cons op ops ih =>
      intro ks' h1 h2 k hk
      refine ih (op.after ks') (fun op' h' => h1 op' (List.mem_cons_of_mem _ h')) (fun x hx => ?_) k hk
      rcases mem_after_stores hx with hx | hx
      · exact h2 x hx
      · exact h1 op List.mem_cons_self x (List.mem_append_right _ hx)
  exact this ops [] h (by simp)

theorem safter_named {H : K → Nat → BitVec 64} {inv : Bool} {ops : List (SOp K)} {ks : List K} (h : ∀ op ∈ ops, ∀ k ∈ op.names, k ∈ ks) :
    ∀ k ∈ elemsAfterX H inv [] ops, k ∈ ks := by
  have : ∀ (ops : List (SOp K)) (ks' : List K), (∀ op ∈ ops, ∀ k ∈ op.names, k ∈ ks) → (∀ k ∈ ks', k ∈ ks) → ∀ k ∈ elemsAfterX H inv ks' ops, k ∈ ks := by
    intro ops
    induction ops with
    | nil => exact fun ks' _ h k hk => h k hk
    | cons op ops ih =>
      intro ks' h1 h2 k hk
      refine ih (op.afterX H inv ks') (fun op' h' => h1 op' (List.mem_cons_of_mem _ h')) (fun x hx => ?_) k hk
      rcases mem_safterX_stores hx with hx | hx
      · exact h2 x hx
      · exact h1 op List.mem_cons_self x (List.mem_append_right _ hx)
  exact this ops [] h (by simp)

/-- Where no two of the keys named in a covered history share 16 nibbles, no call hashes a key twice. -/
theorem once_map {I : MapImpl K V} {sd : Seed} {H : K → Nat → BitVec 64} {P : Bool → List K → K → Prop} {lossy : V → V} {ex : Prop}
    (hc : MapContainer I sd H P lossy ex) (hex : ex) {ops : List (MOp K V)} {ks : List K} (hk : ∀ op ∈ ops, ∀ k ∈ op.names, k ∈ ks)
    (h : EachNew P [] ops) (hm : m ≤ 16) (hcl : clash H m ks = false) : I.Once sd ops := by
  rintro ops₁ op ops₂ rfl n hn s
  have hk₁ : ∀ op ∈ ops₁, ∀ k ∈ op.names, k ∈ ks := fun o ho => hk o (List.mem_append_left _ ho)
  obtain ⟨h1, h2⟩ := EachNew.append.1 h
  obtain ⟨mp, os, s₁, e0, e1, e2, e3, e4, e5⟩ := C93_map hc hex (Or.inl ⟨rfl, rfl⟩ : byteHashing.Fair 0) h1 hn s
  have hnd := nodup_keysAfter (V := V) (ks := []) (by simp) ops₁
  have hin := after_named hk₁
  generalize keysAfter [] ops₁ = ks₁ at e1 e2 e3 e4 e5 h2 hnd hin
  have hop : ∀ k ∈ op.names, k ∈ ks := hk op (by simp)
  have hq : ∀ k ∈ ks, ∀ x ∈ ks, x ≠ k → ∃ i, i < 16 ∧ nibble H k i ≠ nibble H x i := fun k h1 x h2 hne => by
    obtain ⟨i, g1, g2⟩ := clash_false hcl h1 h2 (Ne.symm hne)
    exact ⟨i, by omega, g2⟩
  have hl : ∀ k ∈ ks, hashes (levels H ks₁ k) = 1 := fun k h1 => hashes_one (levels_le_16 hnd fun x hx hne => hq k h1 x (hin x hx) hne)
  have hl' : ∀ k ∈ ks, k ∉ ks₁ → hashes (levels H (k :: ks₁) k) = 1 := fun k h1 hm => hashes_one (levels_le_16 (List.nodup_cons.2 ⟨hm, hnd⟩) fun x hx hne =>
    hq k h1 x ((List.mem_cons.1 hx).elim (fun e => absurd e hne) (hin x)) hne)
  have hseek : ∀ k, op.seeks = some k → ∀ y, (I.execQ byteHashing n mp op s₁).1.count (.hash y) ≤ 1 := fun k hs y => by
    have hm : k ∈ ks := hop k (List.mem_append_left _ (by rw [hs]; simp))
    have := e1 op k hs
    rw [hl k hm] at this
    exact SeekLogIn.once this y
  refine ⟨mp, os, s₁, e0, ?_⟩
  obtain ⟨-, -, -, a1, a2, a3⟩ := C93_any_map I (Or.inl ⟨rfl, rfl⟩ : byteHashing.Fair 0) n mp s₁
  cases op with
  | get k => exact hseek k rfl
  | val k => exact hseek k rfl
  | ptr k => exact hseek k rfl
  | write k v => exact hseek k rfl
  | del k => exact hseek k rfl
  | set k v =>
    have hm : k ∈ ks := hop k (List.mem_append_right _ (List.mem_singleton.2 rfl))
    intro y
    by_cases hks : k ∈ ks₁
    · rw [e2 k v hks, hl k hm]; exact seek_one y
    · have := e4 k v hks (h2.1 k (List.mem_singleton.2 rfl) hks)
      rw [hl' k hm hks] at this
      exact PutLogIn.once this y
  | mod k f =>
    have hm : k ∈ ks := hop k (List.mem_append_right _ (List.mem_singleton.2 rfl))
    intro y
    by_cases hks : k ∈ ks₁
    · rw [e3 k f hks, hl k hm]; exact seek_one y
    · have := e5 k f hks (h2.1 k (List.mem_singleton.2 rfl) hks)
      rw [hl' k hm hks] at this
      exact PutLogIn.once this y
  | len => intro y; rw [a1]; exact Nat.zero_le _
  | dep => intro y; rw [a2]; exact Nat.zero_le _
  | all f => intro y; rw [a3 f]; exact Nat.zero_le _

theorem once_set {I : SetImpl K} {sd : Seed} {H : K → Nat → BitVec 64} {P : List K → K → Prop} {inv : Bool} {ex : Prop}
    (hc : SetContainer I sd H P inv ex) (hex : ex) {ops : List (SOp K)} {ks : List K} (hk : ∀ op ∈ ops, ∀ k ∈ op.names, k ∈ ks)
    (h : SEachNew H inv P [] ops) (hm : m ≤ 16) (hcl : clash H m ks = false) : I.Once sd ops := by
  rintro ops₁ op ops₂ rfl n hn s
  have hk₁ : ∀ op ∈ ops₁, ∀ k ∈ op.names, k ∈ ks := fun o ho => hk o (List.mem_append_left _ ho)
  obtain ⟨h1, h2⟩ := SEachNew.append.1 h
  obtain ⟨mp, os, s₁, e0, e1, e2, e4⟩ := C93_set hc hex (Or.inl ⟨rfl, rfl⟩ : byteHashing.Fair 0) h1 hn s
  have hnd := nodup_elemsAfterX (H := H) inv (ks := []) (by simp) ops₁
  have hin := safter_named (H := H) (inv := inv) hk₁
  generalize elemsAfterX H inv [] ops₁ = ks₁ at e1 e2 e4 h2 hnd hin
  have hop : ∀ k ∈ op.names, k ∈ ks := hk op (by simp)
  have hq : ∀ k ∈ ks, ∀ x ∈ ks, x ≠ k → ∃ i, i < 16 ∧ nibble H k i ≠ nibble H x i := fun k h1 x h2 hne => by
    obtain ⟨i, g1, g2⟩ := clash_false hcl h1 h2 (Ne.symm hne)
    exact ⟨i, by omega, g2⟩
  have hl : ∀ k ∈ ks, hashes (levels H ks₁ k) = 1 := fun k h1 => hashes_one (levels_le_16 hnd fun x hx hne => hq k h1 x (hin x hx) hne)
  have hl' : ∀ k ∈ ks, k ∉ ks₁ → hashes (levels H (k :: ks₁) k) = 1 := fun k h1 hm => hashes_one (levels_le_16 (List.nodup_cons.2 ⟨hm, hnd⟩) fun x hx hne =>
    hq k h1 x ((List.mem_cons.1 hx).elim (fun e => absurd e hne) (hin x)) hne)
  have hseek : ∀ k, op.seeks = some k → ∀ y, (I.execQ byteHashing n mp op s₁).1.count (.hash y) ≤ 1 := fun k hs y => by
    have hm : k ∈ ks := hop k (List.mem_append_left _ (by rw [hs]; simp))
    have := e1 op k hs
    rw [hl k hm] at this
    exact SeekLogIn.once this y
  refine ⟨mp, os, s₁, e0, ?_⟩
  obtain ⟨-, -, a1, a2, a3⟩ := C93_any_set I (Or.inl ⟨rfl, rfl⟩ : byteHashing.Fair 0) n mp s₁
  cases op with
  | has k => exact hseek k rfl
  | del k => exact hseek k rfl
  | add k =>
    have hm : k ∈ ks := hop k (List.mem_append_right _ (List.mem_singleton.2 rfl))
    intro y
    by_cases hks : k ∈ ks₁
    · rw [e2 k hks, hl k hm]; exact seek_one y
    · have := e4 k hks (h2.1 k (List.mem_singleton.2 rfl) hks)
      rw [hl' k hm hks] at this
      exact PutLogIn.once this y
  | len => intro y; rw [a1]; exact Nat.zero_le _
  | dep => intro y; rw [a2]; exact Nat.zero_le _
  | all f => intro y; rw [a3 f]; exact Nat.zero_le _

end

/-! ### C94 -/

section
variable {W V : Type} [Inhabited V] {Ω : List W} {c m : Nat} {sum : W → Maphash} {sd : W → Seed}

theorem small_covered {H : IntKey → Nat → BitVec 64} {ops : List (MOp IntKey V)} {ks : List IntKey} (h : ∀ op ∈ ops, ∀ k ∈ op.names, k ∈ ks)
    (hs : ∀ k ∈ ks, k.toNat < 2 ^ 32) (hm : m ≤ 241) (hc : clash H m ks = false) : EachNew (fun _ => IntSmall H) [] ops :=
  EachNew.of_pairs (S := fun k => k ∈ ks) (fun _ ks' k h1 h2 h3 => ⟨hs k h2, fits_of_clash hm hc h1 h2 h3⟩) (by simp) fun _ hk => stored_named h hk

theorem ssmall_covered {H : IntKey → Nat → BitVec 64} {inv : Bool} {ops : List (SOp IntKey)} {ks : List IntKey} (h : ∀ op ∈ ops, ∀ k ∈ op.names, k ∈ ks)
    (hs : ∀ k ∈ ks, k.toNat < 2 ^ 32) (hm : m ≤ 241) (hc : clash H m ks = false) : SEachNew H inv (IntSmall H) [] ops :=
  SEachNew.of_pairs (S := fun k => k ∈ ks) (fun ks' k h1 h2 h3 => ⟨hs k h2, fits_of_clash hm hc h1 h2 h3⟩) (by simp) fun _ hk => sstored_named h hk

/-- C94.  A history of calls names the keys `ks`, and two of these share their first `m` nibbles with probability at most `c / 16^m` over the hash functions
(or seeds) in `Ω`.  Then for all but a fraction `c n (n - 1) / (2 · 16^m)` of these every call of the history returns what it should, and, if `m` is 16, no
call hashes a key twice. -/
theorem C94_StringMap {ops : List (MOp ByteStr V)} {ks : List ByteStr} (hk : ∀ op ∈ ops, ∀ k ∈ op.names, k ∈ ks)
    (hs : Spread c m Ω (fun w => byteStream (sum w) (sd w) id) ks) (hm : m ≤ 241) :
    ∃ bad, Few Ω c m ks bad ∧ ∀ w ∈ Ω, bad w = false →
      (∀ fuel, 256 ≤ fuel → ∀ s : St ByteStr V, ∃ os s' mp, (StringMap (sum w)).session fuel (sd w) ops s = .ok ((some s.next, os), s') ∧ MRun [] ops os mp) ∧
      (m ≤ 16 → (StringMap (sum w)).Once (sd w) ops) :=
  ⟨fun w => clash (byteStream (sum w) (sd w) id) m ks, clash_count hs (Nat.le_refl m), fun w _ hb =>
    ⟨fun fuel hf s => C01_StringMap (sum w) (sd w) ops (byte_covered hk hm hb) hf s,
      fun h16 => once_map (MapContainer.string (V := V) (sum w) (sd w)) trivial hk (byte_covered hk hm hb) h16 hb⟩⟩

/-- C94 for `BytesMap`. -/
theorem C94_BytesMap {ops : List (MOp ByteStr V)} {ks : List ByteStr} (hk : ∀ op ∈ ops, ∀ k ∈ op.names, k ∈ ks)
    (hs : Spread c m Ω (fun w => byteStream (sum w) (sd w) id) ks) (hm : m ≤ 241) :
    ∃ bad, Few Ω c m ks bad ∧ ∀ w ∈ Ω, bad w = false →
      (∀ fuel, 256 ≤ fuel → ∀ s : St ByteStr V, ∃ os s' mp, (BytesMap (sum w)).session fuel (sd w) ops s = .ok ((some s.next, os), s') ∧ MRun [] ops os mp) ∧
      (m ≤ 16 → (BytesMap (sum w)).Once (sd w) ops) :=
  ⟨fun w => clash (byteStream (sum w) (sd w) id) m ks, clash_count hs (Nat.le_refl m), fun w _ hb =>
    ⟨fun fuel hf s => C02_BytesMap (sum w) (sd w) ops (byte_covered hk hm hb) hf s,
      fun h16 => once_map (MapContainer.bytes (V := V) (sum w) (sd w)) trivial hk (byte_covered hk hm hb) h16 hb⟩⟩

/-- C94 for `ArrMap`, with the defect of C03. -/
theorem C94_ArrMap {K : Type} [DecidableEq K] {kb : K → List UInt8} {ops : List (MOp K V)} {ks : List K} (hk : ∀ op ∈ ops, ∀ k ∈ op.names, k ∈ ks)
    (hs : Spread c m Ω (fun w => byteStream (sum w) (sd w) kb) ks) (hm : m ≤ 241) :
    ∃ bad, Few Ω c m ks bad ∧ ∀ w ∈ Ω, bad w = false →
      (∀ fuel, 256 ≤ fuel → ∀ s : St K V, ∃ os s' mp, (ArrMap (sum w) kb).session fuel (sd w) ops s = .ok ((some s.next, os), s') ∧ RunBy (MStepX (byteStream (sum w) (sd w) kb) True (fun _ => default)) [] ops os mp) ∧
      (m ≤ 16 → (ArrMap (sum w) kb).Once (sd w) ops) :=
  ⟨fun w => clash (byteStream (sum w) (sd w) kb) m ks, clash_count hs (Nat.le_refl m), fun w _ hb =>
    ⟨fun fuel hf s => C03_ArrMap_exact (sum w) (sd w) kb ops (byte_covered hk hm hb) hf s,
      fun h16 => once_map (MapContainer.arr (V := V) (sum w) (sd w) kb) trivial hk (byte_covered hk hm hb) h16 hb⟩⟩

/-- C94 for `IntMap`, with keys in `[0, 2^32)`. -/
theorem C94_IntMap {ops : List (MOp IntKey V)} {ks : List IntKey} (hk : ∀ op ∈ ops, ∀ k ∈ op.names, k ∈ ks) (h32 : ∀ k ∈ ks, k.toNat < 2 ^ 32)
    (hs : Spread c m Ω (fun w => byteStream (sum w) (sd w) intbytes) ks) (hm : m ≤ 241) :
    ∃ bad, Few Ω c m ks bad ∧ ∀ w ∈ Ω, bad w = false →
      (∀ fuel, 256 ≤ fuel → ∀ s : St IntKey V, ∃ os s' mp, (IntMap (sum w)).session fuel (sd w) ops s = .ok ((some s.next, os), s') ∧ MRun [] ops os mp) ∧
      (m ≤ 16 → (IntMap (sum w)).Once (sd w) ops) :=
  ⟨fun w => clash (byteStream (sum w) (sd w) intbytes) m ks, clash_count hs (Nat.le_refl m), fun w _ hb =>
    ⟨fun fuel hf s => C04_IntMap_small (sum w) (sd w) ops (small_covered hk h32 hm hb) hf s,
      fun h16 => once_map (MapContainer.int32 (V := V) (sum w) (sd w)) trivial hk (small_covered hk h32 hm hb) h16 hb⟩⟩

/-- C94 for `StringSet`. -/
theorem C94_StringSet {ops : List (SOp ByteStr)} {ks : List ByteStr} (hk : ∀ op ∈ ops, ∀ k ∈ op.names, k ∈ ks)
    (hs : Spread c m Ω (fun w => byteStream (sum w) (sd w) id) ks) (hm : m ≤ 241) :
    ∃ bad, Few Ω c m ks bad ∧ ∀ w ∈ Ω, bad w = false →
      (∀ fuel, 256 ≤ fuel → ∀ s : St ByteStr Unit, ∃ os s' mp, (StringSet (sum w)).session fuel (sd w) ops s = .ok ((some s.next, os), s') ∧ SRun [] ops os mp) ∧
      (m ≤ 16 → (StringSet (sum w)).Once (sd w) ops) :=
  ⟨fun w => clash (byteStream (sum w) (sd w) id) m ks, clash_count hs (Nat.le_refl m), fun w _ hb =>
    ⟨fun fuel hf s => C06_StringSet (sum w) (sd w) ops (sbyte_covered hk hm hb) hf s,
      fun h16 => once_set (SetContainer.string (sum w) (sd w)) trivial hk (sbyte_covered hk hm hb) h16 hb⟩⟩

/-- C94 for `ArrSet`. -/
theorem C94_ArrSet {K : Type} [DecidableEq K] {kb : K → List UInt8} {ops : List (SOp K)} {ks : List K} (hk : ∀ op ∈ ops, ∀ k ∈ op.names, k ∈ ks)
    (hs : Spread c m Ω (fun w => byteStream (sum w) (sd w) kb) ks) (hm : m ≤ 241) :
    ∃ bad, Few Ω c m ks bad ∧ ∀ w ∈ Ω, bad w = false →
      (∀ fuel, 256 ≤ fuel → ∀ s : St K Unit, ∃ os s' mp, (ArrSet (sum w) kb).session fuel (sd w) ops s = .ok ((some s.next, os), s') ∧ SRun [] ops os mp) ∧
      (m ≤ 16 → (ArrSet (sum w) kb).Once (sd w) ops) :=
  ⟨fun w => clash (byteStream (sum w) (sd w) kb) m ks, clash_count hs (Nat.le_refl m), fun w _ hb =>
    ⟨fun fuel hf s => C07_ArrSet (sum w) (sd w) kb ops (sbyte_covered hk hm hb) hf s,
      fun h16 => once_set (SetContainer.arr (sum w) (sd w) kb) trivial hk (sbyte_covered hk hm hb) h16 hb⟩⟩

/-- C94 for `BytesSet`, with the defect of C08. -/
theorem C94_BytesSet {ops : List (SOp ByteStr)} {ks : List ByteStr} (hk : ∀ op ∈ ops, ∀ k ∈ op.names, k ∈ ks)
    (hs : Spread c m Ω (fun w => byteStream (sum w) (sd w) id) ks) (hm : m ≤ 241) :
    ∃ bad, Few Ω c m ks bad ∧ ∀ w ∈ Ω, bad w = false →
      (∀ fuel, 256 ≤ fuel → ∀ s : St ByteStr Unit, ∃ os s' mp, (BytesSet (sum w)).session fuel (sd w) ops s = .ok ((some s.next, os), s') ∧ SRunBy (SStepX (byteStream (sum w) (sd w) id) True true) [] ops os mp) ∧
      (m ≤ 16 → (BytesSet (sum w)).Once (sd w) ops) :=
  ⟨fun w => clash (byteStream (sum w) (sd w) id) m ks, clash_count hs (Nat.le_refl m), fun w _ hb =>
    ⟨fun fuel hf s => C08_BytesSet_exact (sum w) (sd w) ops (sbyte_covered hk hm hb) hf s,
      fun h16 => once_set (SetContainer.bytes (sum w) (sd w)) trivial hk (sbyte_covered hk hm hb) h16 hb⟩⟩

/-- C94 for `IntSet`, with keys in `[0, 2^32)`. -/
theorem C94_IntSet {ops : List (SOp IntKey)} {ks : List IntKey} (hk : ∀ op ∈ ops, ∀ k ∈ op.names, k ∈ ks) (h32 : ∀ k ∈ ks, k.toNat < 2 ^ 32)
    (hs : Spread c m Ω (fun w => byteStream (sum w) (sd w) intbytes) ks) (hm : m ≤ 241) :
    ∃ bad, Few Ω c m ks bad ∧ ∀ w ∈ Ω, bad w = false →
      (∀ fuel, 256 ≤ fuel → ∀ s : St IntKey Unit, ∃ os s' mp, (IntSet (sum w)).session fuel (sd w) ops s = .ok ((some s.next, os), s') ∧ SRun [] ops os mp) ∧
      (m ≤ 16 → (IntSet (sum w)).Once (sd w) ops) :=
  ⟨fun w => clash (byteStream (sum w) (sd w) intbytes) m ks, clash_count hs (Nat.le_refl m), fun w _ hb =>
    ⟨fun fuel hf s => C09_IntSet_small (sum w) (sd w) ops (ssmall_covered hk h32 hm hb) hf s,
      fun h16 => once_set (SetContainer.int32 (sum w) (sd w)) trivial hk (ssmall_covered hk h32 hm hb) h16 hb⟩⟩

/-- C94 for a random hash function: of all functions from the keys named to 64-bit digests, at most one in `2^65 / (n (n - 1))` makes a call of a
`StringMap` go wrong or hash a key twice. -/
theorem C94_random (sd : Seed) {ops : List (MOp ByteStr V)} {ks : List ByteStr} (hk : ∀ op ∈ ops, ∀ k ∈ op.names, k ∈ ks) :
    ∃ bad : List (BitVec 64) → Bool, 2 ^ 65 * (allHashes ks).countP bad ≤ ks.length * (ks.length - 1) * (2 ^ 64) ^ ks.length ∧
      ∀ v ∈ allHashes ks, bad v = false →
        (∀ fuel, 256 ≤ fuel → ∀ s : St ByteStr V, ∃ os s' mp, (StringMap (tableHash ks v)).session fuel sd ops s = .ok ((some s.next, os), s') ∧ MRun [] ops os mp) ∧
        (StringMap (tableHash ks v)).Once sd ops := by
  obtain ⟨bad, h1, h2⟩ := C94_StringMap (sum := fun v => tableHash ks v) (sd := fun _ => sd) hk (spread_all ks sd) (by decide)
  refine ⟨bad, ?_, fun v hv hb => ⟨(h2 v hv hb).1, (h2 v hv hb).2 (Nat.le_refl _)⟩⟩
  have h3 : 2 * (16 ^ 16 * (allHashes ks).countP bad) ≤ ks.length * (ks.length - 1) * (1 * (allHashes ks).length) := h1
  rw [← Nat.mul_assoc, Nat.one_mul, show (allHashes ks).length = (2 ^ 64) ^ ks.length by
    rw [allHashes, length_vecs, digests, List.length_map, List.length_range]] at h3
  exact h3

end

/-! ### Instances -/

/-- A short history with two keys. -/
def twoOps {K : Type} (a b : K) : List (MOp K Nat) := [.set a 1, .set b 2, .get a, .del b, .mod b fun v _ => v + 1]

def twoOpsS {K : Type} (a b : K) : List (SOp K) := [.add a, .add b, .has a, .del b, .add b]

theorem twoOps_names {K : Type} (a b : K) : ∀ op ∈ twoOps a b, ∀ k ∈ op.names, k ∈ [a, b] := by
  intro op hop k hk
  simp only [twoOps, List.mem_cons, List.not_mem_nil, or_false] at hop
  rcases hop with rfl | rfl | rfl | rfl | rfl <;> simp [MOp.names, MOp.seeks, MOp.stores] at hk <;> simp [hk]

theorem twoOpsS_names {K : Type} (a b : K) : ∀ op ∈ twoOpsS a b, ∀ k ∈ op.names, k ∈ [a, b] := by
  intro op hop k hk
  simp only [twoOpsS, List.mem_cons, List.not_mem_nil, or_false] at hop
  rcases hop with rfl | rfl | rfl | rfl | rfl <;> simp [SOp.names, SOp.seeks, SOp.stores] at hk <;> simp [hk]

theorem two_spread : Spread 1 1 exSeeds (fun sd => byteStream affineHash sd id) [strKey 0x01, strKey 0x12] := by decide +kernel

/-- One of the sixteen functions is bad for these keys, so the bound is attained. -/
example : exSeeds.length = 16 ∧ exSeeds.countP (fun sd => clash (byteStream affineHash sd id) 1 [strKey 0x01, strKey 0x12]) = 1 := by decide +kernel

example := C94_StringMap (c := 1) (Ω := exSeeds) (sum := fun _ => affineHash) (sd := fun sd => sd) (twoOps_names (strKey 0x01) (strKey 0x12)) two_spread (by decide)
example := C94_BytesMap (c := 1) (Ω := exSeeds) (sum := fun _ => affineHash) (sd := fun sd => sd) (twoOps_names (strKey 0x01) (strKey 0x12)) two_spread (by decide)
example := C94_ArrMap (c := 1) (Ω := exSeeds) (sum := fun _ => affineHash) (sd := fun sd => sd) (kb := id) (twoOps_names (strKey 0x01) (strKey 0x12)) two_spread (by decide)
example := C94_StringSet (c := 1) (Ω := exSeeds) (sum := fun _ => affineHash) (sd := fun sd => sd) (twoOpsS_names (strKey 0x01) (strKey 0x12)) two_spread (by decide)
example := C94_BytesSet (c := 1) (Ω := exSeeds) (sum := fun _ => affineHash) (sd := fun sd => sd) (twoOpsS_names (strKey 0x01) (strKey 0x12)) two_spread (by decide)
example := C94_ArrSet (c := 1) (Ω := exSeeds) (sum := fun _ => affineHash) (sd := fun sd => sd) (kb := id) (twoOpsS_names (strKey 0x01) (strKey 0x12)) two_spread (by decide)

theorem two_spread_int : Spread 1 1 exSeeds (fun sd => byteStream affineHash sd intbytes) [0x01#64, 0x12#64] := by decide +kernel

theorem two_small : ∀ k ∈ [0x01#64, 0x12#64], k.toNat < 2 ^ 32 := by simp

example := C94_IntMap (c := 1) (Ω := exSeeds) (sum := fun _ => affineHash) (sd := fun sd => sd) (twoOps_names 0x01#64 0x12#64) two_small two_spread_int (by decide)
example := C94_IntSet (c := 1) (Ω := exSeeds) (sum := fun _ => affineHash) (sd := fun sd => sd) (twoOpsS_names 0x01#64 0x12#64) two_small two_spread_int (by decide)

/-- With a million keys, fewer than one function in thirty million is bad. -/
example (sd : Seed) {ops : List (MOp ByteStr Nat)} {ks : List ByteStr} (hk : ∀ op ∈ ops, ∀ k ∈ op.names, k ∈ ks) (hn : ks.length = 10 ^ 6) :
    ∃ bad : List (BitVec 64) → Bool, 3 * 10 ^ 7 * (allHashes ks).countP bad ≤ (allHashes ks).length ∧
      ∀ v ∈ allHashes ks, bad v = false → (StringMap (V := Nat) (tableHash ks v)).Once sd ops := by
  obtain ⟨bad, h, h'⟩ := C94_random sd hk
  refine ⟨bad, ?_, fun v hv hb => (h' v hv hb).2⟩
  rw [show (2 ^ 64) ^ ks.length = (allHashes ks).length by rw [allHashes, length_vecs, digests, List.length_map, List.length_range], hn] at h
  omega

end Amt
