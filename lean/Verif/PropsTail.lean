/-
C95: for almost all hash functions of a family, no call of a history is slow.
-/
import Verif.PropsOnce
import Verif.PropsCostTotal

set_option linter.unusedVariables false
set_option linter.unusedSectionVars false

namespace Spec
open Amt

/-- The most accesses to memory that a call makes if no search visits more than `j` levels and `N` keys are stored. -/
def MOp.ceiling {K V : Type} (j N : Nat) : MOp K V → Nat
  | .get _ => 10 + 13 * j
  | .val _ => 10 + 13 * j
  | .ptr _ => 10 + 13 * j
  | .write _ _ => 10 + 13 * j
  | .set _ _ => 900 + 21 * j
  | .mod _ _ => 902 + 21 * j
  | .del _ => 700 + 52 * j
  | .len => 1
  | .dep => 1
  | .all _ => 6 + (9 + 5 * j) * N

/-- As `MOp.ceiling`, for sets. -/
def SOp.ceiling {K : Type} (j N : Nat) : SOp K → Nat
  | .has _ => 10 + 13 * j
  | .add _ => 900 + 21 * j
  | .del _ => 700 + 52 * j
  | .len => 1
  | .dep => 1
  | .all _ => 6 + (9 + 5 * j) * N

end Spec

namespace Amt.Par
open Amt Spec

section
variable {K V : Type} [DecidableEq K] {j m c : Nat}

/-- Where no other key shares `j` nibbles, a search visits at most `j` levels. -/
theorem levels_few {H : K → Nat → BitVec 64} {ks : List K} {k : K} (hj : 1 ≤ j) (hj' : j ≤ 256) (hn : ks.Nodup)
    (h : ∀ x ∈ ks, x ≠ k → ∃ i, i < j ∧ nibble H k i ≠ nibble H x i) : levels H ks k ≤ j := by
  have h1 := levels_crowded (k := k) (H := H) hn
  have h2 : ∀ i, j ≤ i → crowded H ks k i = false := fun i hi => by
    rw [crowded, List.any_eq_false]
    intro x hx
    obtain ⟨g1, g2⟩ := List.mem_filter.1 hx
    obtain ⟨i', g3, g4⟩ := h x g1 (of_decide_eq_true g2)
    rw [decide_eq_true_eq]
    exact fun g => g4 (g i' (by omega))
  have h3 : ((List.range 256).map fun i => (crowded H ks k (i + 1)).toNat).sum ≤ j - 1 := by
    rw [show List.range 256 = List.range (j - 1) ++ (List.range (257 - j)).map (fun i => (j - 1) + i) by
      rw [← List.range_add]; congr 1; omega, List.map_append, List.sum_append]
    have h4 : (((List.range (257 - j)).map (fun i => (j - 1) + i)).map fun i => (crowded H ks k (i + 1)).toNat).sum = 0 := by
      rw [List.map_map]
      show ((List.range (257 - j)).map fun i => (crowded H ks k (j - 1 + i + 1)).toNat).sum = 0
      rw [← length_filter_eq (α := Nat), List.length_eq_zero_iff, List.filter_eq_nil_iff]
      intro i _
      rw [h2 _ (by omega)]
      simp
    have h5 : ((List.range (j - 1)).map fun i => (crowded H ks k (i + 1)).toNat).sum ≤ j - 1 := by
      rw [← length_filter_eq (α := Nat)]
      exact Nat.le_trans (List.length_filter_le _ _) (by simp)
    omega
  omega

/-- Without a clash, a call costs at most `ceiling`. -/
theorem accesses_ceiling {H : K → Nat → BitVec 64} {U ks : List K} (hj : 1 ≤ j) (hj' : j ≤ 241) (hcl : clash H j U = false) (hn : ks.Nodup) (hU : ∀ x ∈ ks, x ∈ U)
    (op : MOp K V) (hop : ∀ k ∈ op.names, k ∈ U) : op.accesses H ks ≤ op.ceiling j ks.length := by
  have old : ∀ k ∈ U, levels H ks k ≤ j := fun k hk =>
    levels_few hj (by omega) hn fun x hx hne => clash_false hcl hk (hU x hx) (Ne.symm hne)
  have new : ∀ k ∈ U, levels H (if k ∈ ks then ks else k :: ks) k ≤ j := fun k hk => by
    split
    · exact old k hk
    · next h =>
      exact levels_few hj (by omega) (List.nodup_cons.2 ⟨h, hn⟩) fun x hx hne =>
        clash_false hcl hk ((List.mem_cons.1 hx).elim (fun e => absurd e hne) (hU x)) (Ne.symm hne)
  have hop' : ∀ {k}, op.names = [k] → k ∈ U := fun h => hop _ (by rw [h]; exact List.mem_singleton.2 rfl)
  cases op with
  | get k => have := old k (hop' rfl); show 10 + 13 * _ ≤ 10 + 13 * j; omega
  | val k => have := old k (hop' rfl); show 10 + 13 * _ ≤ 10 + 13 * j; omega
  | ptr k => have := old k (hop' rfl); show 10 + 13 * _ ≤ 10 + 13 * j; omega
  | write k v => have := old k (hop' rfl); show 10 + 13 * _ ≤ 10 + 13 * j; omega
  | set k v => have := new k (hop' rfl); show 900 + 21 * _ ≤ 900 + 21 * j; omega
  | mod k f => have := new k (hop' rfl); show 902 + 21 * _ ≤ 902 + 21 * j; omega
  | del k => have := old k (hop' rfl); show 700 + 52 * _ ≤ 700 + 52 * j; omega
  | len => exact Nat.le_refl _
  | dep => exact Nat.le_refl _
  | all f =>
    have h1 : depthSum H ks ≤ ks.length * (j - 1) := by
      rw [depthSum]
      refine Nat.le_trans (sum_le_sum (g := fun _ => j - 1) fun x hx => ?_) (by rw [sum_const, Nat.mul_comm]; exact Nat.le_refl _)
      have h2 := old x (hU x hx)
      rw [levels_stored hn hx] at h2
      omega
    show 6 + 14 * ks.length + 5 * depthSum H ks ≤ 6 + (9 + 5 * j) * ks.length
    obtain ⟨i, rfl⟩ : ∃ i, j = i + 1 := ⟨j - 1, by omega⟩
    rw [Nat.add_sub_cancel, Nat.mul_comm] at h1
    grind

theorem ceiling_std {op : MOp K V} (h : op.isAll = false) (N : Nat) : op.ceiling j N ≤ 902 + 52 * j := by
  cases op <;> simp only [MOp.ceiling, MOp.isAll] at h ⊢ <;> first | omega | cases h

theorem asMap_ceiling (op : SOp K) (N : Nat) : op.asMap.ceiling j N = op.ceiling j N := by cases op <;> rfl

theorem asMap_names (op : SOp K) : op.asMap.names = op.names := by cases op <;> rfl

/-- All calls of the history are swift: each makes at most as many accesses to memory as `ceiling` says, after the calls before it, and leaves the rest
to no other call; the whole makes at most `4 + N (902 + 52 j)`, if it has `N` calls, none of them of `All`. -/
structure MapSwift [Inhabited V] (G : MapTree K V) (C : Go.MapCode K V) (sd : Seed) (j : Nat) (ops : List (MOp K V)) : Prop where
  each : ∀ ops₁ op ops₂, ops = ops₁ ++ op :: ops₂ → ∀ n, 256 ≤ n → ∀ s : St K V, Go.Tidy s → ∃ os s₁, C.session n sd ops₁ s = .ok ((some s.next, os), s₁) ∧
    ∀ path : List PathLink, path.length = 12 → (G.exec n (some s.next) path op).cost Price.access s₁ ≤ op.ceiling j (keysAfter [] ops₁).length
  total : (∀ op ∈ ops, op.isAll = false) → ∀ n, 256 ≤ n → ∀ s : St K V, Go.Tidy s →
    (∃ r, (G.session n sd ops).denote s = .ok r ∧ C.session n sd ops s = .ok r) ∧ (G.session n sd ops).cost Price.access s ≤ 4 + ops.length * (902 + 52 * j)

/-- As `MapSwift`, for sets; `inv` as in `elemsAfterX`. -/
structure SetSwift (G : SetTree K) (C : Go.SetCode K) (sd : Seed) (H : K → Nat → BitVec 64) (inv : Bool) (j : Nat) (ops : List (SOp K)) : Prop where
  each : ∀ ops₁ op ops₂, ops = ops₁ ++ op :: ops₂ → ∀ n, 256 ≤ n → ∀ s : St K Unit, Go.Tidy s → ∃ os s₁, C.session n sd ops₁ s = .ok ((some s.next, os), s₁) ∧
    ∀ path : List PathLink, path.length = 12 → (G.exec n (some s.next) path op).cost Price.access s₁ ≤ op.ceiling j (elemsAfterX H inv [] ops₁).length
  total : (∀ op ∈ ops, op.asMap.isAll = false) → ∀ n, 256 ≤ n → ∀ s : St K Unit, Go.Tidy s →
    (∃ r, (G.session n sd ops).denote s = .ok r ∧ C.session n sd ops s = .ok r) ∧ (G.session n sd ops).cost Price.access s ≤ 4 + ops.length * (902 + 52 * j)

end

section
variable {K V : Type} [DecidableEq K] [Inhabited V] {G : MapTree K V} {C : Go.MapCode K V} {I : MapImpl K V} {GS : SetTree K} {CS : Go.SetCode K} {IS : SetImpl K} {j : Nat}

theorem accesses_total {H : K → Nat → BitVec 64} {U : List K} (hj : 1 ≤ j) (hj' : j ≤ 241) (hcl : clash H j U = false) : ∀ {ops : List (MOp K V)} {ks : List K},
    ks.Nodup → (∀ x ∈ ks, x ∈ U) → (∀ op ∈ ops, ∀ k ∈ op.names, k ∈ U) → (∀ op ∈ ops, op.isAll = false) → accesses H ks ops ≤ ops.length * (902 + 52 * j) := by
  intro ops
  induction ops with
  | nil => intro ks _ _ _ _; exact Nat.zero_le _
  | cons op ops ih =>
    intro ks hn hU hop ha
    have h1 := Nat.le_trans (accesses_ceiling hj hj' hcl hn hU op (hop op List.mem_cons_self)) (ceiling_std (ha op List.mem_cons_self) _)
    have h2 := ih (ks := op.after ks) (nodup_keysAfter hn [op]) (fun x hx => by
        have : x ∈ ks ∨ x ∈ op.names := by
          cases op <;> simp only [MOp.after, MOp.names, MOp.seeks, MOp.stores] at hx ⊢ <;> first
            | exact Or.inl hx
            | exact Or.inl (List.mem_filter.1 hx).1
            | (split at hx
               · exact Or.inl hx
               · rcases List.mem_cons.1 hx with rfl | hx
                 · exact Or.inr (by simp)
                 · exact Or.inl hx)
        exact this.elim (hU x) (hop op List.mem_cons_self x)) (fun o ho => hop o (List.mem_cons_of_mem _ ho)) (fun o ho => ha o (List.mem_cons_of_mem _ ho))
    rw [accesses, List.length_cons, Nat.succ_mul]
    omega

theorem swift_map {sd : Seed} {H : K → Nat → BitVec 64} {P : Bool → List K → K → Prop} {lossy : V → V} {ex : Prop} (hA : MapAll G C I)
    (hc : MapContainer I sd H P lossy ex) (hex : ex) {ops : List (MOp K V)} {ks : List K} (hk : ∀ op ∈ ops, ∀ k ∈ op.names, k ∈ ks) (h : EachNew P [] ops)
    (hj : 1 ≤ j) (hj' : j ≤ 241) (hcl : clash H j ks = false) : MapSwift G C sd j ops where
  each := by
    rintro ops₁ op ops₂ rfl n hn s hs
    have hk₁ : ∀ op ∈ ops₁, ∀ k ∈ op.names, k ∈ ks := fun o ho => hk o (List.mem_append_left _ ho)
    obtain ⟨h1, h2⟩ := EachNew.append.1 h
    obtain ⟨m, os, s₁, e, -⟩ := C90_map_after hA hc h1 hn hs
    obtain ⟨s', e0⟩ : ∃ s', (newRoot sd : M K V Handle) s = .ok (some s.next, s') := ⟨_, rfl⟩
    have hm : m = some s.next := by
      have e' := e
      rw [Go.MapCode.session, bind_ok e0] at e'
      cases e1 : C.run n (some s.next) blank ops₁ s' with
      | error x => rw [bind_err e1] at e'; cases e'
      | ok y => rw [bind_ok e1] at e'; cases e'; rfl
    subst hm
    refine ⟨os, s₁, e, fun path hp => Nat.le_trans (exec_cost hA hc hex h1 h2.1 hn hs hp e) ?_⟩
    exact accesses_ceiling hj hj' hcl (nodup_keysAfter (by simp) ops₁) (after_named hk₁) op (hk op (by simp))
  total := fun ha n hn s hs => by
    obtain ⟨h1, h2⟩ := C92_map hA hc hex h hn hs
    exact ⟨h1, Nat.le_trans h2 (Nat.add_le_add_left (accesses_total hj hj' hcl (by simp) (by simp) hk ha) 4)⟩

theorem accessesX_total {H : K → Nat → BitVec 64} {inv : Bool} {U : List K} (hj : 1 ≤ j) (hj' : j ≤ 241) (hcl : clash H j U = false) : ∀ {ops : List (SOp K)} {ks : List K},
    ks.Nodup → (∀ x ∈ ks, x ∈ U) → (∀ op ∈ ops, ∀ k ∈ op.names, k ∈ U) → (∀ op ∈ ops, op.asMap.isAll = false) →
      accessesX H inv ks ops ≤ ops.length * (902 + 52 * j) := by
  intro ops
  induction ops with
  | nil => intro ks _ _ _ _; exact Nat.zero_le _
  | cons op ops ih =>
    intro ks hn hU hop ha
    have h1 := Nat.le_trans (accesses_ceiling hj hj' hcl hn hU op.asMap (by rw [asMap_names]; exact hop op List.mem_cons_self)) (ceiling_std (ha op List.mem_cons_self) _)
    have h2 := ih (ks := op.afterX H inv ks) (nodup_elemsAfterX inv hn [op]) (fun x hx => by
        exact (mem_safterX_stores hx).elim (hU x) fun h => hop op List.mem_cons_self x (List.mem_append_right _ h)) (fun o ho => hop o (List.mem_cons_of_mem _ ho)) (fun o ho => ha o (List.mem_cons_of_mem _ ho))
    rw [accessesX, List.length_cons, Nat.succ_mul]
    omega

theorem swift_set {sd : Seed} {H : K → Nat → BitVec 64} {P : List K → K → Prop} {inv : Bool} {ex : Prop} (hA : SetAll GS CS IS)
    (hc : SetContainer IS sd H P inv ex) (hex : ex) {ops : List (SOp K)} {ks : List K} (hk : ∀ op ∈ ops, ∀ k ∈ op.names, k ∈ ks) (h : SEachNew H inv P [] ops)
    (hj : 1 ≤ j) (hj' : j ≤ 241) (hcl : clash H j ks = false) : SetSwift GS CS sd H inv j ops where
  each := by
    rintro ops₁ op ops₂ rfl n hn s hs
    have hk₁ : ∀ op ∈ ops₁, ∀ k ∈ op.names, k ∈ ks := fun o ho => hk o (List.mem_append_left _ ho)
    obtain ⟨h1, h2⟩ := SEachNew.append.1 h
    obtain ⟨m, os, s₁, e, -⟩ := C90_set_after hA hc h1 hn hs
    obtain ⟨s', e0⟩ : ∃ s', (newRoot sd : M K Unit Handle) s = .ok (some s.next, s') := ⟨_, rfl⟩
    have hm : m = some s.next := by
      have e' := e
      rw [Go.SetCode.session, bind_ok e0] at e'
      cases e1 : CS.run n (some s.next) blank ops₁ s' with
      | error x => rw [bind_err e1] at e'; cases e'
      | ok y => rw [bind_ok e1] at e'; cases e'; rfl
    subst hm
    refine ⟨os, s₁, e, fun path hp => Nat.le_trans (execS_cost hA hc hex h1 h2.1 hn hs hp e) ?_⟩
    rw [← asMap_ceiling]
    exact accesses_ceiling hj hj' hcl (nodup_elemsAfterX inv (by simp) ops₁) (safter_named hk₁) op.asMap (by rw [asMap_names]; exact hk op (by simp))
  total := fun ha n hn s hs => by
    obtain ⟨h1, h2⟩ := C92_set hA hc hex h hn hs
    exact ⟨h1, Nat.le_trans h2 (Nat.add_le_add_left (accessesX_total hj hj' hcl (by simp) (by simp) hk ha) 4)⟩

end

/-! ### C95 -/

section
variable {W V : Type} [Inhabited V] {Ω : List W} {c m j : Nat} {sum : W → Maphash} {sd : W → Seed}

/-- C95.  A history of calls names the keys `ks`, and two of these share their first `i` nibbles with probability at most `c / 16^i` over the hash functions
(or seeds) in `Ω`, for `i` up to `m`.  Then, for every `j` from 1 to `m`, all calls are swift (`MapSwift`) for all but a fraction `c n (n - 1) / (2 · 16^j)`
of these. -/
theorem C95_StringMap {ops : List (MOp ByteStr V)} {ks : List ByteStr} (hk : ∀ op ∈ ops, ∀ k ∈ op.names, k ∈ ks)
    (hs : Spread c m Ω (fun w => byteStream (sum w) (sd w) id) ks) (h1 : 1 ≤ j) (hj : j ≤ m) (hj' : j ≤ 241) :
    ∃ bad, Few Ω c j ks bad ∧ ∀ w ∈ Ω, bad w = false → MapSwift (V := V) (stringMap (sum w)) (Go.stringMap (sum w)) (sd w) j ops :=
  ⟨fun w => clash (byteStream (sum w) (sd w) id) j ks, clash_count hs hj, fun w _ hb =>
    swift_map (MapAll.string (sum w)) (MapContainer.string (V := V) (sum w) (sd w)) trivial hk (byte_covered hk hj' hb) h1 hj' hb⟩

/-- C95 for `BytesMap`. -/
theorem C95_BytesMap {ops : List (MOp ByteStr V)} {ks : List ByteStr} (hk : ∀ op ∈ ops, ∀ k ∈ op.names, k ∈ ks)
    (hs : Spread c m Ω (fun w => byteStream (sum w) (sd w) id) ks) (h1 : 1 ≤ j) (hj : j ≤ m) (hj' : j ≤ 241) :
    ∃ bad, Few Ω c j ks bad ∧ ∀ w ∈ Ω, bad w = false → MapSwift (V := V) (bytesMap (sum w)) (Go.bytesMap (sum w)) (sd w) j ops :=
  ⟨fun w => clash (byteStream (sum w) (sd w) id) j ks, clash_count hs hj, fun w _ hb =>
    swift_map (MapAll.bytes (sum w)) (MapContainer.bytes (V := V) (sum w) (sd w)) trivial hk (byte_covered hk hj' hb) h1 hj' hb⟩

/-- C95 for `ArrMap`. -/
theorem C95_ArrMap {K : Type} [DecidableEq K] {kb : K → List UInt8} {ops : List (MOp K V)} {ks : List K} (hk : ∀ op ∈ ops, ∀ k ∈ op.names, k ∈ ks)
    (hs : Spread c m Ω (fun w => byteStream (sum w) (sd w) kb) ks) (h1 : 1 ≤ j) (hj : j ≤ m) (hj' : j ≤ 241) :
    ∃ bad, Few Ω c j ks bad ∧ ∀ w ∈ Ω, bad w = false → MapSwift (V := V) (arrMap (sum w) kb) (Go.arrMap (sum w) kb) (sd w) j ops :=
  ⟨fun w => clash (byteStream (sum w) (sd w) kb) j ks, clash_count hs hj, fun w _ hb =>
    swift_map (MapAll.arr (sum w) kb) (MapContainer.arr (V := V) (sum w) (sd w) kb) trivial hk (byte_covered hk hj' hb) h1 hj' hb⟩

/-- C95 for `IntMap`, with keys in `[0, 2^32)`. -/
theorem C95_IntMap {ops : List (MOp IntKey V)} {ks : List IntKey} (hk : ∀ op ∈ ops, ∀ k ∈ op.names, k ∈ ks) (h32 : ∀ k ∈ ks, k.toNat < 2 ^ 32)
    (hs : Spread c m Ω (fun w => byteStream (sum w) (sd w) intbytes) ks) (h1 : 1 ≤ j) (hj : j ≤ m) (hj' : j ≤ 241) :
    ∃ bad, Few Ω c j ks bad ∧ ∀ w ∈ Ω, bad w = false → MapSwift (V := V) (intMap (sum w)) (Go.intMap (sum w)) (sd w) j ops :=
  ⟨fun w => clash (byteStream (sum w) (sd w) intbytes) j ks, clash_count hs hj, fun w _ hb =>
    swift_map (MapAll.int (sum w)) (MapContainer.int32 (V := V) (sum w) (sd w)) trivial hk (small_covered hk h32 hj' hb) h1 hj' hb⟩

/-- C95 for `StringSet`. -/
theorem C95_StringSet {ops : List (SOp ByteStr)} {ks : List ByteStr} (hk : ∀ op ∈ ops, ∀ k ∈ op.names, k ∈ ks)
    (hs : Spread c m Ω (fun w => byteStream (sum w) (sd w) id) ks) (h1 : 1 ≤ j) (hj : j ≤ m) (hj' : j ≤ 241) :
    ∃ bad, Few Ω c j ks bad ∧ ∀ w ∈ Ω, bad w = false →
      SetSwift (stringSet (sum w)) (Go.stringSet (sum w)) (sd w) (byteStream (sum w) (sd w) id) false j ops :=
  ⟨fun w => clash (byteStream (sum w) (sd w) id) j ks, clash_count hs hj, fun w _ hb =>
    swift_set (SetAll.string (sum w)) (SetContainer.string (sum w) (sd w)) trivial hk (sbyte_covered hk hj' hb) h1 hj' hb⟩

/-- C95 for `BytesSet`, whose `Del` removes other elements (C08). -/
theorem C95_BytesSet {ops : List (SOp ByteStr)} {ks : List ByteStr} (hk : ∀ op ∈ ops, ∀ k ∈ op.names, k ∈ ks)
    (hs : Spread c m Ω (fun w => byteStream (sum w) (sd w) id) ks) (h1 : 1 ≤ j) (hj : j ≤ m) (hj' : j ≤ 241) :
    ∃ bad, Few Ω c j ks bad ∧ ∀ w ∈ Ω, bad w = false →
      SetSwift (bytesSet (sum w)) (Go.bytesSet (sum w)) (sd w) (byteStream (sum w) (sd w) id) true j ops :=
  ⟨fun w => clash (byteStream (sum w) (sd w) id) j ks, clash_count hs hj, fun w _ hb =>
    swift_set (SetAll.bytes (sum w)) (SetContainer.bytes (sum w) (sd w)) trivial hk (sbyte_covered hk hj' hb) h1 hj' hb⟩

/-- C95 for `ArrSet`. -/
theorem C95_ArrSet {K : Type} [DecidableEq K] {kb : K → List UInt8} {ops : List (SOp K)} {ks : List K} (hk : ∀ op ∈ ops, ∀ k ∈ op.names, k ∈ ks)
    (hs : Spread c m Ω (fun w => byteStream (sum w) (sd w) kb) ks) (h1 : 1 ≤ j) (hj : j ≤ m) (hj' : j ≤ 241) :
    ∃ bad, Few Ω c j ks bad ∧ ∀ w ∈ Ω, bad w = false →
      SetSwift (arrSet (sum w) kb) (Go.arrSet (sum w) kb) (sd w) (byteStream (sum w) (sd w) kb) false j ops :=
  ⟨fun w => clash (byteStream (sum w) (sd w) kb) j ks, clash_count hs hj, fun w _ hb =>
    swift_set (SetAll.arr (sum w) kb) (SetContainer.arr (sum w) (sd w) kb) trivial hk (sbyte_covered hk hj' hb) h1 hj' hb⟩

/-- C95 for `IntSet`, with keys in `[0, 2^32)`. -/
theorem C95_IntSet {ops : List (SOp IntKey)} {ks : List IntKey} (hk : ∀ op ∈ ops, ∀ k ∈ op.names, k ∈ ks) (h32 : ∀ k ∈ ks, k.toNat < 2 ^ 32)
    (hs : Spread c m Ω (fun w => byteStream (sum w) (sd w) intbytes) ks) (h1 : 1 ≤ j) (hj : j ≤ m) (hj' : j ≤ 241) :
    ∃ bad, Few Ω c j ks bad ∧ ∀ w ∈ Ω, bad w = false →
      SetSwift (intSet (sum w)) (Go.intSet (sum w)) (sd w) (byteStream (sum w) (sd w) intbytes) false j ops :=
  ⟨fun w => clash (byteStream (sum w) (sd w) intbytes) j ks, clash_count hs hj, fun w _ hb =>
    swift_set (SetAll.int (sum w)) (SetContainer.int32 (sum w) (sd w)) trivial hk (ssmall_covered hk h32 hj' hb) h1 hj' hb⟩

/-- C95 for a random hash function: with up to `2^20` keys, for all but one in `2^9` of the functions from the keys to 64-bit digests, no call of `Get` makes
more than 166 accesses to memory, at any time in the history, and no call of `Set` more than 1152. -/
theorem C95_random (sd : Seed) {ops : List (MOp ByteStr V)} {ks : List ByteStr} (hk : ∀ op ∈ ops, ∀ k ∈ op.names, k ∈ ks) (hn : ks.length ≤ 2 ^ 20) :
    ∃ bad : List (BitVec 64) → Bool, 2 ^ 9 * (allHashes ks).countP bad ≤ (allHashes ks).length ∧ ∀ v ∈ allHashes ks, bad v = false →
      MapSwift (V := V) (stringMap (tableHash ks v)) (Go.stringMap (tableHash ks v)) sd 12 ops := by
  obtain ⟨bad, h1, h2⟩ := C95_StringMap (V := V) (j := 12) (sum := fun v => tableHash ks v) (sd := fun _ => sd) hk (spread_all ks sd) (by decide) (by decide) (by decide)
  refine ⟨bad, ?_, h2⟩
  have h3 : 2 * (16 ^ 12 * (allHashes ks).countP bad) ≤ ks.length * (ks.length - 1) * (1 * (allHashes ks).length) := h1
  have h4 : ks.length * (ks.length - 1) ≤ 2 ^ 20 * 2 ^ 20 := Nat.mul_le_mul hn (by omega)
  have h5 := Nat.le_trans h3 (Nat.mul_le_mul_right _ h4)
  omega

end

/-! ### Instances -/

example := C95_StringMap (c := 1) (j := 1) (Ω := exSeeds) (sum := fun _ => affineHash) (sd := fun sd => sd) (twoOps_names (strKey 0x01) (strKey 0x12)) two_spread (by decide) (by decide) (by decide)
example := C95_BytesMap (c := 1) (j := 1) (Ω := exSeeds) (sum := fun _ => affineHash) (sd := fun sd => sd) (twoOps_names (strKey 0x01) (strKey 0x12)) two_spread (by decide) (by decide) (by decide)
example := C95_ArrMap (c := 1) (j := 1) (Ω := exSeeds) (sum := fun _ => affineHash) (sd := fun sd => sd) (kb := id) (twoOps_names (strKey 0x01) (strKey 0x12)) two_spread (by decide) (by decide) (by decide)
example := C95_IntMap (c := 1) (j := 1) (Ω := exSeeds) (sum := fun _ => affineHash) (sd := fun sd => sd) (twoOps_names 0x01#64 0x12#64) two_small two_spread_int (by decide) (by decide) (by decide)
example := C95_StringSet (c := 1) (j := 1) (Ω := exSeeds) (sum := fun _ => affineHash) (sd := fun sd => sd) (twoOpsS_names (strKey 0x01) (strKey 0x12)) two_spread (by decide) (by decide) (by decide)
example := C95_BytesSet (c := 1) (j := 1) (Ω := exSeeds) (sum := fun _ => affineHash) (sd := fun sd => sd) (twoOpsS_names (strKey 0x01) (strKey 0x12)) two_spread (by decide) (by decide) (by decide)
example := C95_ArrSet (c := 1) (j := 1) (Ω := exSeeds) (sum := fun _ => affineHash) (sd := fun sd => sd) (kb := id) (twoOpsS_names (strKey 0x01) (strKey 0x12)) two_spread (by decide) (by decide) (by decide)
example := C95_IntSet (c := 1) (j := 1) (Ω := exSeeds) (sum := fun _ => affineHash) (sd := fun sd => sd) (twoOpsS_names 0x01#64 0x12#64) two_small two_spread_int (by decide) (by decide) (by decide)
example := C95_random 0#64 (twoOps_names (strKey 0x01) (strKey 0x12)) (by decide)

/-- The bounds for twelve levels. -/
example : (MOp.get (strKey 0x01) : MOp ByteStr Nat).ceiling 12 0 = 166 ∧ (MOp.set (strKey 0x01) 1 : MOp ByteStr Nat).ceiling 12 0 = 1152 ∧
    (MOp.del (strKey 0x01) : MOp ByteStr Nat).ceiling 12 0 = 1324 := by decide

end Amt.Par
