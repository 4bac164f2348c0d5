/-
C11-C19, C40 for the sets, as in `PropsMap`.

`elemsAfterX H inv [] ops` are the elements after the calls `ops`; for all sets but `BytesSet`, `inv` is false
and it is `elemsAfter [] ops` (see `elemsAfterX_false`).  For `BytesSet` it takes into account what its `Del` does
instead of deleting.
-/
import Verif.PropsMap

set_option linter.unusedVariables false
set_option linter.unusedSectionVars false

namespace Amt
open T Spec

section
variable {K : Type} [DecidableEq K] {I : SetImpl K} {sd : Seed} {H : K → Nat → BitVec 64}
  {P : List K → K → Prop} {inv : Bool} {ex : Prop} {fuel : Nat}

/-- Calls that insert nothing are covered after every history. -/
theorem SEachNew.quiet {ks : List K} {ops : List (SOp K)} (h : ∀ op ∈ ops, op.stores = []) : SEachNew H inv P ks ops := by
  induction ops generalizing ks with
  | nil => trivial
  | cons op ops ih =>
    refine ⟨fun k hk => ?_, ih fun o ho => h o (by simp [ho])⟩
    rw [h op (by simp)] at hk; simp at hk

theorem mem_ifadd {k : K} {m : List K} : k ∈ (if k ∈ m then m else k :: m) := by
  split
  · assumption
  · simp

/-- C11.  After `Add(k)`, `Has(k)` returns true. -/
theorem C11_set (hc : SetContainer I sd H P inv ex) {ops : List (SOp K)} {k : K}
    (h : SEachNew H inv P [] (ops ++ [.add k])) (hf : 256 ≤ fuel) (s : St K Unit) :
    I.After fuel sd s ops [.add k, .has k] [.unit, .bool true] := by
  obtain ⟨h1, h2⟩ := SEachNew.append.1 h
  obtain ⟨os, m, r1, n1, k1, r2⟩ := hc.reach h1 hf s
  obtain ⟨os', m', a1, r⟩ := r2 [.add k, .has k] ⟨h2.1, SEachNew.quiet (by simp [SOp.stores])⟩
  simp only [srun_add, srun_has, srun_nil, and_assoc, exists_and_left, exists_eq_left, mem_ifadd, decide_true] at r
  exact r.2 ▸ a1

example := C11_set (SetContainer.string toyHash 0#64) (ops := exOpsS strKey) (k := strKey 0x12) (SEachNew'.toX _ (by decide +kernel)) (Nat.le_refl 256) St.init

/-- C12.  `Add(k)` and `Del(k)` do not change what `Has(k')` returns for another key `k'` (except `Del` of
`BytesSet`, see `C12_BytesSet_refuted`). -/
theorem C12_set (hc : SetContainer I sd H P inv ex) {ops : List (SOp K)} {k k' : K} {op : SOp K}
    (hu : op = .add k ∨ op = .del k ∧ inv = false) (hne : k' ≠ k) (h : SEachNew H inv P [] (ops ++ [op]))
    (hf : 256 ≤ fuel) (s : St K Unit) :
    ∃ a, I.After fuel sd s ops [.has k', op, .has k'] [a, .unit, a] := by
  obtain ⟨h1, h2⟩ := SEachNew.append.1 h
  obtain ⟨os, m, r1, n1, k1, r2⟩ := hc.reach h1 hf s
  obtain ⟨os', m', a1, r⟩ := r2 [.has k', op, .has k'] ⟨by simp [SOp.stores], h2.1, SEachNew.quiet (by simp [SOp.stores])⟩
  rcases hu with rfl | ⟨rfl, rfl⟩
  · simp only [srun_add, srun_has, srun_nil, and_assoc, exists_and_left, exists_eq_left] at r
    have : k' ∈ (if k ∈ m then m else k :: m) ↔ k' ∈ m := by
      split
      · rfl
      · simp [hne]
    simp only [this] at r
    exact ⟨_, r.2 ▸ a1⟩
  · simp only [srun_del, srun_has, srun_nil, and_assoc, exists_and_left, exists_eq_left] at r
    have : k' ∈ m.filter (fun x => decide (x ≠ k)) ↔ k' ∈ m := by simp [List.mem_filter, hne]
    simp only [this] at r
    exact ⟨_, r.2 ▸ a1⟩

example := C12_set (SetContainer.string toyHash 0#64) (ops := exOpsS strKey) (k := strKey 0x01) (k' := strKey 0x11)
  (Or.inr ⟨rfl, rfl⟩) (by decide) (SEachNew'.toX _ (by decide +kernel)) (Nat.le_refl 256) St.init

/-- C13.  `Del(k)` removes the key: afterwards `Has(k)` returns false, and `Len` has dropped by one if it was
present and is the same if it was not (not for `BytesSet`). -/
theorem C13_set (hc : SetContainer I sd H P false ex) {ops : List (SOp K)} (k : K)
    (h : SEachNew H false P [] ops) (hf : 256 ≤ fuel) (s : St K Unit) :
    ∃ n b, I.After fuel sd s ops [.len, .has k, .del k, .has k, .len]
      [.num n, .bool b, .unit, .bool false, .num (if b = true then n - 1 else n)] := by
  obtain ⟨os, m, r1, n1, k1, r2⟩ := hc.reach h hf s
  obtain ⟨os', m', a1, r⟩ := r2 [.len, .has k, .del k, .has k, .len] (SEachNew.quiet (by simp [SOp.stores]))
  simp only [srun_has, srun_nil, srun_len, srun_del, and_assoc, exists_and_left, exists_eq_left] at r
  have h0 : ¬ k ∈ m.filter (fun x => decide (x ≠ k)) := by simp [List.mem_filter]
  have : BitVec.ofNat 64 (m.filter (fun x => decide (x ≠ k))).length =
      if decide (k ∈ m) = true then BitVec.ofNat 64 m.length - 1#64 else BitVec.ofNat 64 m.length := by
    by_cases hk : k ∈ m
    · rw [if_pos (by simpa using hk), ← ofNat_pred (Nat.ne_of_gt (List.length_pos_of_mem hk)), ← List.length_erase_of_mem hk,
        n1.erase_eq_filter]
      congr 3
      funext x
      simp [bne, Bool.not_eq_eq_eq_not]
      by_cases hx : x = k <;> simp [hx]
    · rw [if_neg (by simpa using hk), List.filter_eq_self.2]
      intro x hx
      simp only [decide_eq_true_eq]
      rintro rfl; exact hk hx
  rw [this] at r
  simp only [h0, decide_false] at r
  exact ⟨_, _, r.2 ▸ a1⟩

example := C13_set (SetContainer.string toyHash 0#64) (strKey 0x11) exOpsS_str (Nat.le_refl 256) St.init

/-- C13.  `Del` of an absent key changes nothing at all: not a single word of memory. -/
theorem C13_set_absent (hc : SetContainer I sd H P false ex) {ops : List (SOp K)} {k : K}
    (h : SEachNew H false P [] ops) (hk : k ∉ elemsAfter [] ops) (hf : 256 ≤ fuel) (s : St K Unit) :
    ∃ m os s₁, I.session fuel sd ops s = .ok ((m, os), s₁) ∧ I.Del fuel m k s₁ = .ok ((), s₁) := by
  obtain ⟨os, s', t, F, m, e1, i1, e3, e4⟩ := hc.session h hf s
  obtain ⟨okA, ok⟩ := hc.ok
  refine ⟨_, os, s', e1, ?_⟩
  have hn : find (nbOf H) k t 0 = none := by
    rw [absS_find_none i1, ← e4.mem_iff, e3.elemsAfterX, elemsAfterX_false]; exact hk
  have hsim := i1.delete (fuel := fuel) ok.laws I.delSkip k hf
  have hfs := find_slot (nb := nbOf H) k t 0
  rw [hn] at hfs
  have hd : delete I.cfg s.next fuel I.delSkip k s' = .ok ((), s') := by
    cases hsl : slot (nbOf H) k t 0 with
    | none => rw [hsl] at hsim; exact hsim
    | some e =>
      rw [hsl] at hsim hfs
      simp only [Option.bind_some] at hfs
      have : k ≠ e.1 := fun e => by rw [if_pos e] at hfs; cases hfs
      simpa [ok.skip, this] using hsim
  rw [SetImpl.Del, deref, pure_bind_M, hd]

/-- The absent key collides with an element. -/
example := C13_set_absent (SetContainer.string toyHash 0#64) (k := strKey 0x12) exOpsS_str (by decide +kernel) (Nat.le_refl 256) St.init

/-- C14.  `Len` returns the number of elements. -/
theorem C14_set (hc : SetContainer I sd H P inv ex) {ops : List (SOp K)} (h : SEachNew H inv P [] ops)
    (hf : 256 ≤ fuel) (s : St K Unit) :
    I.After fuel sd s ops [.len] [.num (BitVec.ofNat 64 (elemsAfterX H inv [] ops).length)] ∧
      (elemsAfterX H inv [] ops).Nodup := by
  obtain ⟨os, m, r1, n1, k1, r2⟩ := hc.reach h hf s
  obtain ⟨os', m', a1, r⟩ := r2 [.len] (SEachNew.quiet (by simp [SOp.stores]))
  simp only [srun_nil, srun_len, and_assoc, exists_and_left, exists_eq_left] at r
  have hnd := nodup_elemsAfterX (H := H) inv (ks := []) (by simp) ops
  rw [(perm_of_nodup n1 hnd k1).length_eq] at r
  exact ⟨r.2 ▸ a1, hnd⟩

example := C14_set (SetContainer.bytes toyHash 0#64) exOpsS_bytes (Nat.le_refl 256) St.init

/-- `Has(k)` tells whether `k` is an element. -/
theorem C14_has (hc : SetContainer I sd H P inv ex) {ops : List (SOp K)} (h : SEachNew H inv P [] ops)
    (hf : 256 ≤ fuel) (s : St K Unit) (k : K) (b : Bool) (hb : b = true ↔ k ∈ elemsAfterX H inv [] ops) :
    I.After fuel sd s ops [.has k] [.bool b] := by
  obtain ⟨os, m, r1, n1, k1, r2⟩ := hc.reach h hf s
  obtain ⟨os', m', a1, r⟩ := r2 [.has k] (SEachNew.quiet (by simp [SOp.stores]))
  simp only [srun_nil, srun_has, and_assoc, exists_and_left, exists_eq_left] at r
  have : decide (k ∈ m) = b := by rw [Bool.eq_iff_iff, decide_eq_true_iff, k1, hb]
  rw [this] at r
  exact r.2 ▸ a1

example := C14_has (SetContainer.string toyHash 0#64) exOpsS_str (Nat.le_refl 256) St.init (strKey 0x11) true (by rw [elemsAfterX_false]; decide +kernel)

/-- C15.  `Dep` returns the mean depth of the elements (where the depth statistics are covered, that is, for all
sets but `IntSet` with keys outside `[0, 2^32)`). -/
theorem C15_set (hc : SetContainer I sd H P inv ex) (hex : ex) {ops : List (SOp K)} (h : SEachNew H inv P [] ops)
    (hlen : ops.length < 2 ^ 56) (hf : 256 ≤ fuel) (s : St K Unit) :
    I.After fuel sd s ops [.dep] [.rat (meanDepth H (elemsAfterX H inv [] ops))] := by
  obtain ⟨os, m, r1, n1, k1, r2⟩ := hc.reach h hf s
  obtain ⟨os', m', a1, r⟩ := r2 [.dep] (SEachNew.quiet (by simp [SOp.stores]))
  simp only [srun_nil, srun_dep hex, and_assoc, exists_and_left, exists_eq_left] at r
  have hnd := nodup_elemsAfterX (H := H) inv (ks := []) (by simp) ops
  rw [meanDepth64_perm (perm_of_nodup n1 hnd k1),
    meanDepth64_eq (Nat.lt_of_le_of_lt (length_elemsAfterX inv [] ops) (by simpa using hlen))] at r
  exact r.2 ▸ a1

example := C15_set (SetContainer.string toyHash 0#64) trivial exOpsS_str (by decide) (Nat.le_refl 256) St.init

/-- C16.  A callback that always returns true is called exactly once for each element. -/
theorem C16_set (hc : SetContainer I sd H P inv ex) {ops : List (SOp K)} (h : SEachNew H inv P [] ops)
    {f : List K → K → Bool} (hgo : ∀ log k, f log k = true) (hf : 256 ≤ fuel) (s : St K Unit) :
    ∃ l, I.After fuel sd s ops [.all f] [.log l] ∧ l.Nodup ∧ ∀ k, k ∈ l ↔ k ∈ elemsAfterX H inv [] ops := by
  obtain ⟨os, m, r1, n1, k1, r2⟩ := hc.reach h hf s
  obtain ⟨os', m', a1, r⟩ := r2 [.all f] (SEachNew.quiet (by simp [SOp.stores]))
  rw [srun_all] at r
  obtain ⟨order, hp, _, _, ⟨rfl, _⟩, rfl⟩ := r
  rw [visitS_all hgo, List.nil_append] at a1
  exact ⟨order, a1, hp.nodup_iff.2 n1, fun k => hp.mem_iff.trans (k1 k)⟩

example := C16_set (SetContainer.bytes toyHash 0#64) exOpsS_bytes (f := fun _ _ => true) (fun _ _ => rfl) (Nat.le_refl 256) St.init

/-- C17.  The calls of any callback `f` are the first `n` of the full visiting order `order`; `f` returned true in
each of them but the last, and if there are elements left, it returned false in the last. -/
theorem C17_set (hc : SetContainer I sd H P inv ex) {ops : List (SOp K)} (h : SEachNew H inv P [] ops)
    (f : List K → K → Bool) (hf : 256 ≤ fuel) (s : St K Unit) :
    ∃ order n, I.After fuel sd s ops [.all fun _ _ => true] [.log order] ∧ n ≤ order.length ∧
      I.After fuel sd s ops [.all f] [.log (order.take n)] ∧
      (∀ i k, i + 1 < n → order[i]? = some k → f (order.take i) k = true) ∧
      (n < order.length → ∃ i k, n = i + 1 ∧ order[i]? = some k ∧ f (order.take i) k = false) := by
  obtain ⟨os, m, r1, n1, k1, r2⟩ := hc.reach h hf s
  obtain ⟨os₁, m₁, a1, r⟩ := r2 [.all fun _ _ => true] (SEachNew.quiet (by simp [SOp.stores]))
  rw [srun_all] at r
  obtain ⟨order, hp, hs, _, ⟨rfl, _⟩, rfl⟩ := r
  rw [visitS_all (fun _ _ => rfl), List.nil_append] at a1
  obtain ⟨os₂, m₂, a2, r⟩ := r2 [.all f] (SEachNew.quiet (by simp [SOp.stores]))
  rw [srun_all] at r
  obtain ⟨order', hp', hs', _, ⟨rfl, _⟩, rfl⟩ := r
  obtain rfl : order' = order := perm_sorted_eq (fun a b => Before.asymm) (hp'.trans hp.symm) hs' hs
  obtain ⟨n, g1, g2, g3, g4⟩ := visitS_prefix f [] order'
  rw [g2, List.nil_append] at a2
  refine ⟨order', n, a1, g1, a2, fun i k hi he => by simpa using g3 i k hi he, fun hn => ?_⟩
  obtain ⟨i, k, q1, q2, q3⟩ := g4 hn
  exact ⟨i, k, q1, q2, by simpa using q3⟩

example := C17_set (SetContainer.string toyHash 0#64) exOpsS_str (fun log _ => decide (log.length < 2)) (Nat.le_refl 256) St.init

/-- C18.  The order in which `All` visits the elements depends only on the seed (through the hash) and on the
elements.  It is the lexicographic order of the hash nibbles. -/
theorem C18_set (hc : SetContainer I sd H P inv ex) {ops₁ ops₂ : List (SOp K)} (h₁ : SEachNew H inv P [] ops₁)
    (h₂ : SEachNew H inv P [] ops₂) (hk : ∀ k, k ∈ elemsAfterX H inv [] ops₁ ↔ k ∈ elemsAfterX H inv [] ops₂)
    (hf : 256 ≤ fuel) (s₁ s₂ : St K Unit) :
    ∃ l, I.After fuel sd s₁ ops₁ [.all fun _ _ => true] [.log l] ∧ I.After fuel sd s₂ ops₂ [.all fun _ _ => true] [.log l] ∧
      l.Pairwise (Before H) := by
  obtain ⟨_, m, _, n1, k1, r1⟩ := hc.reach h₁ hf s₁
  obtain ⟨_, m₁, a1, r⟩ := r1 [.all fun _ _ => true] (SEachNew.quiet (by simp [SOp.stores]))
  rw [srun_all] at r
  obtain ⟨o₁, hp, hs, _, ⟨rfl, _⟩, rfl⟩ := r
  rw [visitS_all (fun _ _ => rfl), List.nil_append] at a1
  obtain ⟨_, m', _, n2, k2, r2⟩ := hc.reach h₂ hf s₂
  obtain ⟨_, m₂, a2, r⟩ := r2 [.all fun _ _ => true] (SEachNew.quiet (by simp [SOp.stores]))
  rw [srun_all] at r
  obtain ⟨o₂, hp', hs', _, ⟨rfl, _⟩, rfl⟩ := r
  rw [visitS_all (fun _ _ => rfl), List.nil_append] at a2
  obtain rfl : o₁ = o₂ := perm_sorted_eq (fun a b => Before.asymm)
    (hp.trans ((perm_of_nodup n1 n2 fun x => by rw [k1, k2, hk]).trans hp'.symm)) hs hs'
  exact ⟨o₁, a1, a2, hs⟩

example := C18_set (SetContainer.string toyHash 0#64) (ops₁ := [.add (strKey 0x01), .add (strKey 0x11), .del (strKey 0x01), .add (strKey 0x01)])
  (ops₂ := [.add (strKey 0x11), .add (strKey 0x01)]) (SEachNew'.toX _ (by decide +kernel)) (SEachNew'.toX _ (by decide +kernel))
  (by
    intro k
    rw [elemsAfterX_false, elemsAfterX_false]
    have h1 : elemsAfter [] [.add (strKey 0x01), .add (strKey 0x11), .del (strKey 0x01), .add (strKey 0x01)] =
      [strKey 0x01, strKey 0x11] := by decide +kernel
    have h2 : elemsAfter [] [.add (strKey 0x11), .add (strKey 0x01)] = [strKey 0x01, strKey 0x11] := by decide +kernel
    rw [h1, h2]) (Nat.le_refl 256) St.init St.init

/-- C19.  The same for `Dep`. -/
theorem C19_set (hc : SetContainer I sd H P inv ex) (hex : ex) {ops₁ ops₂ : List (SOp K)} (h₁ : SEachNew H inv P [] ops₁)
    (h₂ : SEachNew H inv P [] ops₂) (hk : ∀ k, k ∈ elemsAfterX H inv [] ops₁ ↔ k ∈ elemsAfterX H inv [] ops₂)
    (hf : 256 ≤ fuel) (s₁ s₂ : St K Unit) :
    ∃ q, I.After fuel sd s₁ ops₁ [.dep] [.rat q] ∧ I.After fuel sd s₂ ops₂ [.dep] [.rat q] := by
  obtain ⟨_, m, _, n1, k1, r1⟩ := hc.reach h₁ hf s₁
  obtain ⟨_, m₁, a1, r⟩ := r1 [.dep] (SEachNew.quiet (by simp [SOp.stores]))
  obtain ⟨_, m', _, n2, k2, r2⟩ := hc.reach h₂ hf s₂
  obtain ⟨_, m₂, a2, r'⟩ := r2 [.dep] (SEachNew.quiet (by simp [SOp.stores]))
  simp only [srun_nil, srun_dep hex, and_assoc, exists_and_left, exists_eq_left] at r r'
  rw [meanDepth64_perm (perm_of_nodup n1 n2 fun x => by rw [k1, k2, hk])] at r
  exact ⟨_, r.2 ▸ a1, r'.2 ▸ a2⟩

example := C19_set (SetContainer.string toyHash 0#64) trivial (ops₁ := [.add (strKey 0x01), .add (strKey 0x11), .del (strKey 0x11)])
  (ops₂ := [.add (strKey 0x01)]) (SEachNew'.toX _ (by decide +kernel)) (SEachNew'.toX _ (by decide +kernel))
  (by
    intro k
    rw [elemsAfterX_false, elemsAfterX_false]
    have h1 : elemsAfter [] [.add (strKey 0x01), .add (strKey 0x11), .del (strKey 0x11)] = [strKey 0x01] := by decide +kernel
    have h2 : elemsAfter [] [.add (strKey 0x01)] = [strKey 0x01] := by decide +kernel
    rw [h1, h2]) (Nat.le_refl 256) St.init St.init

/-- C40.  `Has` returns false for a key that is not an element. -/
theorem C40_set (hc : SetContainer I sd H P inv ex) {ops : List (SOp K)} {k : K} (h : SEachNew H inv P [] ops)
    (hk : k ∉ elemsAfterX H inv [] ops) (hf : 256 ≤ fuel) (s : St K Unit) :
    I.After fuel sd s ops [.has k] [.bool false] :=
  C14_has hc h hf s k false (by simpa using hk)

example := C40_set (SetContainer.string toyHash 0#64) (k := strKey 0x12) exOpsS_str (by rw [elemsAfterX_false]; decide +kernel) (Nat.le_refl 256) St.init

end

end Amt
