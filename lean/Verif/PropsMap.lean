/-
C11-C23, C40 for the maps: consequences of the refinement theorems that a client sees, each stated directly
in terms of calls and their results.

`I.After fuel sd s ops ops' os'` says: after the calls `ops` on a new map, the calls `ops'` return `os'`.
Every theorem is for all five maps at once (`MapContainer`), for every covered history `ops`, every seed, every
hash function and every heap `s` in which the map is created.
-/
import Verif.Api

set_option linter.unusedVariables false
set_option linter.unusedSectionVars false

namespace Amt
open T Spec

section
variable {K V : Type} [DecidableEq K] [Inhabited V] {I : MapImpl K V} {sd : Seed} {H : K → Nat → BitVec 64}
  {P : Bool → List K → K → Prop} {lossy : V → V} {ex : Prop} {fuel : Nat}

/-- Calls that insert nothing are covered after every history. -/
theorem EachNew.quiet {ks : List K} {ops : List (MOp K V)} (h : ∀ op ∈ ops, op.stores = []) : EachNew P ks ops := by
  induction ops generalizing ks with
  | nil => trivial
  | cons op ops ih =>
    refine ⟨fun k hk => ?_, ih fun o ho => h o (by simp [ho])⟩
    rw [h op (by simp)] at hk; simp at hk

theorem EachNew.one {ks : List K} {k : K} {op : MOp K V} (ho : op.stores = [k]) (h : k ∉ ks → P op.isMod ks k)
    {ops : List (MOp K V)} (hq : ∀ op ∈ ops, op.stores = []) : EachNew P ks (op :: ops) := by
  refine ⟨fun k' hk' => ?_, EachNew.quiet hq⟩
  rw [ho, List.mem_singleton] at hk'
  subst hk'; exact h

/-- C11.  After `Set(k, v)`, `Get(k)` returns `(v, true)`: always for `StringMap`, `BytesMap`, `IntMap` and
`Map` (whose `lossy` is the identity), and for `ArrMap` if `k` was present or does not collide. -/
theorem C11_read_your_writes (hc : MapContainer I sd H P lossy ex) {ops : List (MOp K V)} {k : K} {v : V}
    (h : EachNew P [] (ops ++ [.set k v]))
    (hl : lossy v = v ∨ k ∈ keysAfter [] ops ∨ ¬ Collides H (keysAfter [] ops) k)
    (hf : 256 ≤ fuel) (s : St K V) :
    I.After fuel sd s ops [.set k v, .get k] [.unit, .pair v true] := by
  obtain ⟨h1, h2⟩ := EachNew.append.1 h
  obtain ⟨os, m, r1, n1, k1, r2⟩ := hc.reach h1 hf s
  obtain ⟨os', m', a1, r⟩ := r2 [.set k v, .get k] ⟨h2.1, EachNew.quiet (by simp [MOp.stores])⟩
  rw [run_set (by rwa [k1, show Collides H m.keys k ↔ Collides H (keysAfter [] ops) k from
    ⟨Collides.congr k1, Collides.congr fun x => (k1 x).symm⟩])] at r
  simp only [run_get, run_nil, and_assoc, exists_and_left, exists_eq_left, FMap.get_set_same] at r
  exact r.2 ▸ a1

/-- A new key that collides. -/
example := C11_read_your_writes (MapContainer.string (V := Nat) toyHash 0#64) (ops := exOps strKey) (k := strKey 0x12) (v := 5)
  (by decide +kernel) (Or.inl rfl) (Nat.le_refl 256) St.init

/-- In an `ArrMap`, a present key. -/
example := C11_read_your_writes (MapContainer.arr (V := Nat) toyHash 0#64 fun b : UInt8 => [b]) (ops := exOps id) (k := 0x11) (v := 5)
  (by decide +kernel) (Or.inr (Or.inl (by decide +kernel))) (Nat.le_refl 256) St.init

/-- The calls that may change the value of the key `k`. -/
inductive Updates (k : K) : MOp K V → Prop where
  | set (v : V) : Updates k (.set k v)
  | mod (f : V → Bool → V) : Updates k (.mod k f)
  | del : Updates k (.del k)
  | write (v : V) : Updates k (.write k v)

/-- A call that may change the value of `k` leaves all other keys alone. -/
theorem Updates.other {k k' : K} {op : MOp K V} (hu : Updates k op) (hne : k' ≠ k) {m m' : FMap K V} {o : MOut K V}
    (h : MStepX H ex lossy m op o m') : m'.get k' = m.get k' := by
  cases hu with
  | set v =>
    obtain ⟨_, ⟨_, _, rfl⟩ | ⟨_, rfl⟩⟩ := h <;> rw [FMap.get_set_other _ _ hne]
  | mod f =>
    simp only [MStepX, MStep] at h
    split at h <;> obtain ⟨_, rfl⟩ := h <;> rw [FMap.get_set_other _ _ hne]
  | del =>
    obtain ⟨_, rfl⟩ := h
    rw [FMap.get_del_other _ hne]
  | write v =>
    obtain ⟨_, rfl⟩ := h
    split
    · rw [FMap.get_set_other _ _ hne]
    · rfl

/-- C12.  `Set(k, ..)`, `Mod(k, ..)`, `Del(k)` and assigning through `Ptr(k)` do not change what `Get(k')`
returns for another key `k'`. -/
theorem C12_updates_are_local (hc : MapContainer I sd H P lossy ex) {ops : List (MOp K V)} {k k' : K} {op : MOp K V}
    (hu : Updates k op) (hne : k' ≠ k) (h : EachNew P [] (ops ++ [op])) (hf : 256 ≤ fuel) (s : St K V) :
    ∃ a o, I.After fuel sd s ops [.get k', op, .get k'] [a, o, a] := by
  obtain ⟨h1, h2⟩ := EachNew.append.1 h
  obtain ⟨os, m, r1, n1, k1, r2⟩ := hc.reach h1 hf s
  obtain ⟨os', m', a1, r⟩ := r2 [.get k', op, .get k'] ⟨by simp [MOp.stores], h2.1, EachNew.quiet (by simp [MOp.stores])⟩
  rw [run_get] at r
  obtain ⟨_, r, rfl⟩ := r
  rw [run_cons] at r
  obtain ⟨o, m₁, hs, _, r, rfl⟩ := r
  simp only [run_get, run_nil, and_assoc, exists_and_left, exists_eq_left, hu.other hne hs] at r
  exact ⟨_, _, r.2 ▸ a1⟩

example := C12_updates_are_local (MapContainer.string (V := Nat) toyHash 0#64) (ops := exOps strKey) (k := strKey 0x01) (k' := strKey 0x11)
  (.mod fun _ _ => 8) (by decide) (by decide +kernel) (Nat.le_refl 256) St.init

theorem isSome_get {m : FMap K V} {k : K} : (m.get k).isSome = true ↔ k ∈ m.keys := by
  have h := FMap.get_eq_none (m := m) (k := k)
  cases hg : m.get k with
  | none => simpa using h.1 hg
  | some v =>
    simp only [Option.isSome_some, true_iff]
    refine Classical.byContradiction fun hc => ?_
    rw [h.2 hc] at hg
    cases hg

theorem ofNat_pred {n : Nat} (h : n ≠ 0) : BitVec.ofNat 64 (n - 1) = BitVec.ofNat 64 n - 1#64 := by
  obtain ⟨k, rfl⟩ := Nat.exists_eq_succ_of_ne_zero h
  rw [Nat.succ_sub_one, Nat.succ_eq_add_one, BitVec.ofNat_add, BitVec.add_sub_cancel]

/-- C13.  `Del(k)` removes the key: afterwards `Get(k)` reports that it is missing, and `Len` has dropped by one
if it was present and is the same if it was not. -/
theorem C13_del (hc : MapContainer I sd H P lossy ex) {ops : List (MOp K V)} (k : K)
    (h : EachNew P [] ops) (hf : 256 ≤ fuel) (s : St K V) :
    ∃ n v b, I.After fuel sd s ops [.len, .get k, .del k, .get k, .len]
      [.num n, .pair v b, .unit, .pair default false, .num (if b = true then n - 1 else n)] := by
  obtain ⟨os, m, r1, n1, k1, r2⟩ := hc.reach h hf s
  obtain ⟨os', m', a1, r⟩ := r2 [.len, .get k, .del k, .get k, .len] (EachNew.quiet (by simp [MOp.stores]))
  simp only [run_get, run_nil, run_len, run_del, and_assoc, exists_and_left, exists_eq_left, FMap.get_del_same] at r
  have : BitVec.ofNat 64 (FMap.del m k).length =
      if (m.get k).isSome = true then BitVec.ofNat 64 m.length - 1#64 else BitVec.ofNat 64 m.length := by
    rw [FMap.length_del n1]
    simp only [isSome_get]
    split
    · rename_i hk
      rw [ofNat_pred]
      obtain ⟨v', hv⟩ := FMap.mem_keys.1 hk
      exact Nat.ne_of_gt (List.length_pos_of_mem hv)
    · rfl
  rw [this] at r
  exact ⟨_, _, _, r.2 ▸ a1⟩

example := C13_del (MapContainer.string (V := Nat) toyHash 0#64) (strKey 0x11) exOps_str (Nat.le_refl 256) St.init

/-- C13.  `Del` of an absent key changes nothing at all: not a single word of memory. -/
theorem C13_del_absent (hc : MapContainer I sd H P lossy ex) {ops : List (MOp K V)} {k : K}
    (h : EachNew P [] ops) (hk : k ∉ keysAfter [] ops) (hf : 256 ≤ fuel) (s : St K V) :
    ∃ m os s₁, I.session fuel sd ops s = .ok ((m, os), s₁) ∧ I.Del fuel m k s₁ = .ok ((), s₁) := by
  obtain ⟨os, s', t, F, m, e1, i1, e3, e4⟩ := hc.session h hf s
  obtain ⟨okS, okM, ok⟩ := hc.ok
  refine ⟨_, os, s', e1, ?_⟩
  have hn : find (nbOf H) k t 0 = none := by
    rw [find_none_iff i1, ← (FMap.keys_perm e4).mem_iff, e3.keysAfter]; exact hk
  have hsim := i1.delete (fuel := fuel) ok.laws I.delSkip k hf
  have hfs := find_slot (nb := nbOf H) k t 0
  rw [hn] at hfs
  have hd : delete I.cfg s.next fuel I.delSkip k s' = .ok ((), s') := by
    cases hsl : slot (nbOf H) k t 0 with
    | none => rw [hsl] at hsim; exact hsim
    | some e =>
      rw [hsl] at hsim hfs
      simp only [Option.bind_some] at hfs
      have : k ≠ e.1 := fun e => by rw [if_pos e] at hfs; cases hfs
      simpa only [ok.skip, this, decide_false, Bool.not_false, if_true] using hsim
  rw [MapImpl.Del, deref, pure_bind_M, hd]

/-- The absent key collides with a stored one. -/
example := C13_del_absent (MapContainer.string (V := Nat) toyHash 0#64) (k := strKey 0x12) exOps_str (by decide +kernel) (Nat.le_refl 256) St.init

/-- C14.  `Len` returns the number of stored keys.  (The keys in `keysAfter [] ops` are different from one
another, see `nodup_keysAfter`.) -/
theorem C14_len (hc : MapContainer I sd H P lossy ex) {ops : List (MOp K V)} (h : EachNew P [] ops)
    (hf : 256 ≤ fuel) (s : St K V) :
    I.After fuel sd s ops [.len] [.num (BitVec.ofNat 64 (keysAfter [] ops).length)] ∧ (keysAfter [] ops).Nodup := by
  obtain ⟨os, m, r1, n1, k1, r2⟩ := hc.reach h hf s
  obtain ⟨os', m', a1, r⟩ := r2 [.len] (EachNew.quiet (by simp [MOp.stores]))
  simp only [run_nil, run_len, and_assoc, exists_and_left, exists_eq_left] at r
  have hnd := nodup_keysAfter (V := V) (ks := []) (by simp) ops
  have := (perm_of_nodup n1 hnd k1).length_eq
  rw [FMap.keys, List.length_map] at this
  rw [this] at r
  exact ⟨r.2 ▸ a1, hnd⟩

example := C14_len (MapContainer.string (V := Nat) toyHash 0#64) exOps_str (Nat.le_refl 256) St.init

/-- A key is stored if and only if `Get` finds it. -/
theorem C14_keys (hc : MapContainer I sd H P lossy ex) {ops : List (MOp K V)} (h : EachNew P [] ops)
    (hf : 256 ≤ fuel) (s : St K V) (k : K) :
    ∃ v, I.After fuel sd s ops [.get k] [.pair v (decide (k ∈ keysAfter [] ops))] := by
  obtain ⟨os, m, r1, n1, k1, r2⟩ := hc.reach h hf s
  obtain ⟨os', m', a1, r⟩ := r2 [.get k] (EachNew.quiet (by simp [MOp.stores]))
  simp only [run_nil, run_get, and_assoc, exists_and_left, exists_eq_left] at r
  have : (m.get k).isSome = decide (k ∈ keysAfter [] ops) := by
    rw [Bool.eq_iff_iff, isSome_get, k1, decide_eq_true_iff]
  rw [this] at r
  exact ⟨_, r.2 ▸ a1⟩

example := C14_keys (MapContainer.string (V := Nat) toyHash 0#64) exOps_str (Nat.le_refl 256) St.init (strKey 0x11)

/-- C15.  `Dep` returns the mean depth of the stored keys (where the depth statistics are covered, that is, for
all maps but `IntMap` with keys outside `[0, 2^32)`).  The bound on the length of the history keeps the counters
from overflowing. -/
theorem C15_dep (hc : MapContainer I sd H P lossy ex) (hex : ex) {ops : List (MOp K V)} (h : EachNew P [] ops)
    (hlen : ops.length < 2 ^ 56) (hf : 256 ≤ fuel) (s : St K V) :
    I.After fuel sd s ops [.dep] [.rat (meanDepth H (keysAfter [] ops))] := by
  obtain ⟨os, m, r1, n1, k1, r2⟩ := hc.reach h hf s
  obtain ⟨os', m', a1, r⟩ := r2 [.dep] (EachNew.quiet (by simp [MOp.stores]))
  simp only [run_nil, run_dep hex, and_assoc, exists_and_left, exists_eq_left] at r
  have hnd := nodup_keysAfter (V := V) (ks := []) (by simp) ops
  rw [meanDepth64_perm (perm_of_nodup n1 hnd k1), meanDepth64_eq (Nat.lt_of_le_of_lt (length_keysAfter [] ops) (by simpa using hlen))] at r
  exact r.2 ▸ a1

example := C15_dep (MapContainer.string (V := Nat) toyHash 0#64) trivial exOps_str (by decide) (Nat.le_refl 256) St.init

/-- The mean depth of the four keys of the example: three share their first nibble. -/
example : meanDepth (byteStream toyHash 0#64 id) (keysAfter [] (exOps strKey)) = 3 / 4 := by decide +kernel

/-- C16.  A callback that always returns true is called exactly once for each stored key, with the value that
`Get` returns for it. -/
theorem C16_all_visits_all (hc : MapContainer I sd H P lossy ex) {ops : List (MOp K V)} (h : EachNew P [] ops)
    {f : List (K × V) → K → V → V × Bool} (hgo : ∀ log k v, (f log k v).2 = true) (hf : 256 ≤ fuel) (s : St K V) :
    ∃ l, I.After fuel sd s ops [.all f] [.log l] ∧ (l.map (fun e => e.1)).Nodup ∧
      (∀ k, k ∈ l.map (fun e => e.1) ↔ k ∈ keysAfter [] ops) ∧
      ∀ k v, (k, v) ∈ l → I.After fuel sd s ops [.get k] [.pair v true] := by
  obtain ⟨os, m, r1, n1, k1, r2⟩ := hc.reach h hf s
  obtain ⟨os', m', a1, r⟩ := r2 [.all f] (EachNew.quiet (by simp [MOp.stores]))
  rw [run_all] at r
  obtain ⟨order, hp, _, _, ⟨rfl, _⟩, rfl⟩ := r
  rw [visit_all hgo, List.nil_append] at a1
  refine ⟨order, a1, (FMap.keys_perm hp).nodup_iff.2 n1, fun k => ((FMap.keys_perm hp).mem_iff.trans (k1 k)), ?_⟩
  intro k v hkv
  obtain ⟨os', m', a1, r⟩ := r2 [.get k] (EachNew.quiet (by simp [MOp.stores]))
  have hg : m.get k = some v := (FMap.get_eq_some n1).2 (hp.mem_iff.1 hkv)
  simp only [run_nil, run_get, and_assoc, exists_and_left, exists_eq_left, hg] at r
  exact r.2 ▸ a1

example := C16_all_visits_all (MapContainer.string (V := Nat) toyHash 0#64) exOps_str (f := fun log _ v => (v + log.length, true)) (fun _ _ _ => rfl) (Nat.le_refl 256) St.init

/-- The callback that assigns nothing and always goes on. -/
def readAll : List (K × V) → K → V → V × Bool := fun _ _ v => (v, true)

/-- C17.  The calls of any callback `f` are the first `n` of the full visiting order `order`; `f` returned true in
each of them but the last, and if there are entries left, it returned false in the last. -/
theorem C17_all_stops (hc : MapContainer I sd H P lossy ex) {ops : List (MOp K V)} (h : EachNew P [] ops)
    (f : List (K × V) → K → V → V × Bool) (hf : 256 ≤ fuel) (s : St K V) :
    ∃ order n, I.After fuel sd s ops [.all readAll] [.log order] ∧ n ≤ order.length ∧
      I.After fuel sd s ops [.all f] [.log (order.take n)] ∧
      (∀ i k v, i + 1 < n → order[i]? = some (k, v) → (f (order.take i) k v).2 = true) ∧
      (n < order.length → ∃ i k v, n = i + 1 ∧ order[i]? = some (k, v) ∧ (f (order.take i) k v).2 = false) := by
  obtain ⟨os, m, r1, n1, k1, r2⟩ := hc.reach h hf s
  obtain ⟨os₁, m₁, a1, r⟩ := r2 [.all readAll] (EachNew.quiet (by simp [MOp.stores]))
  rw [run_all] at r
  obtain ⟨order, hp, hs, _, ⟨rfl, _⟩, rfl⟩ := r
  rw [visit_all (fun _ _ _ => rfl), List.nil_append] at a1
  obtain ⟨os₂, m₂, a2, r⟩ := r2 [.all f] (EachNew.quiet (by simp [MOp.stores]))
  rw [run_all] at r
  obtain ⟨order', hp', hs', _, ⟨rfl, _⟩, rfl⟩ := r
  obtain rfl : order' = order := perm_sorted_eq (fun a b => Before.asymm) (hp'.trans hp.symm) hs' hs
  obtain ⟨n, g1, g2, g3, g4⟩ := visit_prefix f [] order'
  rw [g2, List.nil_append] at a2
  refine ⟨order', n, a1, g1, a2, fun i k v hi he => by simpa using g3 i (k, v) hi he, fun hn => ?_⟩
  obtain ⟨i, ⟨k, v⟩, q1, q2, q3⟩ := g4 hn
  exact ⟨i, k, v, q1, q2, by simpa using q3⟩

example := C17_all_stops (MapContainer.string (V := Nat) toyHash 0#64) exOps_str (fun log _ v => (v, decide (log.length < 2))) (Nat.le_refl 256) St.init

/-- C18.  The order in which `All` visits the keys depends only on the seed (through the hash) and on the set of
stored keys: two histories that end with the same keys, in different heaps, give the same order.  It is the
lexicographic order of the keys' hash nibbles. -/
theorem C18_all_order (hc : MapContainer I sd H P lossy ex) {ops₁ ops₂ : List (MOp K V)} (h₁ : EachNew P [] ops₁)
    (h₂ : EachNew P [] ops₂) (hk : ∀ k, k ∈ keysAfter [] ops₁ ↔ k ∈ keysAfter [] ops₂) (hf : 256 ≤ fuel) (s₁ s₂ : St K V) :
    ∃ l₁ l₂, I.After fuel sd s₁ ops₁ [.all readAll] [.log l₁] ∧ I.After fuel sd s₂ ops₂ [.all readAll] [.log l₂] ∧
      l₁.map (fun e => e.1) = l₂.map (fun e => e.1) ∧ (l₁.map (fun e => e.1)).Pairwise (Before H) := by
  obtain ⟨_, m, _, n1, k1, r1⟩ := hc.reach h₁ hf s₁
  obtain ⟨_, m₁, a1, r⟩ := r1 [.all readAll] (EachNew.quiet (by simp [MOp.stores]))
  rw [run_all] at r
  obtain ⟨o₁, hp, hs, _, ⟨rfl, _⟩, rfl⟩ := r
  rw [visit_all (fun _ _ _ => rfl), List.nil_append] at a1
  obtain ⟨_, m', _, n2, k2, r2⟩ := hc.reach h₂ hf s₂
  obtain ⟨_, m₂, a2, r⟩ := r2 [.all readAll] (EachNew.quiet (by simp [MOp.stores]))
  rw [run_all] at r
  obtain ⟨o₂, hp', hs', _, ⟨rfl, _⟩, rfl⟩ := r
  rw [visit_all (fun _ _ _ => rfl), List.nil_append] at a2
  have hs1 : (o₁.map (fun e => e.1)).Pairwise (Before H) := List.pairwise_map.2 hs
  have hs2 : (o₂.map (fun e => e.1)).Pairwise (Before H) := List.pairwise_map.2 hs'
  refine ⟨o₁, o₂, a1, a2, perm_sorted_eq (fun a b => Before.asymm) ?_ hs1 hs2, hs1⟩
  exact (FMap.keys_perm hp).trans ((perm_of_nodup n1 n2 fun x => by rw [k1, k2, hk]).trans (FMap.keys_perm hp').symm)

/-- The example history against inserting its four keys in another order. -/
example := C18_all_order (MapContainer.string (V := Nat) toyHash 0#64) exOps_str
  (ops₂ := [.set (strKey 0x11) 0, .set (strKey 0x21) 1, .set (strKey 0x02) 2, .set (strKey 0x01) 3]) (by decide +kernel)
  (by
    have : ∀ k, k ∈ keysAfter [] (exOps strKey) ↔ k ∈ [strKey 0x11, strKey 0x21, strKey 0x02, strKey 0x01] := by
      have h : keysAfter [] (exOps strKey) = [strKey 0x11, strKey 0x21, strKey 0x02, strKey 0x01] := by decide +kernel
      simp [h]
    intro k
    rw [this]
    have h : keysAfter [] [MOp.set (strKey 0x11) 0, .set (strKey 0x21) 1, .set (strKey 0x02) 2, .set (strKey 0x01) 3] =
      [strKey 0x01, strKey 0x02, strKey 0x21, strKey 0x11] := by decide +kernel
    rw [h]
    simp only [List.mem_cons, List.not_mem_nil, or_false]
    constructor <;> rintro (h | h | h | h) <;> simp [h]) (Nat.le_refl 256) St.init St.init

/-- C19.  The same for `Dep`. -/
theorem C19_dep_canonical (hc : MapContainer I sd H P lossy ex) (hex : ex) {ops₁ ops₂ : List (MOp K V)}
    (h₁ : EachNew P [] ops₁) (h₂ : EachNew P [] ops₂) (hk : ∀ k, k ∈ keysAfter [] ops₁ ↔ k ∈ keysAfter [] ops₂)
    (hf : 256 ≤ fuel) (s₁ s₂ : St K V) :
    ∃ q, I.After fuel sd s₁ ops₁ [.dep] [.rat q] ∧ I.After fuel sd s₂ ops₂ [.dep] [.rat q] := by
  obtain ⟨_, m, _, n1, k1, r1⟩ := hc.reach h₁ hf s₁
  obtain ⟨_, m₁, a1, r⟩ := r1 [.dep] (EachNew.quiet (by simp [MOp.stores]))
  obtain ⟨_, m', _, n2, k2, r2⟩ := hc.reach h₂ hf s₂
  obtain ⟨_, m₂, a2, r'⟩ := r2 [.dep] (EachNew.quiet (by simp [MOp.stores]))
  simp only [run_nil, run_dep hex, and_assoc, exists_and_left, exists_eq_left] at r r'
  rw [meanDepth64_perm (perm_of_nodup n1 n2 fun x => by rw [k1, k2, hk])] at r
  exact ⟨_, r.2 ▸ a1, r'.2 ▸ a2⟩

/-- A key inserted and deleted again. -/
example := C19_dep_canonical (MapContainer.string (V := Nat) toyHash 0#64) trivial (ops₁ := [.set (strKey 0x01) 0, .set (strKey 0x11) 1, .del (strKey 0x11)])
  (ops₂ := [.set (strKey 0x01) 5]) (by decide +kernel) (by decide +kernel)
  (by simp [keysAfter, MOp.after, strKey]) (Nat.le_refl 256) St.init St.init

/-- C19.  Inserting a new key and deleting it again restores `Dep` and the visiting order. -/
theorem C19_set_del (hc : MapContainer I sd H P lossy ex) (hex : ex) {ops : List (MOp K V)} {k : K} {v : V}
    (hk : k ∉ keysAfter [] ops) (h : EachNew P [] (ops ++ [.set k v])) (hf : 256 ≤ fuel) (s : St K V) :
    ∃ a l l', I.After fuel sd s ops [.dep, .all readAll] [a, .log l] ∧
      I.After fuel sd s ops [.set k v, .del k, .dep, .all readAll] [.unit, .unit, a, .log l'] ∧ l' = l := by
  obtain ⟨h1, h2⟩ := EachNew.append.1 h
  obtain ⟨os, m, r1, n1, k1, r2⟩ := hc.reach h1 hf s
  obtain ⟨_, m₁, a1, r⟩ := r2 [.dep, .all readAll] (EachNew.quiet (by simp [MOp.stores]))
  rw [run_dep hex] at r
  obtain ⟨_, r, rfl⟩ := r
  rw [run_all] at r
  obtain ⟨o₁, hp, hs, _, ⟨rfl, _⟩, rfl⟩ := r
  rw [visit_all (fun _ _ _ => rfl), List.nil_append] at a1
  obtain ⟨_, m₂, a2, r⟩ := r2 [.set k v, .del k, .dep, .all readAll] ⟨h2.1, EachNew.quiet (by simp [MOp.stores])⟩
  rw [run_cons] at r
  obtain ⟨o, m', hst, _, r, rfl⟩ := r
  rw [run_del] at r
  obtain ⟨_, r, rfl⟩ := r
  have hkm : k ∉ m.keys := fun h => hk ((k1 k).1 h)
  have hm : FMap.del m' k = m := by
    have : ∀ w : V, FMap.del (FMap.set m k w) k = m := fun w => by
      rw [FMap.set, FMap.del_absent hkm]
      have : FMap.del ((k, w) :: m) k = FMap.del m k := by simp [FMap.del]
      rw [this, FMap.del_absent hkm]
    obtain ⟨_, ⟨_, _, rfl⟩ | ⟨_, rfl⟩⟩ := hst <;> exact this _
  obtain ⟨rfl, _⟩ := hst
  rw [hm, run_dep hex] at r
  obtain ⟨_, r, rfl⟩ := r
  rw [run_all] at r
  obtain ⟨o₂, hp', hs', _, ⟨rfl, _⟩, rfl⟩ := r
  rw [visit_all (fun _ _ _ => rfl), List.nil_append] at a2
  exact ⟨_, _, _, a1, a2, perm_sorted_eq (fun a b => Before.asymm) (hp'.trans hp.symm) hs' hs⟩

example := C19_set_del (MapContainer.string (V := Nat) toyHash 0#64) trivial (ops := exOps strKey) (k := strKey 0x12) (v := 5) (by decide +kernel)
  (by decide +kernel) (Nat.le_refl 256) St.init

/-- The entries after a visit. -/
theorem visit_get (f : List (K × V) → K → V → V × Bool) {es : List (K × V)} (hn : (FMap.keys es).Nodup) (log : List (K × V)) :
    ∃ l, (visit f log es).1 = log ++ l ∧
      (∀ i k v, l[i]? = some (k, v) → FMap.get (visit f log es).2 k = some (f (log ++ l.take i) k v).1) ∧
      (∀ k, k ∉ l.map (fun e => e.1) → FMap.get (visit f log es).2 k = FMap.get es k) := by
  induction es generalizing log with
  | nil => exact ⟨[], by simp [visit], by simp, fun _ _ => rfl⟩
  | cons e es ih =>
    obtain ⟨k, v⟩ := e
    simp only [FMap.keys, List.map_cons, List.nodup_cons] at hn
    simp only [visit]
    split
    · obtain ⟨l, g1, g2, g3⟩ := ih hn.2 (log ++ [(k, v)])
      refine ⟨(k, v) :: l, by rw [g1]; simp, ?_, ?_⟩
      · intro i k' v' hi
        cases i with
        | zero =>
          simp only [List.getElem?_cons_zero, Option.some.injEq, Prod.mk.injEq] at hi
          obtain ⟨rfl, rfl⟩ := hi
          simp [FMap.get]
        | succ i =>
          simp only [List.getElem?_cons_succ] at hi
          have hk' : k' ≠ k := by
            rintro rfl
            have : k' ∈ FMap.keys (visit f (log ++ [(k', v)]) es).2 := by
              refine Classical.byContradiction fun hc => ?_
              rw [← FMap.get_eq_none, g2 i k' v' hi] at hc
              cases hc
            rw [visit_keys] at this
            exact hn.1 this
          rw [FMap.get, if_neg hk', g2 i k' v' hi]
          simp
      · intro k' hk'
        simp only [List.map_cons, List.mem_cons, not_or] at hk'
        rw [FMap.get, if_neg hk'.1, FMap.get, if_neg hk'.1]
        exact g3 k' hk'.2
    · refine ⟨[(k, v)], rfl, ?_, ?_⟩
      · intro i k' v' hi
        cases i with
        | zero =>
          simp only [List.getElem?_cons_zero, Option.some.injEq, Prod.mk.injEq] at hi
          obtain ⟨rfl, rfl⟩ := hi
          simp [FMap.get]
        | succ i => simp at hi
      · intro k' hk'
        simp only [List.map_cons, List.map_nil, List.mem_singleton] at hk'
        rw [FMap.get, if_neg hk', FMap.get, if_neg hk']

/-- C20.  What the callback of `All` leaves in the value of an entry is what `Get` returns afterwards; entries
that are not visited keep their value. -/
theorem C20_all_updates (hc : MapContainer I sd H P lossy ex) {ops : List (MOp K V)} (h : EachNew P [] ops)
    (f : List (K × V) → K → V → V × Bool) (hf : 256 ≤ fuel) (s : St K V) :
    ∃ l, I.After fuel sd s ops [.all f] [.log l] ∧
      (∀ i k v, l[i]? = some (k, v) →
        I.After fuel sd s ops [.all f, .get k] [.log l, .pair (f (l.take i) k v).1 true]) ∧
      ∀ k, k ∉ l.map (fun e => e.1) → ∃ a, I.After fuel sd s ops [.get k] [a] ∧
        I.After fuel sd s ops [.all f, .get k] [.log l, a] := by
  obtain ⟨os, m, r1, n1, k1, r2⟩ := hc.reach h hf s
  obtain ⟨_, m₁, a1, r⟩ := r2 [.all f] (EachNew.quiet (by simp [MOp.stores]))
  rw [run_all] at r
  obtain ⟨o₁, hp, hs, _, ⟨rfl, _⟩, rfl⟩ := r
  have hno := (FMap.keys_perm hp).nodup_iff.2 n1
  obtain ⟨l, g1, g2, g3⟩ := visit_get f hno []
  rw [List.nil_append] at g1
  have hget : ∀ k, I.After fuel sd s ops [.all f, .get k]
      [.log l, .pair ((FMap.get (visit f [] o₁).2 k).getD default) (FMap.get (visit f [] o₁).2 k).isSome] := by
    intro k
    obtain ⟨_, m₂, a2, r⟩ := r2 [.all f, .get k] (EachNew.quiet (by simp [MOp.stores]))
    rw [run_all] at r
    obtain ⟨o₂, hp', hs', _, r, rfl⟩ := r
    obtain rfl : o₂ = o₁ := perm_sorted_eq (fun a b => Before.asymm) (hp'.trans hp.symm) hs' hs
    simp only [run_get, run_nil, and_assoc, exists_and_left, exists_eq_left] at r
    rw [r.2, g1] at a2
    exact a2
  rw [g1] at a1
  refine ⟨l, a1, fun i k v hi => ?_, fun k hk => ?_⟩
  · have := hget k
    rw [g2 i k v hi] at this
    simpa using this
  · have h3 := hget k
    rw [g3 k hk, FMap.get_perm hp hno] at h3
    obtain ⟨_, m₂, a2, r⟩ := r2 [.get k] (EachNew.quiet (by simp [MOp.stores]))
    simp only [run_get, run_nil, and_assoc, exists_and_left, exists_eq_left] at r
    exact ⟨_, r.2 ▸ a2, h3⟩

example := C20_all_updates (MapContainer.string (V := Nat) toyHash 0#64) exOps_str (fun log _ v => (v + 1, decide (log.length < 2))) (Nat.le_refl 256) St.init

/-- C21.  The pointer that `Ptr` returns for a stored key is not nil, and stays the pointer of that key through any
later calls that do not delete it; it always points at the value that `Get` returns. -/
theorem C21_ptr_stable (hc : MapContainer I sd H P lossy ex) {ops : List (MOp K V)} {k : K} (h : EachNew P [] ops)
    (hk : k ∈ keysAfter [] ops) (hf : 256 ≤ fuel) (s : St K V) :
    ∃ m os s₁ p, I.session fuel sd ops s = .ok ((m, os), s₁) ∧ I.Ptr fuel m k s₁ = .ok (some p, s₁) ∧
      ∀ ops', EachNew P (keysAfter [] ops) ops' → .del k ∉ ops' →
        ∃ os' s₂ o v, I.run fuel m ops' s₁ = .ok (os', s₂) ∧ I.Ptr fuel m k s₂ = .ok (some p, s₂) ∧
          loadKv p s₂ = .ok ((o, v), s₂) ∧ I.Get fuel m k s₂ = .ok ((v, true), s₂) := by
  obtain ⟨os, s₁, t, F, m, e1, i1, e3, e4⟩ := hc.session h hf s
  obtain ⟨okS, okM, ok⟩ := hc.ok
  have hkt : k ∈ (absT t).keys := by rw [← (FMap.keys_perm e4).mem_iff, e3.keysAfter]; exact hk
  cases hfd : find (nbOf H) k t 0 with
  | none => exact absurd hkt ((find_none_iff i1 k).1 hfd)
  | some e =>
    obtain ⟨p, v⟩ := e
    have hmem := (find_eq_some (nbOf_lt H) i1.wf).1 hfd
    refine ⟨_, os, s₁, p, e1, ?_, fun ops' h' hd => ?_⟩
    · rw [Ptr_run ok i1 hf k, hfd]; rfl
    · obtain ⟨os', s₂, t', F', e5, i2, _, _, hkeep⟩ := map_run ok hf ops' (ks := keysAfter [] ops) i1
        (fun x => by rw [← (FMap.keys_perm e4).mem_iff]; exact (e3.keysAfter x).symm) h'
      obtain ⟨v', hv'⟩ := hkeep _ hmem hd
      have hfd' : find (nbOf H) k t' 0 = some (p, v') := (find_eq_some (nbOf_lt H) i2.wf).2 hv'
      obtain ⟨o, ho⟩ := load_found ok i2 hfd'
      refine ⟨os', s₂, o, v', e5, ?_, ho, ?_⟩
      · rw [Ptr_run ok i2 hf k, hfd']; rfl
      · rw [Get_run ok i2 hf k, ← find_absT i2.wf, hfd']; rfl

example := C21_ptr_stable (MapContainer.string (V := Nat) toyHash 0#64) (k := strKey 0x11) exOps_str (by decide +kernel) (Nat.le_refl 256) St.init

/-- C22.  Assigning `v` through the pointer that `Ptr(k)` returns makes `Get(k)` return `v`.  (That other keys are
not affected: `C12_updates_are_local`.) -/
theorem C22_write_through (hc : MapContainer I sd H P lossy ex) {ops : List (MOp K V)} {k : K} (v : V)
    (h : EachNew P [] ops) (hk : k ∈ keysAfter [] ops) (hf : 256 ≤ fuel) (s : St K V) :
    I.After fuel sd s ops [.write k v, .get k] [.unit, .pair v true] := by
  obtain ⟨os, m, r1, n1, k1, r2⟩ := hc.reach h hf s
  obtain ⟨os', m', a1, r⟩ := r2 [.write k v, .get k] (EachNew.quiet (by simp [MOp.stores]))
  have : (m.get k).isSome = true := isSome_get.2 ((k1 k).2 hk)
  simp only [run_write, this, if_true, run_get, run_nil, and_assoc, exists_and_left, exists_eq_left, FMap.get_set_same] at r
  exact r.2 ▸ a1

example := C22_write_through (MapContainer.string (V := Nat) toyHash 0#64) (k := strKey 0x11) 77 exOps_str (by decide +kernel) (Nat.le_refl 256) St.init

/-- C23.  `Mod(k, f)` calls `f` exactly once, with the current value and true if the key is present, and the zero
value and false otherwise; afterwards `Get(k)` returns what `f` left. -/
theorem C23_mod (hc : MapContainer I sd H P lossy ex) {ops : List (MOp K V)} {k : K} {f : V → Bool → V}
    (h : EachNew P [] (ops ++ [.mod k f])) (hf : 256 ≤ fuel) (s : St K V) :
    ∃ v, (k ∉ keysAfter [] ops → v = default) ∧
      I.After fuel sd s ops [.get k, .mod k f, .get k]
        [.pair v (decide (k ∈ keysAfter [] ops)), .calls [(v, decide (k ∈ keysAfter [] ops))],
          .pair (f v (decide (k ∈ keysAfter [] ops))) true] := by
  obtain ⟨h1, h2⟩ := EachNew.append.1 h
  obtain ⟨os, m, r1, n1, k1, r2⟩ := hc.reach h1 hf s
  obtain ⟨os', m', a1, r⟩ := r2 [.get k, .mod k f, .get k] ⟨by simp [MOp.stores], h2.1, EachNew.quiet (by simp [MOp.stores])⟩
  have : (m.get k).isSome = decide (k ∈ keysAfter [] ops) := by
    rw [Bool.eq_iff_iff, isSome_get, k1, decide_eq_true_iff]
  simp only [run_get, run_mod, run_nil, and_assoc, exists_and_left, exists_eq_left, FMap.get_set_same, this] at r
  refine ⟨_, fun hk => ?_, r.2 ▸ a1⟩
  rw [FMap.get_eq_none.2 (fun hk' => hk ((k1 k).1 hk'))]; rfl

/-- A present key. -/
example := C23_mod (MapContainer.string (V := Nat) toyHash 0#64) (ops := exOps strKey) (k := strKey 0x11) (f := fun v b => if b then v + 1 else 0) (by decide +kernel) (Nat.le_refl 256) St.init

/-- A new key that collides. -/
example := C23_mod (MapContainer.string (V := Nat) toyHash 0#64) (ops := exOps strKey) (k := strKey 0x12) (f := fun v b => if b then v + 1 else 0) (by decide +kernel) (Nat.le_refl 256) St.init

/-- C40.  For a key that is not stored, `Get` returns the zero value and false, `Val` the zero value, `Ptr` nil. -/
theorem C40_missing (hc : MapContainer I sd H P lossy ex) {ops : List (MOp K V)} {k : K}
    (h : EachNew P [] ops) (hk : k ∉ keysAfter [] ops) (hf : 256 ≤ fuel) (s : St K V) :
    I.After fuel sd s ops [.get k, .val k, .ptr k] [.pair default false, .one default, .opt none] := by
  obtain ⟨os, m, r1, n1, k1, r2⟩ := hc.reach h hf s
  obtain ⟨os', m', a1, r⟩ := r2 [.get k, .val k, .ptr k] (EachNew.quiet (by simp [MOp.stores]))
  have : m.get k = none := FMap.get_eq_none.2 (fun hk' => hk ((k1 k).1 hk'))
  simp only [run_get, run_val, run_ptr, run_nil, and_assoc, exists_and_left, exists_eq_left, this] at r
  exact r.2 ▸ a1

example := C40_missing (MapContainer.string (V := Nat) toyHash 0#64) (k := strKey 0x12) exOps_str (by decide +kernel) (Nat.le_refl 256) St.init

end

end Amt
