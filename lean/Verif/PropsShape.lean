/-
The shape of the memory (C27), and the number of levels that a search visits (C37).
-/
import Verif.PropsSet
import Verif.PropsMap

set_option linter.unusedVariables false
set_option linter.unusedSectionVars false

namespace Spec

/-- The first nibbles of the hash of `k` are `p`. -/
def Under {K : Type} (H : K → Nat → BitVec 64) (p : List Nat) (k : K) : Prop :=
  ∀ i r, p[i]? = some r → nibble H k i = r

/-- The keys `ks` and `k`: how many levels a search for `k` visits.  The root is always visited; level `j + 1` is
visited if two stored keys have the same first `j + 1` nibbles as `k`. -/
def levels {K : Type} (H : K → Nat → BitVec 64) (ks : List K) (k : K) : Nat :=
  1 + ((List.range 255).filter fun j => decide (2 ≤ (ks.filter fun x => decide (j < sharedLen H k x)).length)).length

/-- The key whose slot a call searches for without inserting it. -/
def MOp.seeks {K V : Type} : MOp K V → Option K
  | .get k | .val k | .ptr k | .del k | .write k _ => some k
  | _ => none

/-- As `MOp.seeks`, for sets. -/
def SOp.seeks {K : Type} : SOp K → Option K
  | .has k | .del k => some k
  | _ => none

end Spec

namespace Amt
open T Spec

/-! ### C27: the link arrays -/

/-- How many of the `r` lowest bits of `x` are set. -/
def bitsBelow (x : BitVec 32) (r : Nat) : Nat := ((List.range r).filter fun i => x.getLsbD i).length

/-- In the memory `s`, the container with root `h` has the branch `lk` at the path `p` of nibbles. -/
inductive BranchAt {K V : Type} (s : St K V) (h : Nat) : List Nat → Link → Prop where
  | root {lk : Link} : s.mem h = some (.links [lk]) → BranchAt s h [] lk
  | child {p : List Nat} {lk x : Link} {b r : Nat} {xs : List Link} : BranchAt s h p lk → lk.ptr = .blk b →
      s.mem b = some (.links xs) → r < 16 → lk.pmap.getLsbD r = true → lk.tmap.getLsbD r = false →
      xs[bitsBelow lk.pmap r]? = some x → BranchAt s h (p ++ [r]) x

theorem bitsBelow_eq {x : BitVec 32} {f : Nat → Bool} (h : BitsAre x f) {r : Nat} (hr : r ≤ 16) :
    bitsBelow x r = cnt f r := by
  rw [bitsBelow, cnt, List.countP_eq_length_filter]
  congr 1
  apply List.filter_congr
  intro i hi
  rw [h i]
  have := List.mem_range.1 hi
  simp [show i < 16 by omega]

theorem under_nil {K : Type} {H : K → Nat → BitVec 64} {k : K} : Under H [] k := fun i r h => by simp at h

theorem under_snoc {K : Type} {H : K → Nat → BitVec 64} {k : K} {p : List Nat} {r : Nat} :
    Under H (p ++ [r]) k ↔ Under H p k ∧ nibble H k p.length = r := by
  constructor
  · intro h
    refine ⟨fun i x hx => h i x ?_, h p.length r (by simp)⟩
    rw [List.getElem?_append_left]
    · exact hx
    · exact (List.getElem?_eq_some_iff.1 hx).1
  · rintro ⟨h1, h2⟩ i x hx
    rcases Nat.lt_trichotomy i p.length with h | h | h
    · rw [List.getElem?_append_left h] at hx; exact h1 i x hx
    · subst h; simp at hx; subst hx; exact h2
    · rw [List.getElem?_eq_none (by simp; omega)] at hx; cases hx

section
variable {K V : Type} [DecidableEq K] {c : Cfg K} {sd : Seed} {H : K → Nat → BitVec 64} {cl : Prop} {s : St K V} {h : Nat}
  {t : T K Ptr V} {F : Nat → Prop}

theorem exists_two {α β : Type} {f : α → β} {l : List α} (hn : (l.map f).Nodup) (hl : 2 ≤ l.length) :
    ∃ a ∈ l, ∃ b ∈ l, f a ≠ f b := by
  cases l with
  | nil => simp at hl
  | cons a l =>
    cases l with
    | nil => simp at hl
    | cons b l =>
      simp only [List.map_cons, List.nodup_cons, List.mem_cons, not_or] at hn
      exact ⟨a, by simp, b, by simp, hn.1.1⟩

/-- What the invariant says about the branch at a path. -/
theorem Inv.branch (hi : Inv c sd H cl s h t F) {p : List Nat} {lk : Link} (hb : BranchAt s h p lk) :
    ∃ st ch F', Rep c s.mem (.node st ch) p.length lk F' ∧ WF (nbOf H) (.node st ch) p.length ∧
      Ht 255 (.node st ch) p.length ∧ (cl → CanonRoot (.node st ch) ∧ (p ≠ [] → Canon (.node st ch))) ∧
      ∀ e, e ∈ leaves (.node st ch) ↔ e ∈ leaves t ∧ Under H p e.1 := by
  induction hb with
  | root hm =>
    obtain ⟨lk', hl, hr⟩ := hi.rep
    have := hl.mem
    rw [hm] at this
    cases this
    have hn := hi.node
    cases t with
    | empty => cases hn
    | leaf => cases hn
    | node st ch =>
      exact ⟨st, ch, F, hr, hi.wf, hi.ht, fun hcl => ⟨hi.canon hcl, fun h => absurd rfl h⟩, fun e => ⟨fun he => ⟨he, under_nil⟩, And.left⟩⟩
  | @child p lk x b r xs hb hp hm hr16 hpm htm hx ih =>
    obtain ⟨st, ch, F', ⟨b', xs', G, ha, ho, hrep⟩, hw, hh, hc, hlv⟩ := ih
    have hbe : b' = b := by have := ha.ptr; rw [hp] at this; cases this; rfl
    subst hbe
    have hxe : xs' = xs := by have := ha.mem; rw [hm] at this; cases this; rfl
    subst hxe
    have hocc : occ ch r = true := by have := ha.pm r; rw [hpm] at this; simpa [hr16] using this.symm
    have hlf : lf ch r = false := by rw [← ha.tm.getLsbD hr16 hocc]; exact htm
    rw [bitsBelow_eq ha.pm (by omega)] at hx
    have hx' := getD_of_getElem? hx
    have hrr := hrep r hr16
    rw [hx'] at hrr
    rw [List.length_append, List.length_singleton]
    have hcn : ∃ st' ch', ch r = .node st' ch' := by
      cases hcr : ch r with
      | empty => simp [occ, hcr, isEmpty] at hocc
      | leaf => simp [lf, hcr, isLeaf] at hlf
      | node st' ch' => exact ⟨_, _, rfl⟩
    obtain ⟨st', ch', hcr⟩ := hcn
    refine ⟨st', ch', G r, by rw [← hcr]; exact hrr, by rw [← hcr]; exact (hw.2 r hr16).2, by rw [← hcr]; exact hh.2 r hr16,
      fun hcl => ?_, fun e => ?_⟩
    · have hcc := (hc hcl).1.2 r hr16
      rw [hcr] at hcc
      exact ⟨⟨hcc.1.1, hcc.2⟩, fun _ => hcc⟩
    · rw [← hcr, under_snoc, ← and_assoc, ← hlv e, mem_leaves_node, ← nbOf_eq_nibble]
      constructor
      · intro he; exact ⟨⟨r, hr16, he⟩, (hw.2 r hr16).1 e he⟩
      · rintro ⟨⟨i, hi16, he⟩, h2⟩
        have := (hw.2 i hi16).1 e he
        rw [h2] at this
        subst this
        exact he

/-- Every branch owns an array with just enough room. -/
theorem Inv.tight (hi : Inv c sd H cl s h t F) {p : List Nat} {lk : Link} (hb : BranchAt s h p lk) :
    p.length ≤ 255 ∧ (∀ i, 16 ≤ i → lk.pmap.getLsbD i = false) ∧ ∃ b xs, lk.ptr = .blk b ∧ s.mem b = some (.links xs) ∧
      xs.length = if p = [] then 16 else 4 * ((bitsBelow lk.pmap 16 + 3) / 4) := by
  obtain ⟨st, ch, F', ⟨b, xs, G, ha, ho, hrep⟩, hw, hh, hc, hlv⟩ := hi.branch hb
  refine ⟨hh.1, fun i hi => by rw [ha.pm i]; simp; omega, b, xs, ha.ptr, ha.mem, ?_⟩
  rw [ha.len, capOf, bitsBelow_eq ha.pm (by omega)]
  simp only [List.length_eq_zero_iff]

/-- The slots of a branch. -/
theorem Inv.slots (hi : Inv c sd H cl s h t F) (hcl : cl) {p : List Nat} {lk : Link} (hb : BranchAt s h p lk) {r : Nat}
    (hr : r < 16) :
    (lk.pmap.getLsbD r = true ↔ ∃ e ∈ leaves t, Under H (p ++ [r]) e.1) ∧
    (lk.tmap.getLsbD r = true ↔ ∃ e ∈ leaves t, Under H (p ++ [r]) e.1 ∧ ∀ e' ∈ leaves t, Under H (p ++ [r]) e'.1 → e' = e) := by
  obtain ⟨st, ch, F', ⟨b, xs, G, ha, ho, hrep⟩, hw, hh, hc, hlv⟩ := hi.branch hb
  have hcr := (hc hcl).1
  have hst : st = 0#32 := hcr.1
  have hlr : ∀ e, e ∈ leaves (ch r) ↔ e ∈ leaves t ∧ Under H (p ++ [r]) e.1 := by
    intro e
    rw [under_snoc, ← and_assoc, ← hlv e, mem_leaves_node, ← nbOf_eq_nibble]
    constructor
    · intro he; exact ⟨⟨r, hr, he⟩, (hw.2 r hr).1 e he⟩
    · rintro ⟨⟨i, hi16, he⟩, h2⟩
      have := (hw.2 i hi16).1 e he
      rw [h2] at this
      subst this
      exact he
  have hex : ∀ Q : K × Ptr × V → Prop, (∃ e ∈ leaves t, Under H (p ++ [r]) e.1 ∧ Q e) ↔ ∃ e ∈ leaves (ch r), Q e := by
    intro Q
    constructor
    · rintro ⟨e, h1, h2, h3⟩; exact ⟨e, (hlr e).2 ⟨h1, h2⟩, h3⟩
    · rintro ⟨e, h1, h3⟩; exact ⟨e, ((hlr e).1 h1).1, ((hlr e).1 h1).2, h3⟩
  have hcc := hcr.2 r hr
  constructor
  · rw [ha.pm r]
    have := hex (fun _ => True)
    simp only [and_true] at this
    rw [this]
    cases hcr' : ch r with
    | empty => simp [occ, hcr', isEmpty, leaves]
    | leaf => simp [occ, hcr', isEmpty, leaves, hr]
    | node st' ch' =>
      rw [hcr'] at hcc
      have hlen := hcc.1.2
      simp only [occ, hcr', isEmpty, hr, decide_true, Bool.not_false, Bool.and_true, true_iff]
      cases hl : leaves (.node st' ch') with
      | nil => rw [hl] at hlen; simp at hlen
      | cons e l => exact ⟨e, by simp⟩
  · rw [hex, ha.tm.bit r, hst]
    have hu : (∃ e ∈ leaves (ch r), ∀ e' ∈ leaves t, Under H (p ++ [r]) e'.1 → e' = e) ↔
        ∃ e ∈ leaves (ch r), ∀ e' ∈ leaves (ch r), e' = e := by
      constructor
      · rintro ⟨e, h1, h2⟩; exact ⟨e, h1, fun e' he' => h2 e' ((hlr e').1 he').1 ((hlr e').1 he').2⟩
      · rintro ⟨e, h1, h2⟩; exact ⟨e, h1, fun e' he' hq => h2 e' ((hlr e').2 ⟨he', hq⟩)⟩
    rw [hu]
    cases hcr' : ch r with
    | empty => simp [lf, hcr', isLeaf, leaves]
    | leaf => simp [lf, hcr', isLeaf, leaves, hr]
    | node st' ch' =>
      have hn := nodup_keys (hw.2 r hr).2
      rw [hcr'] at hcc hn
      have hlen := hcc.1.2
      obtain ⟨a, ha', b, hb', hne⟩ := exists_two hn hlen
      simp only [lf, hcr', isLeaf, Bool.and_false, BitVec.getLsbD_zero, Bool.or_false, Bool.false_eq_true, false_iff]
      rintro ⟨e, he, hall⟩
      exact hne (by rw [hall a ha', hall b hb'])

/-- Where the branches are. -/
theorem Inv.branch_iff (hi : Inv c sd H cl s h t F) (hcl : cl) (p : List Nat) :
    (∃ lk, BranchAt s h p lk) ↔ p = [] ∨ ∃ a ∈ leaves t, ∃ b ∈ leaves t, a.1 ≠ b.1 ∧ Under H p a.1 ∧ Under H p b.1 := by
  constructor
  · rintro ⟨lk, hb⟩
    by_cases hp : p = []
    · exact Or.inl hp
    · right
      obtain ⟨st, ch, F', hr, hw, hh, hc, hlv⟩ := hi.branch hb
      have := (hc hcl).2 hp
      obtain ⟨a, ha', b, hb', hne⟩ := exists_two (nodup_keys hw) this.1.2
      exact ⟨a, ((hlv a).1 ha').1, b, ((hlv b).1 hb').1, hne, ((hlv a).1 ha').2, ((hlv b).1 hb').2⟩
  · have key : ∀ n, ∀ p : List Nat, p.length = n →
        (p = [] ∨ ∃ a ∈ leaves t, ∃ b ∈ leaves t, a.1 ≠ b.1 ∧ Under H p a.1 ∧ Under H p b.1) → ∃ lk, BranchAt s h p lk := by
      intro n
      induction n with
      | zero =>
        intro p hp _
        obtain ⟨lk, hl, _⟩ := hi.rep
        rw [List.length_eq_zero_iff.1 hp]
        exact ⟨lk, .root hl.mem⟩
      | succ n ih =>
        intro p hp hab
        rcases hab with rfl | ⟨a, ha', b, hb', hne, ua, ub⟩
        · cases hp
        have hpe : p = p.dropLast ++ [p.getLast (by intro e; subst e; cases hp)] := (List.dropLast_concat_getLast _).symm
        generalize p.getLast _ = r at hpe
        generalize p.dropLast = q at hpe
        subst hpe
        obtain ⟨lk, hb⟩ := ih q (by simpa using hp) (Or.inr ⟨a, ha', b, hb', hne, (under_snoc.1 ua).1, (under_snoc.1 ub).1⟩)
        have hr : r < 16 := by
          rw [← (under_snoc.1 ua).2, ← nbOf_eq_nibble]; exact nbOf_lt _ _ _
        obtain ⟨hs1, hs2⟩ := hi.slots hcl hb hr
        have h1 := hs1.2 ⟨a, ha', ua⟩
        have h2 : lk.tmap.getLsbD r = false := by
          rw [Bool.eq_false_iff]
          intro h2
          obtain ⟨e, _, _, he⟩ := hs2.1 h2
          exact hne (by rw [he a ha' ua, he b hb' ub])
        obtain ⟨st, ch, F', ⟨b', xs, G, har, _, _⟩, _⟩ := hi.branch hb
        have hocc : occ ch r = true := by have := har.pm r; rw [h1] at this; simpa [hr] using this.symm
        exact ⟨_, .child hb har.ptr har.mem hr h1 h2 (by rw [bitsBelow_eq har.pm (by omega)]; exact har.slot hr hocc)⟩
    exact key _ p rfl

end

/-- C27, maps: after any covered history, the array of the root has 16 slots, and that of any other branch the
least multiple of 4 that is not less than its number of items; no path is longer than 255. -/
theorem C27_map {K V : Type} [DecidableEq K] [Inhabited V] {I : MapImpl K V} {sd : Seed} {H : K → Nat → BitVec 64}
    {P : Bool → List K → K → Prop} {lossy : V → V} {ex : Prop} {fuel : Nat} (hc : MapContainer I sd H P lossy ex)
    {ops : List (MOp K V)} (h : EachNew P [] ops) (hf : 256 ≤ fuel) (s : St K V) :
    ∃ r os s₁, I.session fuel sd ops s = .ok ((some r, os), s₁) ∧ ∀ p lk, BranchAt s₁ r p lk →
      p.length ≤ 255 ∧ (∀ i, 16 ≤ i → lk.pmap.getLsbD i = false) ∧ ∃ b xs, lk.ptr = .blk b ∧ s₁.mem b = some (.links xs) ∧
        xs.length = if p = [] then 16 else 4 * ((bitsBelow lk.pmap 16 + 3) / 4) := by
  obtain ⟨os, s', t, F, m, e1, i1, e3, e4⟩ := hc.session h hf s
  exact ⟨_, os, s', e1, fun p lk hb => i1.tight hb⟩

/-- C27, sets. -/
theorem C27_set {K : Type} [DecidableEq K] {I : SetImpl K} {sd : Seed} {H : K → Nat → BitVec 64}
    {P : List K → K → Prop} {inv : Bool} {ex : Prop} {fuel : Nat} (hc : SetContainer I sd H P inv ex)
    {ops : List (SOp K)} (h : SEachNew H inv P [] ops) (hf : 256 ≤ fuel) (s : St K Unit) :
    ∃ r os s₁, I.session fuel sd ops s = .ok ((some r, os), s₁) ∧ ∀ p lk, BranchAt s₁ r p lk →
      p.length ≤ 255 ∧ (∀ i, 16 ≤ i → lk.pmap.getLsbD i = false) ∧ ∃ b xs, lk.ptr = .blk b ∧ s₁.mem b = some (.links xs) ∧
        xs.length = if p = [] then 16 else 4 * ((bitsBelow lk.pmap 16 + 3) / 4) := by
  obtain ⟨os, s', t, F, m, e1, i1, e3, e4⟩ := hc.session h hf s
  exact ⟨_, os, s', e1, fun p lk hb => i1.tight hb⟩

/-- `Shape s r H ks`: the branches and the bitmaps of the container with root `r` are determined by the stored keys
`ks`: besides the root there is a branch for every path that two stored keys share, a slot of a branch is in use if
some key has that path, and it is marked as holding a key if only one does. -/
def Shape {K V : Type} (s : St K V) (r : Nat) (H : K → Nat → BitVec 64) (ks : List K) : Prop :=
  (∀ p, (∃ lk, BranchAt s r p lk) ↔ p = [] ∨ ∃ a ∈ ks, ∃ b ∈ ks, a ≠ b ∧ Under H p a ∧ Under H p b) ∧
  ∀ p lk, BranchAt s r p lk → ∀ i, i < 16 →
    (lk.pmap.getLsbD i = true ↔ ∃ k ∈ ks, Under H (p ++ [i]) k) ∧
    (lk.tmap.getLsbD i = true ↔ ∃ k ∈ ks, Under H (p ++ [i]) k ∧ ∀ k' ∈ ks, Under H (p ++ [i]) k' → k' = k)

theorem Inv.shape {K V : Type} [DecidableEq K] {c : Cfg K} {sd : Seed} {H : K → Nat → BitVec 64} {cl : Prop} {s : St K V} {h : Nat}
    {t : T K Ptr V} {F : Nat → Prop} (hi : Inv c sd H cl s h t F) (hcl : cl) {ks : List K}
    (hk : ∀ x, x ∈ ks ↔ x ∈ (leaves t).map (fun e => e.1)) : Shape s h H ks := by
  have hex : ∀ Q : K → Prop, (∃ k ∈ ks, Q k) ↔ ∃ e ∈ leaves t, Q e.1 := by
    intro Q
    constructor
    · rintro ⟨k, h1, h2⟩
      obtain ⟨e, he, rfl⟩ := List.mem_map.1 ((hk k).1 h1)
      exact ⟨e, he, h2⟩
    · rintro ⟨e, h1, h2⟩
      exact ⟨e.1, (hk _).2 (List.mem_map_of_mem h1), h2⟩
  have hinj : ∀ e ∈ leaves t, ∀ e' ∈ leaves t, e'.1 = e.1 → e' = e := by
    intro e he e' he' hee
    have hn := nodup_keys hi.wf
    obtain ⟨i, hi', rfl⟩ := List.mem_iff_getElem.1 he
    obtain ⟨j, hj', rfl⟩ := List.mem_iff_getElem.1 he'
    have := (List.getElem_inj (xs := (leaves t).map (fun e => e.1)) (i := j) (j := i) (h₀ := by simpa using hj')
      (h₁ := by simpa using hi') hn).1 (by simpa using hee)
    subst this; rfl
  refine ⟨fun p => ?_, fun p lk hb i h16 => ?_⟩
  · rw [hi.branch_iff hcl p, hex]
    simp only [hex]
  · obtain ⟨h1, h2⟩ := hi.slots hcl hb h16
    rw [h1, h2, hex, hex]
    refine ⟨Iff.rfl, ?_⟩
    constructor
    · rintro ⟨e, he, hu, hall⟩
      refine ⟨e, he, hu, fun k' hk' hu' => ?_⟩
      obtain ⟨e', he', rfl⟩ := List.mem_map.1 ((hk k').1 hk')
      rw [hall e' he' hu']
    · rintro ⟨e, he, hu, hall⟩
      exact ⟨e, he, hu, fun e' he' hu' => hinj e he e' he' (hall e'.1 ((hk _).2 (List.mem_map_of_mem he')) hu')⟩

/-- C27 and C19, maps: the stored keys determine the branches and bitmaps. -/
theorem C27_map_shape {K V : Type} [DecidableEq K] [Inhabited V] {I : MapImpl K V} {sd : Seed} {H : K → Nat → BitVec 64}
    {P : Bool → List K → K → Prop} {lossy : V → V} {ex : Prop} {fuel : Nat} (hc : MapContainer I sd H P lossy ex) (hex : ex)
    {ops : List (MOp K V)} (h : EachNew P [] ops) (hf : 256 ≤ fuel) (s : St K V) :
    ∃ r os s₁, I.session fuel sd ops s = .ok ((some r, os), s₁) ∧ Shape s₁ r H (keysAfter [] ops) := by
  obtain ⟨os, s', t, F, m, e1, i1, e3, e4⟩ := hc.session h hf s
  refine ⟨_, os, s', e1, i1.shape hex fun x => ?_⟩
  rw [← absT_keys, ← (FMap.keys_perm e4).mem_iff]
  exact (e3.keysAfter x).symm

/-- C27 and C19, sets. -/
theorem C27_set_shape {K : Type} [DecidableEq K] {I : SetImpl K} {sd : Seed} {H : K → Nat → BitVec 64}
    {P : List K → K → Prop} {inv : Bool} {ex : Prop} {fuel : Nat} (hc : SetContainer I sd H P inv ex) (hex : ex)
    {ops : List (SOp K)} (h : SEachNew H inv P [] ops) (hf : 256 ≤ fuel) (s : St K Unit) :
    ∃ r os s₁, I.session fuel sd ops s = .ok ((some r, os), s₁) ∧ Shape s₁ r H (elemsAfterX H inv [] ops) := by
  obtain ⟨os, s', t, F, m, e1, i1, e3, e4⟩ := hc.session h hf s
  refine ⟨_, os, s', e1, i1.shape hex fun x => ?_⟩
  rw [← e3.elemsAfterX x, e4.mem_iff]; rfl

/-! ### C37: the levels visited by a search -/

namespace T
variable {K P V : Type} (nb : K → Nat → Nat)

/-- How many branches the search for `key` visits. -/
def rounds (key : K) : T K P V → Nat → Nat
  | empty, _ => 0
  | leaf _ _ _, _ => 0
  | node _ ch, d => 1 + rounds key (ch (nb key d)) (d + 1)

/-- How many stored entries have the first `j` nibbles of `key`. -/
def agreeing (key : K) (l : List (K × P × V)) (j : Nat) : Nat :=
  (l.filter fun e => decide (∀ i, i < j → nb key i = nb e.1 i)).length

/-- How many of the depths from `d` to 255 satisfy `f`. -/
def countFrom (f : Nat → Bool) (d : Nat) : Nat := ((List.range 256).filter fun j => decide (d ≤ j) && f j).length

theorem countFrom_step (f : Nat → Bool) {d : Nat} (hd : d < 256) :
    countFrom f d = (if f d then 1 else 0) + countFrom f (d + 1) := by
  unfold countFrom
  have : ∀ n, ((List.range n).filter fun j => decide (d ≤ j) && f j).length =
      (if d < n then (if f d then 1 else 0) else 0) + ((List.range n).filter fun j => decide (d + 1 ≤ j) && f j).length := by
    intro n
    induction n with
    | zero => simp
    | succ n ih =>
      rw [List.range_succ, List.filter_append, List.filter_append, List.length_append, List.length_append, ih]
      rcases Nat.lt_trichotomy d n with h | h | h
      · rw [if_pos h, if_pos (show d < n + 1 by omega)]
        have h1 : d ≤ n := by omega
        have h2 : d + 1 ≤ n := h
        cases hfn : f n <;> simp [hfn, h1, h2] <;> omega
      · subst h
        rw [if_neg (by omega), if_pos (by omega)]
        have : ((List.range d).filter fun j => decide (d + 1 ≤ j) && f j).length = 0 := by
          rw [List.length_eq_zero_iff, List.filter_eq_nil_iff]
          intro a ha
          have := List.mem_range.1 ha
          simp; omega
        rw [this]
        cases hfn : f d <;> simp [hfn]
      · simp [show ¬ d ≤ n from by omega, show ¬ d + 1 ≤ n from by omega, show ¬ d < n from by omega, show ¬ d < n + 1 from by omega]
  rw [this 256, if_pos hd]

theorem countFrom_zero {f : Nat → Bool} {d : Nat} (h : ∀ j, d ≤ j → j < 256 → f j = false) : countFrom f d = 0 := by
  unfold countFrom
  rw [List.length_eq_zero_iff, List.filter_eq_nil_iff]
  intro a ha
  have := List.mem_range.1 ha
  by_cases hd : d ≤ a
  · simp [h a hd this]
  · simp [hd]

theorem countFrom_congr {f g : Nat → Bool} {d : Nat} (h : ∀ j, d ≤ j → f j = g j) : countFrom f d = countFrom g d := by
  unfold countFrom
  congr 1
  apply List.filter_congr
  intro a ha
  by_cases hd : d ≤ a
  · simp [hd, h a hd]
  · simp [hd]

section
variable [DecidableEq K] {nb : K → Nat → Nat}

/-- Only the entries of one child share more nibbles with the key. -/
theorem agreeing_node (hnb : ∀ k d, nb k d < 16) {key : K} {st : BitVec 32} {ch : Nat → T K P V} {d j : Nat}
    (hw : WF nb (node st ch) d) (hj : d < j) :
    agreeing nb key (leaves (node st ch)) j = agreeing nb key (leaves (ch (nb key d))) j := by
  unfold agreeing
  have hcl := (hw.2 _ (hnb key d))
  have n1 : ((leaves (node st ch)).map (fun e => e.1)).Nodup := nodup_keys hw
  have n2 : ((leaves (ch (nb key d))).map (fun e => e.1)).Nodup := nodup_keys hcl.2
  have nd : ∀ l : List (K × P × V), (l.map (fun e => e.1)).Nodup → l.Nodup := by
    intro l hl
    exact List.Pairwise.of_map (f := fun e : K × P × V => e.1) (fun a b hab e => hab (by rw [e])) hl
  apply List.Perm.length_eq
  rw [List.perm_ext_iff_of_nodup ((nd _ n1).filter _) ((nd _ n2).filter _)]
  intro e
  rw [List.mem_filter, List.mem_filter]
  simp only [decide_eq_true_eq, mem_leaves_node]
  constructor
  · rintro ⟨⟨i, hi, he⟩, h2⟩
    have := (hw.2 i hi).1 e he
    rw [← h2 d hj] at this
    subst this
    exact ⟨he, h2⟩
  · rintro ⟨he, h2⟩; exact ⟨⟨_, hnb key d, he⟩, h2⟩

theorem rounds_eq (hnb : ∀ k d, nb k d < 16) {key : K} {t : T K P V} {d : Nat} (hp : Pre nb key t d) (hw : WF nb t d)
    (hh : Ht 255 t d) (hc : Canon t) :
    rounds nb key t d = countFrom (fun j => decide (2 ≤ agreeing nb key (leaves t) j)) d := by
  induction t generalizing d with
  | empty => rw [countFrom_zero]; · rfl
             · intro j _ _; simp [agreeing, leaves]
  | leaf k p v =>
    rw [countFrom_zero]
    · rfl
    · intro j _ _
      rw [decide_eq_false_iff_not]
      have := List.length_filter_le (fun e : K × P × V => decide (∀ i, i < j → nb key i = nb e.1 i)) (leaves (leaf k p v))
      simp only [agreeing]
      simp only [leaves, List.length_singleton] at this ⊢
      omega
  | node st ch ih =>
    have hd := hh.1
    rw [countFrom_step _ (by omega), if_pos, rounds, ih (nb key d) (hp.child hnb hw) (hw.2 _ (hnb key d)).2 (hh.2 _ (hnb key d))
      (hc.2 _ (hnb key d))]
    · congr 1
      apply countFrom_congr
      intro j hj
      rw [agreeing_node hnb hw (by omega)]
    · rw [decide_eq_true_eq, agreeing, List.filter_eq_self.2]
      · exact hc.1.2
      · intro e he
        rw [decide_eq_true_eq]
        exact fun i hi => (hp e he i hi).symm

end
end T

section
variable {K V : Type} [DecidableEq K] {c : Cfg K} {sd : Seed} {H : K → Nat → BitVec 64} {cl : Prop} {s : St K V} {h : Nat}
  {t : T K Ptr V} {F : Nat → Prop}

theorem Inv.rounds_levels (hi : Inv c sd H cl s h t F) (hcl : cl) {ks : List K} (hn : ks.Nodup)
    (hk : ∀ x, x ∈ ks ↔ x ∈ (leaves t).map (fun e => e.1)) (key : K) :
    rounds (nbOf H) key t 0 = levels H ks key := by
  have hnb := nbOf_lt H
  have hnode := hi.node
  have hw := hi.wf
  have hh := hi.ht
  have hc := hi.canon hcl
  have hpre : Pre (nbOf H) key t 0 := fun e he j hj => by omega
  have hperm : ks.Perm ((leaves t).map (fun e => e.1)) := (List.perm_ext_iff_of_nodup hn (nodup_keys hw)).2 hk
  have hag : ∀ j, j < 256 → agreeing (nbOf H) key (leaves t) j = (ks.filter fun x => decide (j ≤ sharedLen H key x)).length := by
    intro j hj
    rw [(hperm.filter _).length_eq, List.filter_map, List.length_map, agreeing]
    congr 1
    apply List.filter_congr
    intro e he
    simp only [Function.comp, decide_eq_decide, le_sharedLen, Agree, nbOf_eq_nibble]
    exact ⟨fun h => ⟨by omega, h⟩, fun h => h.2⟩
  cases t with
  | empty => cases hnode
  | leaf => cases hnode
  | node st ch =>
    rw [rounds, levels, rounds_eq hnb (hpre.child hnb hw) (hw.2 _ (hnb key 0)).2 (hh.2 _ (hnb key 0)) (hc.2 _ (hnb key 0))]
    congr 1
    rw [countFrom_congr (g := fun j => decide (2 ≤ agreeing (nbOf H) key (leaves (T.node st ch)) j))
      (fun j hj => by rw [agreeing_node hnb hw (by omega)]), countFrom, List.range_succ_eq_map]
    simp only [List.filter_cons, show ¬ (0 + 1 ≤ 0) by omega, decide_false, Bool.false_and, Bool.false_eq_true, if_false]
    rw [List.filter_map, List.length_map]
    congr 1
    apply List.filter_congr
    intro j hj
    have := List.mem_range.1 hj
    simp only [Function.comp, hag (j + 1) (by omega)]
    simp; rfl

/-- The search loop needs one round for each branch it visits, and no more. -/
theorem search_rounds (L : Laws c sd H) (key : K) (t : T K Ptr V) :
    ∀ {d b0 i0 : Nat} {xs0 : List Link} {lk : Link} {F : Nat → Prop} {cur : Cur} {fuel : Nat},
    t.isNode = true → Loc s b0 i0 xs0 lk F → Rep c s.mem t d lk F → Ht 255 t d →
    CurOk H key d cur → cur.l = ⟨.blk b0, i0⟩ →
    (fuel < rounds (nbOf H) key t d → search c sd key fuel cur s = .error .diverge) ∧
    (rounds (nbOf H) key t d ≤ fuel → ∃ r, search c sd key fuel cur s = .ok (r, s)) := by
  induction t with
  | empty => intro d b0 i0 xs0 lk F cur fuel h; cases h
  | leaf => intro d b0 i0 xs0 lk F cur fuel h; cases h
  | node st ch ih =>
    intro d b0 i0 xs0 lk F cur fuel _ hl hr hh hc hcl
    obtain ⟨b, xs, G, ha, ho, hrep⟩ := hr
    have hd := hh.1
    have hr16 := nbOf_lt H key d
    rw [rounds]
    cases fuel with
    | zero => exact ⟨fun _ => rfl, fun h => by omega⟩
    | succ fuel =>
    cases he : ch (nbOf H key d) with
    | empty => exact ⟨fun h => by simp [rounds] at h, fun _ => ⟨_, search_empty hl ha hc hcl he fuel⟩⟩
    | leaf k p v => exact ⟨fun h => by simp [rounds] at h, fun _ => ⟨_, search_leaf hl ha hc hcl he fuel⟩⟩
    | node st' ch' =>
      have hocc : occ ch (nbOf H key d) = true := by simp [occ, he, isEmpty]
      have hd' := descend_ok L (push_ok hc (nbOf H key d)) (by have := hh.2 _ hr16; rw [he] at this; have := this.1; omega : d + 1 < 256)
        ⟨.blk b, cnt (occ ch) (nbOf H key d)⟩
      have := ih (nbOf H key d) (d := d + 1) (fuel := fuel) (by rw [he]; rfl)
        (hl.child ha ho hr16 hocc) (hrep _ hr16) (hh.2 _ hr16) hd'.1 hd'.2.1
      rw [he] at this
      rw [search_node hl ha hc hcl he fuel]
      exact ⟨fun h => this.1 (by omega), fun h => this.2 (by omega)⟩

/-- A program that starts with a search takes as many rounds. -/
theorem Inv.seek (L : Laws c sd H) (hi : Inv c sd H cl s h t F) {α : Type} (key : K) (g : Cur × Bool → M K V α)
    {n n' : Nat} (hn' : rounds (nbOf H) key t 0 ≤ n') :
    (n < rounds (nbOf H) key t 0 →
      (getRoot h >>= fun r => search c r.seed key n (start c r.seed key h) >>= g) s = .error .diverge) ∧
    (rounds (nbOf H) key t 0 ≤ n →
      (getRoot h >>= fun r => search c r.seed key n (start c r.seed key h) >>= g) s =
      (getRoot h >>= fun r => search c r.seed key n' (start c r.seed key h) >>= g) s) := by
  obtain ⟨lk, hl, hr⟩ := hi.rep
  rw [bind_ok (getRoot_run h s), bind_ok (getRoot_run h s), hi.seed]
  have h1 := search_rounds (fuel := n) L key t hi.node hl hr hi.ht (start_ok L key h) rfl
  have h2 := search_rounds (fuel := n') L key t hi.node hl hr hi.ht (start_ok L key h) rfl
  refine ⟨fun hn => bind_err (h1.1 hn), fun hn => ?_⟩
  obtain ⟨r, e1⟩ := h1.2 hn
  obtain ⟨r', e2⟩ := h2.2 hn'
  have : r = r' := by
    rcases Nat.le_total n n' with hle | hle
    · rcases search_ext c sd key hle (start c sd key h) s with e | e
      · rw [e1] at e; cases e
      · rw [e1, e2] at e; cases e; rfl
    · rcases search_ext c sd key hle (start c sd key h) s with e | e
      · rw [e2] at e; cases e
      · rw [e1, e2] at e; cases e; rfl
  subst this
  rw [bind_ok e1, bind_ok e2]

theorem Inv.rounds_le (hi : Inv c sd H cl s h t F) (key : K) : rounds (nbOf H) key t 0 ≤ 256 := by
  have : ∀ (t : T K Ptr V) (d : Nat), d ≤ 256 → Ht 255 t d → rounds (nbOf H) key t d + d ≤ 256 := by
    intro t
    induction t with
    | empty => intro d hd _; simpa [rounds] using hd
    | leaf => intro d hd _; simpa [rounds] using hd
    | node st ch ih =>
      intro d hd hh
      have := ih (nbOf H key d) (d + 1) (by have := hh.1; omega) (hh.2 _ (nbOf_lt _ _ _))
      rw [rounds]; omega
  exact this t 0 (by omega) hi.ht

theorem Inv.seek_map [Inhabited V] {I : MapImpl K V} (L : Laws I.cfg sd H) (hi : Inv I.cfg sd H cl s h t F) {op : MOp K V} {key : K}
    (hop : op.seeks = some key) {n fuel : Nat} (hf : 256 ≤ fuel) :
    (n < rounds (nbOf H) key t 0 → I.exec n (some h) op s = .error .diverge) ∧
    (rounds (nbOf H) key t 0 ≤ n → I.exec n (some h) op s = I.exec fuel (some h) op s) := by
  have hle := hi.rounds_le key
  have hg : ∃ g : Cur × Bool → M K V (MOut K V), ∀ n, I.exec n (some h) op
      = (getRoot h >>= fun r => search I.cfg r.seed key n (start I.cfg r.seed key h) >>= g) := by
    cases op with
    | get k =>
      cases hop
      exact ⟨_, fun n => by simp only [MapImpl.exec, MapImpl.Get, MapImpl.Ptr, deref, pure_bind, bind_assoc, lookup_eq]; rfl⟩
    | val k =>
      cases hop
      exact ⟨_, fun n => by simp only [MapImpl.exec, MapImpl.Val, MapImpl.Ptr, deref, pure_bind, bind_assoc, lookup_eq]; rfl⟩
    | ptr k =>
      cases hop
      exact ⟨_, fun n => by simp only [MapImpl.exec, MapImpl.Ptr, deref, pure_bind, bind_assoc, lookup_eq]; rfl⟩
    | write k v =>
      cases hop
      exact ⟨_, fun n => by simp only [MapImpl.exec, MapImpl.Ptr, deref, pure_bind, bind_assoc, lookup_eq]; rfl⟩
    | del k =>
      cases hop
      exact ⟨_, fun n => by simp only [MapImpl.exec, MapImpl.Del, deref, pure_bind, bind_assoc, Amt.delete]; rfl⟩
    | _ => cases hop
  obtain ⟨g, hg⟩ := hg
  rw [hg, hg]
  exact hi.seek L key g (by omega)

end

theorem Inv.seek_set {K : Type} [DecidableEq K] {sd : Seed} {H : K → Nat → BitVec 64} {cl : Prop} {s : St K Unit} {h : Nat}
    {t : T K Ptr Unit} {F : Nat → Prop} {I : SetImpl K} (L : Laws I.cfg sd H) (hi : Inv I.cfg sd H cl s h t F)
    {op : SOp K} {key : K} (hop : op.seeks = some key) {n fuel : Nat} (hf : 256 ≤ fuel) :
    (n < rounds (nbOf H) key t 0 → I.exec n (some h) op s = .error .diverge) ∧
    (rounds (nbOf H) key t 0 ≤ n → I.exec n (some h) op s = I.exec fuel (some h) op s) := by
  have hle := hi.rounds_le key
  have hg : ∃ g : Cur × Bool → M K Unit (SOut K), ∀ n, I.exec n (some h) op
      = (getRoot h >>= fun r => search I.cfg r.seed key n (start I.cfg r.seed key h) >>= g) := by
    cases op with
    | has k =>
      cases hop
      exact ⟨_, fun n => by simp only [SetImpl.exec, SetImpl.Has, deref, pure_bind, bind_assoc, lookup_eq]; rfl⟩
    | del k =>
      cases hop
      exact ⟨_, fun n => by simp only [SetImpl.exec, SetImpl.Del, deref, pure_bind, bind_assoc, Amt.delete]; rfl⟩
    | _ => cases hop
  obtain ⟨g, hg⟩ := hg
  rw [hg, hg]
  exact hi.seek L key g (by omega)

/-- C37, maps: after any covered history, `Get`, `Val`, `Ptr` and `Del` of any key `k` visit exactly `levels H ks k`
branches, where `ks` are the stored keys: with fewer rounds of the search loop they do not finish, and with as many
they do whatever they do with more. -/
theorem C37_map {K V : Type} [DecidableEq K] [Inhabited V] {I : MapImpl K V} {sd : Seed} {H : K → Nat → BitVec 64}
    {P : Bool → List K → K → Prop} {lossy : V → V} {ex : Prop} {fuel : Nat} (hc : MapContainer I sd H P lossy ex) (hex : ex)
    {ops : List (MOp K V)} (h : EachNew P [] ops) (hf : 256 ≤ fuel) (s : St K V) :
    ∃ m os s₁, I.session fuel sd ops s = .ok ((m, os), s₁) ∧ ∀ op k, op.seeks = some k → ∀ n,
      (n < levels H (keysAfter [] ops) k → I.exec n m op s₁ = .error .diverge) ∧
      (levels H (keysAfter [] ops) k ≤ n → I.exec n m op s₁ = I.exec fuel m op s₁ ∧ ∃ o s₂, I.exec n m op s₁ = .ok (o, s₂)) := by
  obtain ⟨os, s', t, F, m, e1, i1, e3, e4⟩ := hc.session h hf s
  obtain ⟨okS, okM, h1⟩ := hc.ok
  refine ⟨_, os, s', e1, fun op k hop n => ?_⟩
  have hk : ∀ x, x ∈ keysAfter [] ops ↔ x ∈ (leaves t).map (fun e => e.1) := fun x => by
    rw [← absT_keys, ← (FMap.keys_perm e4).mem_iff]
    exact (e3.keysAfter x).symm
  rw [← i1.rounds_levels hex (nodup_keysAfter (by simp) ops) hk k]
  have := i1.seek_map h1.laws hop (n := n) hf
  refine ⟨this.1, fun hn => ⟨this.2 hn, ?_⟩⟩
  rw [this.2 hn]
  have hnew : NewOk P (absT t).keys op := by
    intro k hk
    cases op <;> first | (cases hop; done) | (exact absurd hk (by simp [MOp.stores]))
  obtain ⟨o, s₂, _, _, e5, _⟩ := map_step h1 i1 hf op hnew
  exact ⟨o, s₂, e5⟩

/-- C37, sets: the same for `Has` and `Del`. -/
theorem C37_set {K : Type} [DecidableEq K] {I : SetImpl K} {sd : Seed} {H : K → Nat → BitVec 64}
    {P : List K → K → Prop} {inv : Bool} {ex : Prop} {fuel : Nat} (hc : SetContainer I sd H P inv ex) (hex : ex)
    {ops : List (SOp K)} (h : SEachNew H inv P [] ops) (hf : 256 ≤ fuel) (s : St K Unit) :
    ∃ m os s₁, I.session fuel sd ops s = .ok ((m, os), s₁) ∧ ∀ op k, op.seeks = some k → ∀ n,
      (n < levels H (elemsAfterX H inv [] ops) k → I.exec n m op s₁ = .error .diverge) ∧
      (levels H (elemsAfterX H inv [] ops) k ≤ n → I.exec n m op s₁ = I.exec fuel m op s₁ ∧ ∃ o s₂, I.exec n m op s₁ = .ok (o, s₂)) := by
  obtain ⟨os, s', t, F, m, e1, i1, e3, e4⟩ := hc.session h hf s
  obtain ⟨okA, h1⟩ := hc.ok
  refine ⟨_, os, s', e1, fun op k hop n => ?_⟩
  have hk : ∀ x, x ∈ elemsAfterX H inv [] ops ↔ x ∈ (leaves t).map (fun e => e.1) := fun x => by
    rw [← e3.elemsAfterX x, e4.mem_iff]; rfl
  rw [← i1.rounds_levels hex (nodup_elemsAfterX inv (by simp) ops) hk k]
  have := i1.seek_set h1.laws hop (n := n) hf
  refine ⟨this.1, fun hn => ⟨this.2 hn, ?_⟩⟩
  rw [this.2 hn]
  have hnew : ∀ k ∈ op.stores, k ∉ absS t → P (absS t) k := by
    intro k hk
    cases op <;> first | (cases hop; done) | (exact absurd hk (by simp [SOp.stores]))
  obtain ⟨o, s₂, _, _, e5, _⟩ := set_step h1 i1 hf op hnew
  exact ⟨o, s₂, e5⟩

/-! ### What `levels` is -/

section
variable {K : Type} [DecidableEq K] {H : K → Nat → BitVec 64}

theorem length_filter_lt (n d : Nat) : ((List.range n).filter fun j => decide (j < d)).length = min n d := by
  induction n with
  | zero => simp
  | succ n ih =>
    rw [List.range_succ, List.filter_append, List.length_append, ih]
    by_cases h : n < d
    · simp [h]; omega
    · simp [h]; omega

theorem two_le_filter {ks : List K} (hn : ks.Nodup) {p : K → Bool} {a b : K} (ha : a ∈ ks) (hb : b ∈ ks) (hab : a ≠ b)
    (pa : p a = true) (pb : p b = true) : 2 ≤ (ks.filter p).length := by
  have h1 : [a, b].Nodup := by simpa using hab
  have := List.Nodup.length_le_of_subset h1 (l₂ := ks.filter p) (by
    intro x hx
    simp only [List.mem_cons, List.not_mem_nil, or_false] at hx
    rcases hx with rfl | rfl
    · exact List.mem_filter.2 ⟨ha, pa⟩
    · exact List.mem_filter.2 ⟨hb, pb⟩)
  simpa using this

theorem sharedLen_self (k : K) : sharedLen H k k = 256 :=
  Nat.le_antisymm (sharedLen_le H k k) (le_sharedLen.2 ⟨Nat.le_refl _, fun _ _ => rfl⟩)

/-- A stored key is found as many levels below the root as it shares nibbles with some other stored key. -/
theorem levels_stored {ks : List K} (hn : ks.Nodup) {k : K} (hk : k ∈ ks) : levels H ks k = 1 + min 255 (depthIn H ks k) := by
  rw [levels, ← length_filter_lt]
  congr 2
  apply List.filter_congr
  intro j hj
  have hj := List.mem_range.1 hj
  rw [decide_eq_decide]
  constructor
  · intro h
    obtain ⟨a, ha, b, hb, hne⟩ := exists_two (f := id) (by rw [List.map_id]; exact List.Pairwise.filter _ hn) h
    have : ∃ x ∈ ks.filter (fun x => decide (j < sharedLen H k x)), x ≠ k := by
      by_cases hak : a = k
      · exact ⟨b, hb, fun e => hne (by rw [hak, e])⟩
      · exact ⟨a, ha, hak⟩
    obtain ⟨x, hx, hxk⟩ := this
    obtain ⟨h1, h2⟩ := List.mem_filter.1 hx
    exact Nat.lt_of_lt_of_le (by simpa using h2) (le_depthIn h1 hxk)
  · intro h
    obtain ⟨x, hx, hxk, hs⟩ : ∃ x ∈ ks, x ≠ k ∧ j < sharedLen H k x := by
      apply Classical.byContradiction
      intro hno
      have := depthIn_le (H := H) (ks := ks) (k := k) (n := j) (fun x hx hxk => Nat.le_of_not_lt fun h' => hno ⟨x, hx, hxk, h'⟩)
      omega
    exact two_le_filter hn hk hx (Ne.symm hxk) (by simp [sharedLen_self]; omega) (by simpa using hs)

/-- No search goes deeper than one to a stored key. -/
theorem levels_le {ks : List K} (hn : ks.Nodup) {n : Nat} (h : ∀ x ∈ ks, depthIn H ks x ≤ n) (k : K) :
    levels H ks k ≤ 1 + n := by
  have : levels H ks k ≤ 1 + ((List.range 255).filter fun j => decide (j < n)).length := by
    rw [levels]
    refine Nat.add_le_add_left ?_ 1
    rw [← List.countP_eq_length_filter, ← List.countP_eq_length_filter]
    apply List.countP_mono_left
    intro j _ hj
    rw [decide_eq_true_eq] at hj ⊢
    obtain ⟨a, ha, b, hb, hne⟩ := exists_two (f := id) (by rw [List.map_id]; exact List.Pairwise.filter _ hn) hj
    obtain ⟨a1, a2⟩ := List.mem_filter.1 ha
    obtain ⟨b1, b2⟩ := List.mem_filter.1 hb
    rw [decide_eq_true_eq] at a2 b2
    have ha3 := le_sharedLen.1 (show j + 1 ≤ sharedLen H k a from a2)
    have hb3 := le_sharedLen.1 (show j + 1 ≤ sharedLen H k b from b2)
    have hs : j + 1 ≤ sharedLen H a b := le_sharedLen.2 ⟨ha3.1, fun i hi => by
      rw [← ha3.2 i hi, ← hb3.2 i hi]⟩
    exact Nat.lt_of_lt_of_le hs (Nat.le_trans (le_depthIn b1 (Ne.symm hne)) (h a a1))
  rw [length_filter_lt] at this
  omega

end

/-! ### Instances -/

example := C27_map (MapContainer.int (V := Nat) toyHash 0#64) exOps_int (Nat.le_refl 256) St.init
example := C27_map_shape (MapContainer.string (V := Nat) toyHash 0#64) trivial exOps_str (Nat.le_refl 256) St.init
example := C27_set (SetContainer.int toyHash 0#64) exOpsS_int (Nat.le_refl 256) St.init
example := C27_set_shape (SetContainer.string toyHash 0#64) trivial exOpsS_str (Nat.le_refl 256) St.init
example := C37_map (MapContainer.string (V := Nat) toyHash 0#64) trivial exOps_str (Nat.le_refl 256) St.init
example := C37_set (SetContainer.string toyHash 0#64) trivial exOpsS_str (Nat.le_refl 256) St.init

end Amt
