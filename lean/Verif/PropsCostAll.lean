/-
How many times `All` accesses the memory (C89).
-/
import Verif.CostScan
import Verif.PropsCostMean

set_option linter.unusedVariables false
set_option linter.unusedSectionVars false

namespace Amt
open T Spec

/-! ### The branches of a trie -/

section
variable {K P V : Type}

/-- The paths to the branches of a trie. -/
def T.paths : T K P V → List (List Nat)
  | .node st ch => [] :: (List.range 16).flatMap fun i => (paths (ch i)).map fun p => i :: p
  | _ => []

theorem nodup_paths (t : T K P V) : t.paths.Nodup := by
  induction t with
  | empty => simp [T.paths]
  | leaf => simp [T.paths]
  | node st ch ih =>
    rw [T.paths, List.nodup_cons]
    refine ⟨by simp, List.pairwise_flatMap.2 ⟨fun i _ => ?_, ?_⟩⟩
    · exact List.Pairwise.map _ (fun a b hab e => hab (List.cons.inj e).2) (ih i)
    · refine List.Pairwise.imp ?_ List.nodup_range
      intro i j hij x hx y hy e
      obtain ⟨p, _, rfl⟩ := List.mem_map.1 hx
      obtain ⟨p', _, rfl⟩ := List.mem_map.1 hy
      exact hij (List.cons.inj e).1

/-- Two keys lead to every branch of a canonical trie. -/
theorem mem_paths [DecidableEq K] {nb : K → Nat → Nat} : ∀ {t : T K P V} {d : Nat} {p : List Nat}, WF nb t d → Canon t → Ht 255 t d → p ∈ t.paths →
    d + p.length ≤ 255 ∧ ∃ a ∈ leaves t, ∃ b ∈ leaves t, a.1 ≠ b.1 ∧ ∀ i r, p[i]? = some r → nb a.1 (d + i) = r ∧ nb b.1 (d + i) = r := by
  intro t
  induction t with
  | empty => intro d p _ _ _ h; cases h
  | leaf => intro d p _ _ _ h; cases h
  | node st ch ih =>
    intro d p hw hc hh hp
    rw [T.paths, List.mem_cons] at hp
    rcases hp with rfl | hp
    · obtain ⟨a, ha, b, hb, hab⟩ := exists_two (nodup_keys hw) hc.1.2
      exact ⟨hh.1, a, ha, b, hb, hab, fun i r h => by simp at h⟩
    · obtain ⟨i, hi, hq⟩ := List.mem_flatMap.1 hp
      obtain ⟨p, hp', rfl⟩ := List.mem_map.1 hq
      have hi := List.mem_range.1 hi
      obtain ⟨h1, a, ha, b, hb, hab, h2⟩ := ih i (hw.2 i hi).2 (hc.2 i hi) (hh.2 i hi) hp'
      refine ⟨by rw [List.length_cons]; omega, a, mem_leaves_node.2 ⟨i, hi, ha⟩, b, mem_leaves_node.2 ⟨i, hi, hb⟩, hab, fun j r hj => ?_⟩
      cases j with
      | zero =>
        cases hj
        exact ⟨(hw.2 _ hi).1 a ha, (hw.2 _ hi).1 b hb⟩
      | succ j =>
        rw [List.getElem?_cons_succ] at hj
        have := h2 j r hj
        rwa [show d + 1 + j = d + (j + 1) by omega] at this

/-- The branches other than the root are at the paths that keys share. -/
theorem length_paths [DecidableEq K] {H : K → Nat → BitVec 64} {t : T K P V} (hn : t.isNode = true) (hw : WF (nbOf H) t 0) (hc : CanonRoot t) (hh : Ht 255 t 0)
    {ks : List K} (hk : ∀ x, x ∈ ks ↔ x ∈ (leaves t).map fun e => e.1) : t.paths.length ≤ 1 + (forks H ks).length := by
  cases t with
  | empty => cases hn
  | leaf => cases hn
  | node st ch =>
    have := nodup_paths (.node st ch : T K P V)
    rw [T.paths] at this ⊢
    rw [List.nodup_cons] at this
    rw [List.length_cons, Nat.add_comm]
    apply Nat.add_le_add_left
    refine List.Nodup.length_le_of_subset this.2 fun q hq => ?_
    obtain ⟨i, hi, hq'⟩ := List.mem_flatMap.1 hq
    obtain ⟨p, hp, rfl⟩ := List.mem_map.1 hq'
    have hi := List.mem_range.1 hi
    obtain ⟨h1, a, ha, b, hb, hab, h2⟩ := mem_paths (hw.2 i hi).2 (hc.2 i hi) (hh.2 i hi) hp
    have key : ∀ e ∈ leaves (ch i), (∀ j r, p[j]? = some r → nbOf H e.1 (0 + 1 + j) = r) → Under H (i :: p) e.1 := by
      intro e he h j r hj
      rw [← nbOf_eq_nibble]
      cases j with
      | zero => cases hj; exact (hw.2 _ hi).1 e he
      | succ j =>
        rw [List.getElem?_cons_succ] at hj
        have := h j r hj
        rwa [show 0 + 1 + j = j + 1 by omega] at this
    exact mem_forks.2 ⟨by simp, by rw [List.length_cons]; omega, a.1, (hk _).2 (List.mem_map_of_mem (mem_leaves_node.2 ⟨i, hi, ha⟩)),
      b.1, (hk _).2 (List.mem_map_of_mem (mem_leaves_node.2 ⟨i, hi, hb⟩)), hab, key a ha fun j r h => (h2 j r h).1, key b hb fun j r h => (h2 j r h).2⟩

end

end Amt

namespace Amt.Par
open Amt Spec

section
variable {K V : Type}

theorem scost_eq (q : Nat) (t : Amt.T K Amt.Ptr V) : scost q t = (3 + q) * (Amt.T.leaves t).length + 9 * t.paths.length := by
  induction t with
  | empty => rfl
  | leaf => simp [scost, Amt.T.leaves, Amt.T.paths]
  | node st ch ih =>
    rw [scost, Amt.T.leaves, Amt.T.paths, List.length_cons, List.length_flatMap, List.length_flatMap]
    simp only [List.length_map, ih, sum_add, sum_mul]
    omega

end

/-! ### The callbacks -/

section
variable {K V α β : Type}

theorem load_cost (r : Ref) (s : St K V) : (load r : T K V Link).cost Price.access s ≤ 3 :=
  T.Pays.cost (Φ := fun _ => 0) (p := 3) (show T.Pays Price.access (load r) 3 _ from ⟨by decide, fun _ => ⟨by decide, fun _ => ⟨by decide, fun _ => Nat.zero_le _⟩⟩⟩) s

theorem kvKey_cost (p : Amt.Ptr) (s : St K V) : (kvKey p : T K V K).cost Price.access s ≤ 1 :=
  T.Pays.cost (Φ := fun _ => 0) (p := 1) (show T.Pays Price.access (kvKey p) 1 _ from ⟨by decide, fun x => by
    rcases x with ⟨_ | k, v⟩
    · trivial
    · exact Nat.zero_le _⟩) s

theorem fieldAddr_cost (p : Amt.Ptr) (s : St K V) : (fieldAddr p : T K V Amt.Ptr).cost Price.access s ≤ 0 := by
  cases p <;> exact Nat.zero_le _

namespace Keeps

theorem loadsKv {p : Amt.Ptr} {k : Option K × V → T K V α} (h : ∀ x, (k x).Keeps) : T.Keeps (.loadKv p k) := by
  intro s b s' e
  rw [T.denote, bind_run] at e
  cases e1 : Amt.loadKv p s with
  | error x => rw [e1] at e; cases e
  | ok y =>
    rw [e1] at e
    have : y.2 = s := by
      unfold Amt.loadKv at e1
      split at e1
      · cases e1
      · split at e1 <;> cases e1
        rfl
    rw [← this]
    exact h _ _ _ _ e

theorem kvKey (p : Amt.Ptr) : T.Keeps (Par.kvKey p : T K V K) := loadsKv fun x => by
  rcases x with ⟨_ | k, v⟩
  · exact fail _
  · exact ret _

theorem kvVal (p : Amt.Ptr) : T.Keeps (Par.kvVal p : T K V V) := loadsKv fun x => ret _

theorem fieldAddr (p : Amt.Ptr) : T.Keeps (Par.fieldAddr p : T K V Amt.Ptr) := by
  cases p
  · exact fail _
  · exact ret _

theorem storeVal (p : Amt.Ptr) (v : V) : T.Keeps (Par.storeVal p v : T K V Unit) := by
  intro s b s' e x xs hx
  have e' : Amt.storeVal p v s = .ok (b, s') := by
    revert e
    show (T.storeVal p v (.ret ())).denote s = _ → _
    rw [T.denote, bind_run]
    cases Amt.storeVal p v s with
    | error x => intro e; cases e
    | ok y => intro e; cases e; rfl
  unfold Amt.storeVal at e'
  split at e'
  · cases e'
  · split at e'
    · cases e'
    · cases e'
    · rename_i hb
      cases e'
      show (if _ then _ else _) = _
      split
      · rename_i h; subst h; rw [hx] at hb; cases hb
      · exact hx

theorem allCb (f : List (K × V) → K → V → V × Bool) (log : List (K × V)) (k : K) (p : Amt.Ptr) : (Par.allCb f log k p).Keeps :=
  bind (kvVal p) fun _ => bind (storeVal p _) fun _ => ret _

end Keeps

theorem allCb_cost (f : List (K × V) → K → V → V × Bool) (log : List (K × V)) (k : K) (p : Amt.Ptr) (s : St K V) : (allCb f log k p).cost Price.access s ≤ 2 :=
  T.Pays.cost (Φ := fun _ => 0) (p := 2) (show T.Pays Price.access (allCb f log k p) 2 _ from ⟨by decide, fun _ => ⟨by decide, Nat.zero_le _⟩⟩) s

end

section
variable {K V : Type} [Inhabited V] {G : MapTree K V} {C : Go.MapCode K V} {I : MapImpl K V} {GS : SetTree K} {CS : Go.SetCode K} {IS : SetImpl K}

/-- `All` of a map is a scan. -/
theorem MapAll.all_tree (h : MapAll G C I) (n a : Nat) (cb : List (K × V) → K → Amt.Ptr → T K V (List (K × V) × Bool)) (u : List (K × V)) {q : Nat}
    (hq : ∀ u k p s, (cb u k p).cost Price.access s ≤ q) (hk : ∀ u k p, (cb u k p).Keeps) :
    ∃ visit : List (K × V) → Ref → T K V (List (K × V) × Bool), G.All n (some a) cb u = (scanC visit n u ⟨.blk a, 0⟩ >>= fun r => pure r.1) ∧
      (∀ u r s, (visit u r).cost Price.access s ≤ 9 + q) ∧ ∀ u r, (visit u r).Keeps := by
  have hv : (∀ u r s, (visitKv cb u r).cost Price.access s ≤ 9 + q) := fun u r s =>
    Nat.le_trans (T.cost_bind_le (load_cost r s) fun x s => T.cost_bind_le (kvKey_cost _ s) fun k s => T.cost_bind_le (fieldAddr_cost _ s) fun p s => hq u k p s) (by omega)
  have hv' : ∀ u r, (visitKv cb u r).Keeps := fun u r => Keeps.bind (Keeps.load r) fun x => Keeps.bind (Keeps.kvKey _) fun k => Keeps.bind (Keeps.fieldAddr _) fun p => hk u k p
  cases h with
  | string sum => exact ⟨_, by rw [← StringMap.scan_tree]; rfl, hv, hv'⟩
  | bytes sum => exact ⟨_, by rw [← BytesMap.scan_tree]; rfl, hv, hv'⟩
  | arr sum kb => exact ⟨_, by rw [← ArrMap.scan_tree]; rfl, hv, hv'⟩
  | int sum =>
    refine ⟨visitInt cb, by rw [← IntMap.scan_tree]; rfl, fun u r s => ?_, fun u r => ?_⟩
    · exact Nat.le_trans (T.cost_bind_le (load_cost r s) fun x s => T.cost_bind_le (load_cost r s) fun y s => T.cost_bind_le (load_cost r s) fun z s =>
        T.cost_bind_le (fieldAddr_cost _ s) fun p s => hq u _ p s) (by omega)
    · exact Keeps.bind (Keeps.load r) fun x => Keeps.bind (Keeps.load r) fun y => Keeps.bind (Keeps.load r) fun z => Keeps.bind (Keeps.fieldAddr _) fun p => hk u _ p
  | generic J => exact ⟨_, by rw [← Map.scan_tree]; rfl, hv, hv'⟩

/-- `All` of a set is a scan. -/
theorem SetAll.all_tree (h : SetAll GS CS IS) (n a : Nat) (cb : List K → K → T K Unit (List K × Bool)) (u : List K) {q : Nat}
    (hq : ∀ u k s, (cb u k).cost Price.access s ≤ q) (hk : ∀ u k, (cb u k).Keeps) :
    ∃ visit : List K → Ref → T K Unit (List K × Bool), GS.All n (some a) cb u = (scanC visit n u ⟨.blk a, 0⟩ >>= fun r => pure r.1) ∧
      (∀ u r s, (visit u r).cost Price.access s ≤ 6 + q) ∧ ∀ u r, (visit u r).Keeps := by
  have hv : (∀ u r s, (visitK cb u r).cost Price.access s ≤ 6 + q) := fun u r s =>
    Nat.le_trans (T.cost_bind_le (load_cost r s) fun x s => T.cost_bind_le (kvKey_cost _ s) fun k s => hq u k s) (by omega)
  have hv' : ∀ u r, (visitK cb u r).Keeps := fun u r => Keeps.bind (Keeps.load r) fun x => Keeps.bind (Keeps.kvKey _) fun k => hk u k
  cases h with
  | string sum => exact ⟨_, by rw [← StringSet.scan_tree]; rfl, hv, hv'⟩
  | bytes sum => exact ⟨_, by rw [← BytesSet.scan_tree]; rfl, hv, hv'⟩
  | arr sum kb => exact ⟨_, by rw [← ArrSet.scan_tree]; rfl, hv, hv'⟩
  | int sum =>
    refine ⟨visitIntK cb, by rw [← IntSet.scan_tree]; rfl, fun u r s => ?_, fun u r => ?_⟩
    · exact Nat.le_trans (T.cost_bind_le (load_cost r s) fun y s => T.cost_bind_le (load_cost r s) fun z s => hq u _ s) (by omega)
    · exact Keeps.bind (Keeps.load r) fun y => Keeps.bind (Keeps.load r) fun z => hk u _
  | generic J => exact ⟨_, by rw [← Set.scan_tree]; rfl, hv, hv'⟩

/-- The cost of a scan from the root of a container, or of a copy of it. -/
theorem root_cost {c : Cfg K} {sd : Seed} {H : K → Nat → BitVec 64} {cl : Prop} [DecidableEq K] {s s₂ : St K V} {h a : Nat} {t : Amt.T K Amt.Ptr V} {F : Nat → Prop}
    (hi : Amt.Inv c sd H cl s h t F) (hcl : cl) {φ : Ren} (hst : StR φ h a s s₂) {U : Type} {visit : U → Ref → T K V (U × Bool)} {q : Nat}
    (hv : ∀ u r s, (visit u r).cost Price.access s ≤ q) (hk : ∀ u r, (visit u r).Keeps) {ks : List K} (hnd : ks.Nodup)
    (hks : ∀ x, x ∈ ks ↔ x ∈ (Amt.T.leaves t).map fun e => e.1) (n : Nat) (u : U) :
    (scanC visit n u ⟨.blk a, 0⟩).cost Price.access s₂ ≤ 6 + (3 + q) * ks.length + 9 * (forks H ks).length := by
  obtain ⟨lk, hl, hr⟩ := hi.rep
  obtain ⟨o, o', e1, e2, e3⟩ := hst.obj hst.root
  rw [hl.mem] at e1
  cases e1
  cases e3 with
  | @links _ ys hlen hall =>
    match ys, hlen with
    | [lk'], _ =>
      have hlr := hall 0 lk lk' rfl rfl
      have h1 := scan_cost hv hk t (n := n) (u := u) (s := s₂) hi.node e2 (i0 := 0) rfl ((Lay.of_rep hr).copy hst hlr) fun x xs h => h
      rw [scost_eq] at h1
      have h2 := length_paths hi.node hi.wf (hi.canon hcl) hi.ht hks
      have h3 : (Amt.T.leaves t).length = ks.length := by
        have := ((List.perm_ext_iff_of_nodup hnd (Amt.T.nodup_keys hi.wf)).2 hks).length_eq
        rw [this, List.length_map]
      rw [h3] at h1
      omega

end

section
variable {K V : Type} [DecidableEq K] [Inhabited V] {G : MapTree K V} {C : Go.MapCode K V} {I : MapImpl K V} {GS : SetTree K} {CS : Go.SetCode K} {IS : SetImpl K}

/-- C89.  After any history that leaves `N` keys, let `l` be the paths of nibbles that two keys share, other than the empty one; there are at most half
as many as the sum of the depths of the keys.  `All`, with a callback that makes at most `q` accesses and changes no array of links, makes at most
`6 + (12 + q) N` accesses, and 9 for each of these paths.  The callback may write to the values and stop when it likes. -/
theorem C89_map {sd : Seed} {H : K → Nat → BitVec 64} {P : Bool → List K → K → Prop} {lossy : V → V} {ex : Prop} {n : Nat}
    (hA : MapAll G C I) (hc : MapContainer I sd H P lossy ex) (hex : ex) {ops : List (MOp K V)} (h : EachNew P [] ops) (hn : 256 ≤ n)
    {s : St K V} (hs : Go.Tidy s) :
    ∃ m os s₁, ∃ l : List (List Nat), C.session n sd ops s = .ok ((m, os), s₁) ∧ l.Nodup ∧ (∀ p, p ∈ l ↔ p ≠ [] ∧ p.length ≤ 255 ∧ Fork H (keysAfter [] ops) p) ∧
      2 * l.length ≤ depthSum H (keysAfter [] ops) ∧
      ∀ cb u q, (∀ u k p s, (cb u k p).cost Price.access s ≤ q) → (∀ u k p, (cb u k p).Keeps) →
        (G.All n m cb u).cost Price.access s₁ ≤ 6 + (12 + q) * (keysAfter [] ops).length + 9 * l.length := by
  obtain ⟨os, s', t, F, m, e1, i1, e3, e4⟩ := hc.session h hn St.init
  obtain ⟨s₂, φ, e5, e6, _, e7⟩ := reach_map hA.code.mirrors hs e1
  have hnd := nodup_keysAfter (V := V) (ks := []) (by simp) ops
  refine ⟨_, os, s₂, forks H (keysAfter [] ops), e5, nodup_forks, fun p => mem_forks, forks_depthSum hnd, fun cb u q hq hk => ?_⟩
  obtain ⟨visit, v1, v2, v3⟩ := hA.all_tree n s.next cb u hq hk
  have hks : ∀ x, x ∈ keysAfter [] ops ↔ x ∈ (Amt.T.leaves t).map fun e => e.1 := fun x => by
    rw [← absT_keys, ← (FMap.keys_perm e4).mem_iff]
    exact (e3.keysAfter x).symm
  rw [v1]
  have := T.cost_bind_le (f := fun r : List (K × V) × Bool => (pure r.1 : T K V (List (K × V)))) (b := 0)
    (root_cost i1 hex e7 v2 v3 hnd hks n u) fun x s => Nat.le_refl 0
  rw [show 12 + q = 3 + (9 + q) by omega]
  exact this

/-- C89 for sets. -/
theorem C89_set {sd : Seed} {H : K → Nat → BitVec 64} {P : List K → K → Prop} {inv : Bool} {ex : Prop} {n : Nat}
    (hA : SetAll GS CS IS) (hc : SetContainer IS sd H P inv ex) (hex : ex) {ops : List (SOp K)} (h : SEachNew H inv P [] ops) (hn : 256 ≤ n)
    {s : St K Unit} (hs : Go.Tidy s) :
    ∃ m os s₁, ∃ l : List (List Nat), CS.session n sd ops s = .ok ((m, os), s₁) ∧ l.Nodup ∧ (∀ p, p ∈ l ↔ p ≠ [] ∧ p.length ≤ 255 ∧ Fork H (elemsAfterX H inv [] ops) p) ∧
      2 * l.length ≤ depthSum H (elemsAfterX H inv [] ops) ∧
      ∀ cb u q, (∀ u k s, (cb u k).cost Price.access s ≤ q) → (∀ u k, (cb u k).Keeps) →
        (GS.All n m cb u).cost Price.access s₁ ≤ 6 + (9 + q) * (elemsAfterX H inv [] ops).length + 9 * l.length := by
  obtain ⟨os, s', t, F, m, e1, i1, e3, e4⟩ := hc.session h hn St.init
  obtain ⟨s₂, φ, e5, e6, _, e7⟩ := reach_set hA.code.mirrors hs e1
  have hnd := nodup_elemsAfterX (H := H) (ks := []) inv (by simp) ops
  refine ⟨_, os, s₂, forks H (elemsAfterX H inv [] ops), e5, nodup_forks, fun p => mem_forks, forks_depthSum hnd, fun cb u q hq hk => ?_⟩
  obtain ⟨visit, v1, v2, v3⟩ := hA.all_tree n s.next cb u hq hk
  have hks : ∀ x, x ∈ elemsAfterX H inv [] ops ↔ x ∈ (Amt.T.leaves t).map fun e => e.1 := fun x => by
    rw [← e3.elemsAfterX x, e4.mem_iff]; rfl
  rw [v1]
  have := T.cost_bind_le (f := fun r : List K × Bool => (pure r.1 : T K Unit (List K))) (b := 0)
    (root_cost i1 hex e7 v2 v3 hnd hks n u) fun x s => Nat.le_refl 0
  rw [show 9 + q = 3 + (6 + q) by omega]
  exact this

theorem mean_forks {W : Type} {c m J : Nat} {Ω cov : List W} {H : W → K → Nat → BitVec 64} {ks : List K} (hcov : cov.Sublist Ω) (hn : ks.Nodup)
    (hs : Spread c m Ω H ks) (hJ : J ≤ m) (hm : m ≤ 256) {q : W → Nat} {a : Nat} (hq : ∀ w ∈ cov, q w ≤ a + 9 * (forks (H w) ks).length) :
    ((cov.map q).sum : Rat) ≤ Ω.length * (a + 9 * branchBound c m J ks.length) := by
  have h1 : (cov.map q).sum ≤ (Ω.map fun w => a + 9 * (forks (H w) ks).length).sum := Nat.le_trans (sum_le_sum hq) (sum_sublist hcov _)
  rw [sum_add, sum_const, sum_mul] at h1
  have h2 := Rat.natCast_le_natCast.2 h1
  have h3 := forks_avg hn hs hJ hm
  rw [Rat.natCast_add, Rat.natCast_mul, Rat.natCast_mul] at h2
  grind

/-- C89 on average: for a family `Ω` of hash functions that spreads the `N` stored keys, the mean number of accesses of `All` over the family is at
most `6 + (12 + q) N + 9 branchBound c m J N`, which is of the order of `N`. -/
theorem C89_map_mean {W : Type} {c m J n : Nat} {Ω cov : List W} {G : W → MapTree K V} {C : W → Go.MapCode K V} {I : W → MapImpl K V} {sd : W → Seed}
    {H : W → K → Nat → BitVec 64} {P : W → Bool → List K → K → Prop} {lossy : V → V} {ex : Prop} (hA : ∀ w, MapAll (G w) (C w) (I w))
    (hc : ∀ w, MapContainer (I w) (sd w) (H w) (P w) lossy ex) (hex : ex) {ops : List (MOp K V)} (hcov : cov.Sublist Ω)
    (h : ∀ w ∈ cov, EachNew (P w) [] ops) (hsp : Spread c m Ω H (keysAfter [] ops)) (hJ : J ≤ m) (hm : m ≤ 256) (hn : 256 ≤ n)
    {s : W → St K V} (hs : ∀ w, Go.Tidy (s w)) :
    ∃ r : W → Handle × List (MOut K V) × St K V, (∀ w ∈ cov, (C w).session n (sd w) ops (s w) = .ok (((r w).1, (r w).2.1), (r w).2.2)) ∧
      ∀ cb u (q : Nat), (∀ u k p s, (cb u k p).cost Price.access s ≤ q) → (∀ u k p, (cb u k p).Keeps) →
        ((cov.map fun w => ((G w).All n (r w).1 cb u).cost Price.access (r w).2.2).sum : Rat)
          ≤ Ω.length * (6 + (12 + q) * (keysAfter [] ops).length + 9 * branchBound c m J (keysAfter [] ops).length) := by
  have hnd := nodup_keysAfter (V := V) (ks := []) (by simp) ops
  obtain ⟨r, hr⟩ := choose_for fun w (hw : w ∈ cov) => C89_map (hA w) (hc w) hex (h w hw) hn (hs w)
  refine ⟨r, fun w hw => ?_, fun cb u q hq hk => ?_⟩
  · obtain ⟨l, e, _⟩ := hr w hw
    exact e
  · have := mean_forks (a := 6 + (12 + q) * (keysAfter [] ops).length) hcov hnd hsp hJ hm (q := fun w => ((G w).All n (r w).1 cb u).cost Price.access (r w).2.2) fun w hw => by
      obtain ⟨l, _, l1, l2, _, l3⟩ := hr w hw
      have : l.length ≤ (forks (H w) (keysAfter [] ops)).length := List.Nodup.length_le_of_subset l1 fun p hp => mem_forks.2 ((l2 p).1 hp)
      have := l3 cb u q hq hk
      omega
    rw [Rat.natCast_add, Rat.natCast_mul, Rat.natCast_add] at this
    exact this

/-- C89 on average for sets whose `Del` does what it should. -/
theorem C89_set_mean {W : Type} {c m J n : Nat} {Ω cov : List W} {G : W → SetTree K} {C : W → Go.SetCode K} {I : W → SetImpl K} {sd : W → Seed}
    {H : W → K → Nat → BitVec 64} {P : W → List K → K → Prop} {ex : Prop} (hA : ∀ w, SetAll (G w) (C w) (I w))
    (hc : ∀ w, SetContainer (I w) (sd w) (H w) (P w) false ex) (hex : ex) {ops : List (SOp K)} (hcov : cov.Sublist Ω)
    (h : ∀ w ∈ cov, SEachNew (H w) false (P w) [] ops) (hsp : Spread c m Ω H (elemsAfter [] ops)) (hJ : J ≤ m) (hm : m ≤ 256) (hn : 256 ≤ n)
    {s : W → St K Unit} (hs : ∀ w, Go.Tidy (s w)) :
    ∃ r : W → Handle × List (SOut K) × St K Unit, (∀ w ∈ cov, (C w).session n (sd w) ops (s w) = .ok (((r w).1, (r w).2.1), (r w).2.2)) ∧
      ∀ cb u (q : Nat), (∀ u k s, (cb u k).cost Price.access s ≤ q) → (∀ u k, (cb u k).Keeps) →
        ((cov.map fun w => ((G w).All n (r w).1 cb u).cost Price.access (r w).2.2).sum : Rat)
          ≤ Ω.length * (6 + (9 + q) * (elemsAfter [] ops).length + 9 * branchBound c m J (elemsAfter [] ops).length) := by
  have hnd : (elemsAfter [] ops).Nodup := by
    rw [← elemsAfterX_false (H := fun _ _ => 0#64)]
    exact nodup_elemsAfterX false (by simp) ops
  obtain ⟨r, hr⟩ := choose_for fun w (hw : w ∈ cov) => C89_set (hA w) (hc w) hex (h w hw) hn (hs w)
  simp only [elemsAfterX_false] at hr
  refine ⟨r, fun w hw => ?_, fun cb u q hq hk => ?_⟩
  · obtain ⟨l, e, _⟩ := hr w hw
    exact e
  · have := mean_forks (a := 6 + (9 + q) * (elemsAfter [] ops).length) hcov hnd hsp hJ hm (q := fun w => ((G w).All n (r w).1 cb u).cost Price.access (r w).2.2) fun w hw => by
      obtain ⟨l, _, l1, l2, _, l3⟩ := hr w hw
      have : l.length ≤ (forks (H w) (elemsAfter [] ops)).length := List.Nodup.length_le_of_subset l1 fun p hp => mem_forks.2 ((l2 p).1 hp)
      have := l3 cb u q hq hk
      omega
    rw [Rat.natCast_add, Rat.natCast_mul, Rat.natCast_add] at this
    exact this

end

/-- C89 for a random hash function: `All` of a `StringMap` with a callback that reads and writes each value. -/
theorem C89_random {V : Type} [Inhabited V] {n J : Nat} (sd : Seed) {ops : List (MOp ByteStr V)} {cov : List (List (BitVec 64))}
    (hcov : cov.Sublist (allHashes (keysAfter [] ops)))
    (h : ∀ v ∈ cov, EachNew (fun _ => ByteFits (byteStream (tableHash (keysAfter [] ops) v) sd id)) [] ops)
    (hJ : J ≤ 16) (hn : 256 ≤ n) {s : St ByteStr V} (hs : Go.Tidy s) (f : List (ByteStr × V) → ByteStr → V → V × Bool) :
    ∃ q : List (BitVec 64) → Nat,
      (∀ v ∈ cov, ∃ m os s₁, (Go.stringMap (tableHash (keysAfter [] ops) v)).session n sd ops s = .ok ((m, os), s₁) ∧
        ((stringMap (tableHash (keysAfter [] ops) v)).All n m (allCb f) []).cost Price.access s₁ = q v) ∧
      ((cov.map q).sum : Rat) ≤ ((2 ^ 64) ^ (keysAfter [] ops).length : Nat) *
        (6 + 14 * (keysAfter [] ops).length + 9 * branchBound 1 16 J (keysAfter [] ops).length) := by
  obtain ⟨r, h1, h2⟩ := C89_map_mean (c := 1) (m := 16) (J := J) (fun v => MapAll.string (V := V) (tableHash (keysAfter [] ops) v))
    (fun v => MapContainer.string (tableHash (keysAfter [] ops) v) sd) trivial hcov h (spread_all _ sd) hJ (by decide) hn (s := fun _ => s) fun _ => hs
  refine ⟨_, fun v hv => ⟨_, _, _, h1 v hv, rfl⟩, ?_⟩
  have h3 := h2 (allCb f) [] 2 (allCb_cost f) (Keeps.allCb f)
  rw [allHashes, length_vecs, digests, List.length_map, List.length_range] at h3
  rw [show (12 + (2 : Nat) : Rat) = 14 by decide +kernel] at h3
  exact h3

/-! ### Instances -/

example := C89_map (MapAll.string (V := Nat) toyHash) (MapContainer.string (V := Nat) toyHash 0#64) trivial exOps_str (Nat.le_refl 256) Go.init_tidy
example := C89_map (MapAll.bytes (V := Nat) toyHash) (MapContainer.bytes (V := Nat) toyHash 0#64) trivial exOps_str (Nat.le_refl 256) Go.init_tidy
example := C89_set (SetAll.string toyHash) (SetContainer.string toyHash 0#64) trivial exOpsS_str (Nat.le_refl 256) Go.init_tidy

/-- A callback that reads and writes the value and never stops. -/
example (u : List (ByteStr × Nat)) (k : ByteStr) (p : Amt.Ptr) : (allCb (fun _ _ v => (v + 1, true)) u k p).Keeps ∧
    ∀ s, (allCb (fun _ _ v => (v + 1, true)) u k p).cost Price.access s ≤ 2 :=
  ⟨Keeps.allCb _ u k p, allCb_cost _ u k p⟩

example := C89_map_mean (c := 1) (m := 1) (J := 1) (fun sd => MapAll.string (V := Nat) affineHash) (fun sd => MapContainer.string (V := Nat) affineHash sd) trivial
  (List.Sublist.refl exSeeds) affine_covered (spread_sub spread_affine fun x hx => List.mem_cons_of_mem _ hx) (by decide) (by decide) (Nat.le_refl 256) (s := fun _ => St.init) fun _ => Go.init_tidy

theorem exVec4 : [0x22#64, 0x11#64, 0x21#64, 0x31#64] ∈ allHashes (keysAfter [] (exOps strKey)) := by
  have h : (keysAfter [] (exOps strKey)).length = 4 := by decide +kernel
  rw [allHashes, h]
  exact mem_vecs (v := [0x22#64, 0x11#64, 0x21#64, 0x31#64]) fun x _ => mem_digests x

example := C89_random (J := 1) (ops := exOps strKey) 0#64 (cov := [[0x22#64, 0x11#64, 0x21#64, 0x31#64]])
  (List.singleton_sublist.2 exVec4) (by decide +kernel) (by decide) (Nat.le_refl 256) Go.init_tidy fun _ _ v => (v + 1, true)

/-- With a random hash function and a million keys, `All` accesses the memory less than 24 times for each key on average. -/
example : (6 + 14 * 16 ^ 5 + 9 * branchBound 1 16 5 (16 ^ 5) : Rat) < 24 * 16 ^ 5 := by decide +kernel

end Amt.Par
