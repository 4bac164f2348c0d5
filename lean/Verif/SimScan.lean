/- `All` simulates a left-to-right scan of the entries of the pure trie. -/
import Verif.SimSplit

set_option linter.unusedVariables false

namespace Amt
open T

variable {K V : Type}

/-! ### The pure scan -/

/-- Scan a list of entries with a callback that may change the value and may stop the scan. -/
def scanL {P U : Type} (g : U → K → V → U × V × Bool) : List (K × P × V) → U → U × List (K × P × V) × Bool
  | [], u => (u, [], true)
  | (k, p, v) :: es, u =>
    let r := g u k v
    if r.2.2 then
      let q := scanL g es r.1
      (q.1, (k, p, r.2.1) :: q.2.1, q.2.2)
    else (r.1, (k, p, r.2.1) :: es, false)

theorem scanL_append {P U : Type} (g : U → K → V → U × V × Bool) (as bs : List (K × P × V)) (u : U) :
    scanL g (as ++ bs) u =
      if (scanL g as u).2.2 then
        ((scanL g bs (scanL g as u).1).1, (scanL g as u).2.1 ++ (scanL g bs (scanL g as u).1).2.1,
          (scanL g bs (scanL g as u).1).2.2)
      else ((scanL g as u).1, (scanL g as u).2.1 ++ bs, false) := by
  induction as generalizing u with
  | nil => simp [scanL]
  | cons e as ih =>
    obtain ⟨k, p, v⟩ := e
    simp only [List.cons_append, scanL]
    by_cases h : (g u k v).2.2 = true
    · simp only [h, if_true, ih]
      split <;> simp
    · simp only [h, if_false, List.cons_append]
      simp

/-- One step of the scan of a branch. -/
def scanStep {P U : Type} (rec : T K P V → U → U × T K P V × Bool) (ch : Nat → T K P V)
    (acc : U × (Nat → T K P V) × Bool) (i : Nat) : U × (Nat → T K P V) × Bool :=
  if acc.2.2 then
    let q := rec (ch i) acc.1
    (q.1, upd acc.2.1 i q.2.1, q.2.2)
  else acc

/-- Scan a trie. -/
def scanT {P U : Type} (g : U → K → V → U × V × Bool) : T K P V → U → U × T K P V × Bool
  | .empty, u => (u, .empty, true)
  | .leaf k p v, u => ((g u k v).1, .leaf k p (g u k v).2.1, (g u k v).2.2)
  | .node st ch, u =>
    let r := (List.range 16).foldl (fun acc i =>
      if acc.2.2 then
        let q := scanT g (ch i) acc.1
        (q.1, upd acc.2.1 i q.2.1, q.2.2)
      else acc) (u, ch, true)
    (r.1, .node st r.2.1, r.2.2)

theorem scanT_empty {P U : Type} (g : U → K → V → U × V × Bool) (u : U) :
    scanT g (.empty : T K P V) u = (u, .empty, true) := rfl

theorem scanT_leaf {P U : Type} (g : U → K → V → U × V × Bool) (k : K) (p : P) (v : V) (u : U) :
    scanT g (.leaf k p v) u = ((g u k v).1, .leaf k p (g u k v).2.1, (g u k v).2.2) := rfl

theorem scanT_node {P U : Type} (g : U → K → V → U × V × Bool) (st : BitVec 32) (ch : Nat → T K P V) (u : U) :
    scanT g (.node st ch) u =
      (((List.range 16).foldl (scanStep (scanT g) ch) (u, ch, true)).1,
        .node st ((List.range 16).foldl (scanStep (scanT g) ch) (u, ch, true)).2.1,
        ((List.range 16).foldl (scanStep (scanT g) ch) (u, ch, true)).2.2) := rfl

/-- The values may differ, nothing else does. -/
def VEq {P : Type} : T K P V → T K P V → Prop
  | .empty, t' => t' = .empty
  | .leaf k p _, t' => ∃ v', t' = .leaf k p v'
  | .node st ch, t' => ∃ ch', t' = .node st ch' ∧ ∀ i, VEq (ch i) (ch' i)

theorem VEq.refl {P : Type} (t : T K P V) : VEq t t := by
  induction t with
  | empty => rfl
  | leaf k p v => exact ⟨v, rfl⟩
  | node st ch ih => exact ⟨ch, rfl, ih⟩

theorem VEq.trans {P : Type} {t t' t'' : T K P V} (h : VEq t t') (h' : VEq t' t'') : VEq t t'' := by
  induction t generalizing t' t'' with
  | empty => rw [VEq] at h; subst h; exact h'
  | leaf k p v => obtain ⟨v', rfl⟩ := h; obtain ⟨v'', rfl⟩ := h'; exact ⟨v'', rfl⟩
  | node st ch ih =>
    obtain ⟨ch', rfl, h1⟩ := h
    obtain ⟨ch'', rfl, h2⟩ := h'
    exact ⟨ch'', rfl, fun i => ih i (h1 i) (h2 i)⟩

theorem VEq.upd {P : Type} {ch ch' : Nat → T K P V} {x : T K P V} {i : Nat} (h : ∀ j, VEq (ch j) (ch' j))
    (hx : VEq (ch i) x) (j : Nat) : VEq (ch j) (T.upd ch' i x j) := by
  by_cases hj : j = i
  · subst hj; rw [upd_same]; exact hx
  · rw [upd_other _ _ hj]; exact h j

theorem VEq.isEmpty {P : Type} {t t' : T K P V} (h : VEq t t') : t'.isEmpty = t.isEmpty := by
  cases t with
  | empty => rw [VEq] at h; subst h; rfl
  | leaf => obtain ⟨_, rfl⟩ := h; rfl
  | node => obtain ⟨_, rfl, _⟩ := h; rfl

theorem VEq.isLeaf {P : Type} {t t' : T K P V} (h : VEq t t') : t'.isLeaf = t.isLeaf := by
  cases t with
  | empty => rw [VEq] at h; subst h; rfl
  | leaf => obtain ⟨_, rfl⟩ := h; rfl
  | node => obtain ⟨_, rfl, _⟩ := h; rfl

theorem VEq.isNode {P : Type} {t t' : T K P V} (h : VEq t t') : t'.isNode = t.isNode := by
  cases t with
  | empty => rw [VEq] at h; subst h; rfl
  | leaf => obtain ⟨_, rfl⟩ := h; rfl
  | node => obtain ⟨_, rfl, _⟩ := h; rfl

theorem VEq.tsum {P : Type} {t t' : T K P V} (h : VEq t t') (g : Nat → Nat) (d : Nat) :
    T.tsum g t' d = T.tsum g t d := by
  induction t generalizing t' d with
  | empty => rw [VEq] at h; subst h; rfl
  | leaf => obtain ⟨_, rfl⟩ := h; rfl
  | node st ch ih =>
    obtain ⟨ch', rfl, h1⟩ := h
    rw [tsum_node, tsum_node]
    congr 1
    exact List.map_congr_left (fun i _ => ih i (h1 i) (d + 1))

theorem VEq.keys {P : Type} {t t' : T K P V} (h : VEq t t') :
    (leaves t').map (fun e => (e.1, e.2.1)) = (leaves t).map (fun e => (e.1, e.2.1)) := by
  induction t generalizing t' with
  | empty => rw [VEq] at h; subst h; rfl
  | leaf => obtain ⟨_, rfl⟩ := h; rfl
  | node st ch ih =>
    obtain ⟨ch', rfl, h1⟩ := h
    rw [leaves_node, leaves_node, List.map_flatMap, List.map_flatMap]
    exact flatMap_congr' (fun i _ => ih i (h1 i))

theorem VEq.mem_key {P : Type} {t t' : T K P V} (h : VEq t t') {e : K × P × V} (he : e ∈ leaves t') :
    ∃ v, (e.1, e.2.1, v) ∈ leaves t := by
  have : (e.1, e.2.1) ∈ (leaves t').map (fun e => (e.1, e.2.1)) := List.mem_map_of_mem he
  rw [h.keys] at this
  obtain ⟨e', h1, h2⟩ := List.mem_map.1 this
  refine ⟨e'.2.2, ?_⟩
  simp only [Prod.mk.injEq] at h2
  rw [← h2.1, ← h2.2]; exact h1

theorem VEq.WF {P : Type} {nb : K → Nat → Nat} {t t' : T K P V} {d : Nat} (h : VEq t t') (hw : T.WF nb t d) :
    T.WF nb t' d := by
  induction t generalizing t' d with
  | empty => rw [VEq] at h; subst h; exact hw
  | leaf => obtain ⟨_, rfl⟩ := h; trivial
  | node st ch ih =>
    obtain ⟨ch', rfl, h1⟩ := h
    refine ⟨fun i hi => ?_, fun i hi => ⟨fun e he => ?_, ih i (h1 i) (hw.2 i hi).2⟩⟩
    · have := h1 i; rw [hw.1 i hi] at this; exact this
    · obtain ⟨v, hv⟩ := (h1 i).mem_key he
      exact (hw.2 i hi).1 (e.1, e.2.1, v) hv

theorem VEq.Ht {P : Type} {B : Nat} {t t' : T K P V} {d : Nat} (h : VEq t t') (hw : T.Ht B t d) :
    T.Ht B t' d := by
  induction t generalizing t' d with
  | empty => rw [VEq] at h; subst h; exact hw
  | leaf => obtain ⟨_, rfl⟩ := h; trivial
  | node st ch ih =>
    obtain ⟨ch', rfl, h1⟩ := h
    exact ⟨hw.1, fun i hi => ih i (h1 i) (hw.2 i hi)⟩

theorem VEq.length {P : Type} {t t' : T K P V} (h : VEq t t') : (leaves t').length = (leaves t).length := by
  have := congrArg List.length h.keys
  simpa using this

theorem VEq.Canon {P : Type} {t t' : T K P V} (h : VEq t t') (hc : T.Canon t) : T.Canon t' := by
  induction t generalizing t' with
  | empty => rw [VEq] at h; subst h; exact hc
  | leaf => obtain ⟨_, rfl⟩ := h; trivial
  | node st ch ih =>
    have hlen := h.length
    obtain ⟨ch', rfl, h1⟩ := h
    refine ⟨⟨hc.1.1, by rw [hlen]; exact hc.1.2⟩, fun i hi => ih i (h1 i) (hc.2 i hi)⟩

theorem VEq.CanonRoot {P : Type} {t t' : T K P V} (h : VEq t t') (hc : T.CanonRoot t) : T.CanonRoot t' := by
  cases t with
  | empty => exact hc.elim
  | leaf => exact hc.elim
  | node st ch =>
    obtain ⟨ch', rfl, h1⟩ := h
    exact ⟨hc.1, fun i hi => (h1 i).Canon (hc.2 i hi)⟩

section
variable {P U : Type} (g : U → K → V → U × V × Bool)

theorem scanStep_veq {rec : T K P V → U → U × T K P V × Bool} {ch : Nat → T K P V}
    (hrec : ∀ i u, VEq (ch i) (rec (ch i) u).2.1) (l : List Nat) (acc : U × (Nat → T K P V) × Bool)
    (ha : ∀ j, VEq (ch j) (acc.2.1 j)) : ∀ j, VEq (ch j) ((l.foldl (scanStep rec ch) acc).2.1 j) := by
  induction l generalizing acc with
  | nil => exact ha
  | cons i l ih =>
    rw [List.foldl_cons]
    apply ih
    unfold scanStep
    split
    · exact VEq.upd ha (hrec i _)
    · exact ha

theorem scanT_veq (t : T K P V) (u : U) : VEq t (scanT g t u).2.1 := by
  induction t generalizing u with
  | empty => rfl
  | leaf k p v => exact ⟨_, rfl⟩
  | node st ch ih =>
    rw [scanT_node]
    exact ⟨_, rfl, scanStep_veq (fun i u => ih i u) _ _ (fun j => VEq.refl _)⟩

theorem scanStep_false {rec : T K P V → U → U × T K P V × Bool} {ch : Nat → T K P V} (l : List Nat)
    (acc : U × (Nat → T K P V) × Bool) (ha : acc.2.2 = false) : l.foldl (scanStep rec ch) acc = acc := by
  induction l with
  | nil => rfl
  | cons i l ih => rw [List.foldl_cons]; unfold scanStep; rw [ha]; exact ih

/-- The scan of a trie is the scan of its entries. -/
theorem scanT_leaves (t : T K P V) (u : U) :
    ((scanT g t u).1, leaves (scanT g t u).2.1, (scanT g t u).2.2) = scanL g (leaves t) u := by
  induction t generalizing u with
  | empty => rfl
  | leaf k p v =>
    simp only [scanT_leaf, leaves, scanL]
    split <;> simp_all
  | node st ch ih =>
    have key : ∀ (l : List Nat) (acc : U × (Nat → T K P V) × Bool), l.Nodup →
        (∀ i ∈ l, acc.2.1 i = ch i) → acc.2.2 = true →
        ((l.foldl (scanStep (scanT g) ch) acc).1,
          l.flatMap (fun i => leaves ((l.foldl (scanStep (scanT g) ch) acc).2.1 i)),
          (l.foldl (scanStep (scanT g) ch) acc).2.2)
          = scanL g (l.flatMap (fun i => leaves (ch i))) acc.1 ∧
        ∀ j, j ∉ l → (l.foldl (scanStep (scanT g) ch) acc).2.1 j = acc.2.1 j := by
      intro l
      induction l with
      | nil => intro acc _ _ ha; exact ⟨by simp [scanL, ha], fun _ _ => rfl⟩
      | cons i l ihl =>
        intro acc hn hch ha
        rw [List.foldl_cons]
        have hst : scanStep (scanT g) ch acc i
            = ((scanT g (ch i) acc.1).1, upd acc.2.1 i (scanT g (ch i) acc.1).2.1, (scanT g (ch i) acc.1).2.2) := by
          simp [scanStep, ha]
        rw [hst, List.flatMap_cons, List.flatMap_cons, scanL_append, ← ih i acc.1]
        have hnd := List.nodup_cons.1 hn
        cases hgo : (scanT g (ch i) acc.1).2.2 with
        | false =>
          rw [scanStep_false l _ rfl]
          simp only [upd_same, Bool.false_eq_true, if_false]
          refine ⟨?_, fun j hj => upd_other _ _ (fun e => hj (by simp [e]))⟩
          congr 2
          congr 1
          apply flatMap_congr'
          intro j hj
          have : j ≠ i := fun e => hnd.1 (e ▸ hj)
          rw [upd_other _ _ this, hch j (by simp [hj])]
        | true =>
          have hI := ihl ((scanT g (ch i) acc.1).1, upd acc.2.1 i (scanT g (ch i) acc.1).2.1, true) hnd.2
            (by
              intro j hj
              have : j ≠ i := fun e => hnd.1 (e ▸ hj)
              simp only [upd_other _ _ this]
              exact hch j (by simp [hj])) rfl
          obtain ⟨h1, h2⟩ := hI
          simp only [if_true]
          rw [← h1]
          refine ⟨?_, fun j hj => ?_⟩
          · rw [h2 i hnd.1]; simp only [upd_same]
          · rw [h2 j (fun e => hj (by simp [e]))]
            exact upd_other _ _ (fun e => hj (by simp [e]))
    have h := (key (List.range 16) (u, ch, true) List.nodup_range (fun _ _ => rfl) rfl).1
    rw [scanT_node, leaves_node, leaves_node]
    exact h

end

/-! ### The heap scan -/

theorem Upd.refl {c : Cfg K} {h : Nat} {s : St K V} {b0 i0 : Nat} {xs0 : List Link} {lk : Link}
    {F : Nat → Prop} {t : T K Ptr V} {d : Nat} (hl : Loc s b0 i0 xs0 lk F) (hr : Rep c s.mem t d lk F) :
    Upd c h s s b0 i0 xs0 lk F F t t d :=
  ⟨by rw [set_self hl.get]; exact hl.mem, fun _ _ _ _ => rfl, Nat.le_refl _, fun a ha => Or.inl ha, hr,
    Acct.refl h t d rfl⟩

theorem Acct.trans {h : Nat} {s s' s'' : St K V} {t t' t'' : T K Ptr V} {d : Nat} (h1 : Acct h s s' t t' d)
    (h2 : Acct h s' s'' t' t'' d) : Acct h s s'' t t'' d := by
  have aux : ∀ {a b c x y z : BitVec 64}, b + x = a + y → c + y = b + z → c + x = a + z := by
    intro a b c x y z e1 e2
    have : c + x + y = a + z + y := by
      rw [BitVec.add_assoc, BitVec.add_comm x, ← BitVec.add_assoc, e2, BitVec.add_assoc, BitVec.add_comm z,
        ← BitVec.add_assoc, e1, BitVec.add_assoc, BitVec.add_assoc, BitVec.add_comm y]
    exact (BitVec.add_left_inj y).1 this
  exact ⟨fun a ha => by rw [h2.other a ha, h1.other a ha], by rw [h2.seed, h1.seed], aux h1.len h2.len,
    aux h1.dep h2.dep⟩

theorem Upd.trans {c : Cfg K} {h : Nat} {s s' s'' : St K V} {b0 i0 : Nat} {xs0 : List Link} {lk' lk'' : Link}
    {F F' F'' : Nat → Prop} {t t' t'' : T K Ptr V} {d : Nat} {lk : Link} (hl : Loc s b0 i0 xs0 lk F)
    (h1 : Upd c h s s' b0 i0 xs0 lk' F F' t t' d)
    (h2 : Upd c h s' s'' b0 i0 (xs0.set i0 lk') lk'' F' F'' t' t'' d) :
    Upd c h s s'' b0 i0 xs0 lk'' F F'' t t'' d := by
  refine ⟨by rw [h2.link, List.set_set], ?_, Nat.le_trans h1.next h2.next, ?_, h2.rep, h1.acct.trans h2.acct⟩
  · intro a g1 g2 g3
    rw [h2.frame a (Nat.lt_of_lt_of_le g1 h1.next) g2, h1.frame a g1 g2 g3]
    intro hF'
    rcases h1.foot a hF' with q | q
    · exact g3 q
    · omega
  · intro a ha
    have h1n := h1.next
    have h2n := h2.next
    rcases h2.foot a ha with q | q
    · rcases h1.foot a q with q' | q'
      · exact Or.inl q'
      · right; omega
    · right; omega

theorem Upd.loc {c : Cfg K} {h : Nat} {s s' : St K V} {b0 i0 : Nat} {xs0 : List Link} {lk lk' : Link}
    {F F' : Nat → Prop} {t t' : T K Ptr V} {d : Nat} (hl : Loc s b0 i0 xs0 lk F)
    (h1 : Upd c h s s' b0 i0 xs0 lk' F F' t t' d) : Loc s' b0 i0 (xs0.set i0 lk') lk' F' := by
  have hi0 : i0 < xs0.length := by
    rcases Nat.lt_or_ge i0 xs0.length with h' | h'
    · exact h'
    · have := hl.get; rw [List.getElem?_eq_none h'] at this; cases this
  have hn := h1.next
  have hlt := hl.lt
  refine ⟨h1.link, by simp [hi0], by omega, ?_, ?_⟩
  · intro hF'
    rcases h1.foot b0 hF' with q | q
    · exact hl.nF q
    · omega
  · intro a hF'
    rcases h1.foot a hF' with q | q
    · have := hl.bound a q; omega
    · omega

/-- The callback sees the key and the value and leaves the value `g` says. -/
def VisitOk {U : Type} (c : Cfg K) (visit : U → Link → M K V (U × Bool)) (g : U → K → V → U × V × Bool) : Prop :=
  ∀ s u k p v, KvAt c s.mem k p v →
    ∃ s', visit u (mkLink c k p) s = .ok (((g u k v).1, (g u k v).2.2), s') ∧ CellSet c s s' k p (g u k v).2.1

/-- A change of the value in the cell of a key. -/
theorem Upd.cell {c : Cfg K} {h : Nat} {s s' : St K V} {b0 i0 : Nat} {xs0 : List Link} {lk : Link}
    {F : Nat → Prop} {k : K} {p : Ptr} {v v' : V} {d : Nat} (hl : Loc s b0 i0 xs0 lk F)
    (hr : Rep c s.mem (.leaf k p v) d lk F) {q : Ptr} (hlk : lk = mkLink c k q) (hc : CellSet c s s' k q v') :
    Upd c h s s' b0 i0 xs0 lk F F (.leaf k p v) (.leaf k p v') d := by
  obtain ⟨q', h1, h2, h3, hq⟩ := hr
  obtain rfl : q' = q := by rw [hlk] at h1; exact (congrArg Link.ptr h1).symm
  have hpb : q' ≠ .blk b0 := fun e => hl.nF ((h3 b0).2 e)
  refine ⟨by rw [hc.frame b0 hpb, set_self hl.get]; exact hl.mem, ?_, by rw [hc.next]; exact Nat.le_refl _,
    fun a ha => Or.inl ha, ⟨q', h1, hc.kv, h3, hq⟩, ?_⟩
  · intro a _ _ g3
    exact hc.frame a (fun e => g3 ((h3 a).2 e))
  · refine ⟨fun _ _ => by rw [hc.roots], by rw [hc.roots], by rw [hc.roots]; rfl, by rw [hc.roots]; rfl⟩

/-- Bits at or above `m`. -/
def from' (f : Nat → Bool) (m i : Nat) : Bool := decide (m ≤ i) && f i

theorem scanItems_succ {U : Type} (visit : U → Link → M K V (U × Bool)) (rec : U → Ref → M K V (U × Bool))
    (l : Ref) (tmap : BitVec 32) (n i : Nat) (pmap : BitVec 32) (u : U) :
    scanItems visit rec l tmap (n + 1) i pmap u = (do
      let lk ← load l
      let r ← (if tmap &&& bitOf (trailingZeros pmap) ≠ 0#32 then do
          let x ← load ⟨lk.ptr, i⟩
          visit u x
        else rec u ⟨lk.ptr, i⟩)
      if r.2 then scanItems visit rec l tmap n (i + 1) (pmap &&& ~~~bitOf (trailingZeros pmap)) r.1
      else pure (r.1, false)) := by
  rw [scanItems]
  congr 1
  funext lk
  split
  · rw [bind_assoc_M]
  · rfl

theorem scan_sim {U : Type} {c : Cfg K} {visit : U → Link → M K V (U × Bool)} {g : U → K → V → U × V × Bool}
    (hv : VisitOk c visit g) {B : Nat} (h : Nat) (t : T K Ptr V) :
    ∀ {s : St K V} {d b0 i0 : Nat} {xs0 : List Link} {lk : Link} {F : Nat → Prop} {fuel : Nat} {u : U},
    t.isNode = true → Loc s b0 i0 xs0 lk F → Rep c s.mem t d lk F → Ht B t d → B < fuel + d →
    ∃ s' F', scan visit fuel u ⟨.blk b0, i0⟩ s = .ok (((scanT g t u).1, (scanT g t u).2.2), s') ∧
      Upd c h s s' b0 i0 xs0 lk F F' t (scanT g t u).2.1 d := by
  induction t with
  | empty => intro s d b0 i0 xs0 lk F fuel u h; cases h
  | leaf => intro s d b0 i0 xs0 lk F fuel u h; cases h
  | node st0 ch0 ih =>
    intro s d b0 i0 xs0 lk F fuel u _ hl hr hh hf
    have hd : d ≤ B := hh.1
    obtain ⟨fuel, rfl⟩ : ∃ f, fuel = f + 1 := ⟨fuel - 1, by omega⟩
    -- the loop over the items
    have loop : ∀ (q m : Nat), q + m = 16 → ∀ {s : St K V} {F : Nat → Prop} {ch : Nat → T K Ptr V} {u : U}
        {pm : BitVec 32}, Loc s b0 i0 xs0 lk F → Rep c s.mem (.node st0 ch) d lk F →
        (∀ i, VEq (ch0 i) (ch i)) → (∀ i, m ≤ i → ch i = ch0 i) → BitsAre pm (from' (occ ch) m) →
        ∃ s' F', scanItems visit (scan visit fuel) ⟨.blk b0, i0⟩ lk.tmap (cnt (occ ch) 16 - cnt (occ ch) m)
            (cnt (occ ch) m) pm u s
            = .ok ((((List.range' m q).foldl (scanStep (scanT g) ch0) (u, ch, true)).1,
                ((List.range' m q).foldl (scanStep (scanT g) ch0) (u, ch, true)).2.2), s') ∧
          Upd c h s s' b0 i0 xs0 lk F F' (.node st0 ch)
            (.node st0 ((List.range' m q).foldl (scanStep (scanT g) ch0) (u, ch, true)).2.1) d := by
      intro q
      induction q with
      | zero =>
        intro m hm s F ch u pm hl hr _ _ _
        obtain rfl : m = 16 := by omega
        exact ⟨s, F, by rw [Nat.sub_self]; rfl, Upd.refl hl hr⟩
      | succ q ihq =>
        intro m hm s F ch u pm hl hr hveq hsame hpm
        rw [List.range'_succ, List.foldl_cons]
        have hm16 : m < 16 := by omega
        have hst : scanStep (scanT g) ch0 (u, ch, true) m
            = ((scanT g (ch m) u).1, upd ch m (scanT g (ch m) u).2.1, (scanT g (ch m) u).2.2) := by
          simp [scanStep, hsame m (Nat.le_refl _)]
        rw [hst]
        by_cases hocc : occ ch m = true
        · -- one iteration
          have hlt := cnt_lt (occ ch) hm16 hocc
          obtain ⟨b, xs, G, ha, ho, hrep⟩ := hr
          have htz : trailingZeros pm = m := by
            apply trailingZeros_spec (by omega)
            · rw [hpm m]; simp [hm16, from', hocc]
            · intro i hi; rw [hpm i]
              have : ¬ m ≤ i := by omega
              simp [from', this]
          obtain ⟨n, hn⟩ : ∃ n, cnt (occ ch) 16 - cnt (occ ch) m = n + 1 := ⟨cnt (occ ch) 16 - cnt (occ ch) m - 1, by omega⟩
          rw [hn, scanItems_succ]
          simp only [htz]
          rw [bind_ok (load_ok hl.mem hl.get), ha.ptr]
          have hcl := hl.child ha ho hm16 hocc
          have hVE : VEq (ch m) (scanT g (ch m) u).2.1 := scanT_veq g (ch m) u
          -- the item
          have hitem : ∃ s1 F1, (if lk.tmap &&& bitOf m ≠ 0#32 then do
                let x ← load ⟨.blk b, cnt (occ ch) m⟩
                visit u x
              else scan visit fuel u ⟨.blk b, cnt (occ ch) m⟩) s
                = .ok (((scanT g (ch m) u).1, (scanT g (ch m) u).2.2), s1) ∧
              Upd c h s s1 b (cnt (occ ch) m) xs (xs.getD (cnt (occ ch) m) {}) (G m) F1 (ch m)
                (scanT g (ch m) u).2.1 (d + 1) := by
            cases hcm : ch m with
            | empty => simp [occ, hcm, isEmpty] at hocc
            | leaf k p v =>
              rw [if_pos]
              · have hrm := hrep m hm16
                rw [hcm] at hrm
                obtain ⟨q, hlk, hkv, _, _⟩ := id hrm
                obtain ⟨s1, e1, e2⟩ := hv s u k q v hkv
                refine ⟨s1, G m, ?_, ?_⟩
                · rw [bind_ok (load_ok hcl.mem hcl.get), hlk, e1]; rfl
                · exact Upd.cell hcl hrm hlk e2
              · rw [Ne, tm_bit ha hm16 hocc]; simp [lf, hcm, isLeaf]
            | node st' ch' =>
              rw [if_neg]
              · have := ih m (s := s) (d := d + 1) (fuel := fuel) (u := u)
                  (by rw [← hsame m (Nat.le_refl _), hcm]; rfl) hcl
                  (by rw [← hsame m (Nat.le_refl _)]; exact hrep m hm16) (hh.2 m hm16) (by omega)
                rw [← hsame m (Nat.le_refl _), hcm] at this
                obtain ⟨s1, F1, e1, e2⟩ := this
                exact ⟨s1, F1, e1, e2⟩
              · rw [Ne, tm_bit ha hm16 hocc]; simp [lf, hcm, isLeaf]
          obtain ⟨s1, F1, e1, hu1⟩ := hitem
          rw [bind_ok e1]
          have hup := Upd.lift hl ha ho hrep hm16 hocc hu1
            (by rw [hVE.isEmpty]; simpa [occ] using hocc) hVE.isLeaf
          cases hgo : (scanT g (ch m) u).2.2 with
          | false =>
            rw [scanStep_false _ _ rfl]
            simp only [Bool.false_eq_true, if_false]
            exact ⟨s1, _, rfl, hup⟩
          | true =>
            simp only [if_true]
            have hoc : occ (upd ch m (scanT g (ch m) u).2.1) = occ ch := occ_upd hVE.isEmpty
            have hl1 := hup.loc hl
            rw [set_self hl.get] at hl1
            have hI := ihq (m + 1) (by omega) (s := s1) (u := (scanT g (ch m) u).1)
              (pm := pm &&& ~~~bitOf m) hl1 hup.rep
              (by
                intro i
                apply (hveq i).trans
                by_cases hi : i = m
                · subst hi; rw [upd_same]; exact hVE
                · rw [upd_other _ _ hi]; exact VEq.refl _)
              (by intro i hi; rw [upd_other _ _ (by omega)]; exact hsame i (by omega))
              (by
                rw [hoc]
                apply hpm.andNot_bit hm16
                · have : ¬ m + 1 ≤ m := by omega
                  simp only [from', this, decide_false, Bool.false_and]
                · intro j hj
                  unfold from'
                  by_cases h1 : m ≤ j
                  · have : m + 1 ≤ j := by omega
                    simp [h1, this]
                  · have : ¬ m + 1 ≤ j := by omega
                    simp [h1, this])
            rw [hoc] at hI
            have hcs : cnt (occ ch) (m + 1) = cnt (occ ch) m + 1 := by rw [cnt_succ, hocc]; rfl
            rw [hcs, show cnt (occ ch) 16 - (cnt (occ ch) m + 1) = n by omega] at hI
            obtain ⟨s2, F2, e2, hu2⟩ := hI
            refine ⟨s2, F2, e2, ?_⟩
            apply hup.trans hl
            rw [set_self hl.get]
            exact hu2
        · -- an unused slot
          have hce : ch m = .empty := isEmpty_iff.1 (by simpa [occ] using hocc)
          have hocf : occ ch m = false := by simpa using hocc
          have hup : upd ch m (.empty : T K Ptr V) = ch := by rw [← hce]; exact upd_self _ _
          rw [hce]
          simp only [scanT_empty, hup]
          have hcs : cnt (occ ch) (m + 1) = cnt (occ ch) m := by rw [cnt_succ, hocf]; rfl
          have hI := ihq (m + 1) (by omega) (s := s) (u := u) (pm := pm) hl hr hveq
            (fun i hi => hsame i (by omega))
            (by
              apply hpm.congr
              intro i _
              unfold from'
              by_cases h1 : i = m
              · subst h1; simp [hocf]
              · by_cases h2 : m ≤ i
                · have : m + 1 ≤ i := by omega
                  simp [h2, this]
                · have : ¬ m + 1 ≤ i := by omega
                  simp [h2, this])
          rw [hcs] at hI
          exact hI
    rw [scan, bind_ok (load_ok hl.mem hl.get)]
    have hpm : BitsAre lk.pmap (occ ch0) := by
      obtain ⟨b, xs, G, ha, _, _⟩ := hr; exact ha.pm
    have hI := loop 16 0 rfl (u := u) (pm := lk.pmap) hl hr (fun _ => VEq.refl _) (fun _ _ => rfl)
      (hpm.congr (fun i _ => by simp [from']))
    rw [hpm.popcount]
    rw [scanT_node, List.range_eq_range']
    rw [cnt_zero, Nat.sub_zero] at hI
    exact hI

end Amt
