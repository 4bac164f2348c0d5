/-
A stored `BytesMap` key whose slice the caller modified after insertion (against the rule at bytes_map.go:46-48):
`Set` and `Mod` notice that it no longer belongs to its slot and replace the entry (C38).
-/
import Verif.PropsLaws

set_option linter.unusedVariables false
set_option linter.unusedSectionVars false

namespace Amt
open T Spec

variable {K P V : Type}

/-! ### Replacing the entry in the slot of a key -/

section
variable (nb : K → Nat → Nat)

/-- Replace the entry in the slot of `key`. -/
def T.repl (key : K) (e : K × P × V) : T K P V → Nat → T K P V
  | .empty, _ => .empty
  | .leaf _ _ _, _ => .leaf e.1 e.2.1 e.2.2
  | .node st ch, d => .node st (upd ch (nb key d) (repl key e (ch (nb key d)) (d + 1)))

variable {nb}

theorem T.repl_isEmpty (key : K) (e : K × P × V) (t : T K P V) (d : Nat) :
    (repl nb key e t d).isEmpty = t.isEmpty ∧ (repl nb key e t d).isLeaf = t.isLeaf ∧
      (repl nb key e t d).isNode = t.isNode := by
  cases t <;> exact ⟨rfl, rfl, rfl⟩

theorem T.repl_repl (key : K) (e e' : K × P × V) (t : T K P V) (d : Nat) :
    repl nb key e' (repl nb key e t d) d = repl nb key e' t d := by
  induction t generalizing d with
  | empty => rfl
  | leaf => rfl
  | node st ch ih =>
    simp only [repl, upd_same, ih]
    congr 1
    funext j
    by_cases hj : j = nb key d <;> simp [upd, hj]

theorem T.slot_repl (key : K) (e : K × P × V) {e0 : K × P × V} {t : T K P V} {d : Nat}
    (h : slot nb key t d = some e0) : slot nb key (repl nb key e t d) d = some e := by
  induction t generalizing d with
  | empty => cases h
  | leaf => rfl
  | node st ch ih => simp only [repl, slot, upd_same]; exact ih _ h

theorem T.lev_repl (key : K) (e : K × P × V) (t : T K P V) (d : Nat) :
    lev nb key (repl nb key e t d) d = lev nb key t d := by
  induction t generalizing d with
  | empty => rfl
  | leaf => rfl
  | node st ch ih => simp only [repl, lev, upd_same]; exact ih _ _

theorem T.Ht_repl [DecidableEq K] (hnb : ∀ k d, nb k d < 16) (key : K) (e : K × P × V) {B : Nat} {t : T K P V} {d : Nat} (h : Ht B t d) :
    Ht B (repl nb key e t d) d := by
  induction t generalizing d with
  | empty => trivial
  | leaf => trivial
  | node st ch ih => exact Ht_upd h (ih _ (h.2 _ (hnb key d)))

theorem T.leaves_repl (hnb : ∀ k d, nb k d < 16) (key : K) {e0 : K × P × V} {t : T K P V} {d : Nat}
    (h : slot nb key t d = some e0) :
    ∃ A C, leaves t = A ++ e0 :: C ∧ ∀ e, leaves (repl nb key e t d) = A ++ e :: C := by
  induction t generalizing d with
  | empty => cases h
  | leaf k p v =>
    simp only [slot, Option.some.injEq] at h
    exact ⟨[], [], by simp [leaves, h], fun e => by simp [leaves, repl]⟩
  | node st ch ih =>
    obtain ⟨A', C', h1, h2⟩ := ih _ (d := d + 1) h
    obtain ⟨A, C, hu⟩ := leaves_upd ch (hnb key d)
    have h0 := hu st (ch (nb key d))
    rw [upd_self] at h0
    refine ⟨A ++ A', C' ++ C, ?_, fun e => ?_⟩
    · rw [h0, h1]; simp
    · rw [repl, hu, h2]; simp

theorem T.WF_repl (hnb : ∀ k d, nb k d < 16) {key : K} {p : P} {v : V} {e0 : K × P × V} {t : T K P V} {d : Nat}
    (hw : WF nb t d) (h : slot nb key t d = some e0) : WF nb (repl nb key (key, p, v) t d) d := by
  induction t generalizing d with
  | empty => trivial
  | leaf => trivial
  | node st ch ih =>
    refine ⟨fun i hi => ?_, fun i hi => ?_⟩
    · have := hnb key d
      rw [upd_other _ _ (by omega)]; exact hw.1 i hi
    · by_cases hir : i = nb key d
      · subst hir
        rw [upd_same]
        refine ⟨fun e he => ?_, ih _ (hw.2 _ hi).2 h⟩
        obtain ⟨A, C, h1, h2⟩ := leaves_repl hnb key (t := ch (nb key d)) (d := d + 1) h
        rw [h2] at he
        rcases List.mem_append.1 he with q | q
        · exact (hw.2 _ hi).1 e (by rw [h1]; simp [q])
        · rcases List.mem_cons.1 q with rfl | q
          · rfl
          · exact (hw.2 _ hi).1 e (by rw [h1]; simp [q])
      · rw [upd_other _ _ hir]; exact hw.2 i hi

theorem T.leaves_repl_length (hnb : ∀ k d, nb k d < 16) (key : K) (e : K × P × V) {t : T K P V} {d : Nat} :
    (leaves (repl nb key e t d)).length = (leaves t).length := by
  induction t generalizing d with
  | empty => rfl
  | leaf => rfl
  | node st ch ih =>
    obtain ⟨A, C, hu⟩ := leaves_upd ch (hnb key d)
    have h0 := hu st (ch (nb key d))
    rw [upd_self] at h0
    rw [repl, hu, h0]
    simp [ih (nb key d)]

theorem T.Canon_repl (hnb : ∀ k d, nb k d < 16) (key : K) (e : K × P × V) {t : T K P V} {d : Nat} (h : Canon t) :
    Canon (repl nb key e t d) := by
  induction t generalizing d with
  | empty => trivial
  | leaf => trivial
  | node st ch ih =>
    refine ⟨⟨h.1.1, ?_⟩, fun i hi => ?_⟩
    · have := leaves_repl_length hnb key e (t := .node st ch) (d := d)
      rw [repl] at this
      rw [this]; exact h.1.2
    · by_cases hir : i = nb key d
      · subst hir; rw [upd_same]; exact ih _ (h.2 _ hi)
      · rw [upd_other _ _ hir]; exact h.2 i hi

theorem T.CanonRoot_repl (hnb : ∀ k d, nb k d < 16) (key : K) (e : K × P × V) {t : T K P V} (h : CanonRoot t) :
    CanonRoot (repl nb key e t 0) := by
  cases t with
  | empty => exact h
  | leaf => exact h
  | node st ch =>
    refine ⟨h.1, fun i hi => ?_⟩
    by_cases hir : i = nb key 0
    · subst hir; rw [upd_same]; exact Canon_repl hnb key e (h.2 _ hi)
    · rw [upd_other _ _ hir]; exact h.2 i hi

end

/-! ### The caller modifies a key in place -/

/-- The caller writes to the bytes of the slice that it passed to `Set`: the key field of the cell at `p`, which
shares those bytes (`byteskv.k`, bytes_map.go:52-55, 203, 213, 224), changes. -/
def overwriteKey (p : Ptr) (k : K) : M K V Unit := fun s =>
  match p with
  | .nil => .error .nilDeref
  | .blk b =>
    match s.mem b with
    | none => .error .dangling
    | some (.links _) => .error .wrongType
    | some (.kv _ v) => .ok ((), { s with mem := fun a => if a = b then some (.kv (some k) v) else s.mem a })

section
variable {c : Cfg K} {sd : Seed} {H : K → Nat → BitVec 64} {cl : Prop} {h : Nat}

/-- A key modified in place, in terms of tries. -/
theorem rekey_sim (hb : c.store = .boxed) (hfg : c.forget = false) (hm : ∀ a b p, mkLink c a p = mkLink c b p) {s : St K V} (key : K) {k k' : K}
    {a : Nat} {v : V} (t : T K Ptr V) :
    ∀ {d b0 i0 : Nat} {xs0 : List Link} {lk : Link} {F : Nat → Prop}, t.isNode = true → Loc s b0 i0 xs0 lk F →
    Rep c s.mem t d lk F → slot (nbOf H) key t d = some (k, .blk a, v) →
    s.mem a = some (.kv (some k) v) ∧
    ∃ F', Upd c h s (s.put a (.kv (some k') v)) b0 i0 xs0 lk F F' t (repl (nbOf H) key (k', .blk a, v) t d) d := by
  induction t with
  | empty => intro d b0 i0 xs0 lk F h; cases h
  | leaf => intro d b0 i0 xs0 lk F h; cases h
  | node st ch ih =>
    intro d b0 i0 xs0 lk F _ hl hr hs
    obtain ⟨b, xs, G, ha, ho, hrep⟩ := hr
    have hr16 := nbOf_lt H key d
    rw [slot] at hs
    rw [repl]
    cases he : ch (nbOf H key d) with
    | empty => rw [he] at hs; cases hs
    | leaf k1 p1 v1 =>
      rw [he] at hs
      simp only [slot, Option.some.injEq, Prod.mk.injEq] at hs
      obtain ⟨rfl, rfl, rfl⟩ := hs
      have hocc : occ ch (nbOf H key d) = true := by simp [occ, he, isEmpty]
      have hlc := hl.child ha ho hr16 hocc
      have hcr := hrep _ hr16
      rw [he] at hcr
      obtain ⟨h1, h2, h3⟩ := Rep.leaf_inv hfg hcr
      have hcell : s.mem a = some (.kv (some k1) v1) := by
        rw [KvAt, hb] at h2
        obtain ⟨a', e1, e2⟩ := h2
        cases e1; exact e2
      have hab : b ≠ a := fun e => ho.nob _ hr16 (e ▸ (h3 a).2 rfl)
      refine ⟨hcell, ?_⟩
      have hu : Upd c h s (s.put a (.kv (some k') v1)) b (cnt (occ ch) (nbOf H key d)) xs
          (xs.getD (cnt (occ ch) (nbOf H key d)) {}) (G (nbOf H key d)) (G (nbOf H key d)) (ch (nbOf H key d))
          (.leaf k' (.blk a) v1) (d + 1) := by
        refine ⟨?_, ?_, Nat.le_refl _, fun a hg => Or.inl hg, ?_, ?_⟩
        · rw [set_self hlc.get, put_mem, if_neg hab, ha.mem]
        · intro x _ _ hng
          rw [put_mem, if_neg (fun e => hng ((h3 x).2 (by rw [e])))]
        · rw [h1, hm k1 k']
          exact Rep.leaf_mk rfl (by rw [KvAt, hb]; exact ⟨a, rfl, by simp⟩) h3
        · rw [he]
          exact ⟨fun _ _ => rfl, rfl, rfl, rfl⟩
      have hu' := Upd.lift hl ha ho hrep hr16 hocc hu rfl (by rw [he]; rfl)
      exact ⟨_, hu'⟩
    | node st' ch' =>
      have hocc : occ ch (nbOf H key d) = true := by simp [occ, he, isEmpty]
      obtain ⟨h1, F', hu⟩ := ih (nbOf H key d) (d := d + 1) (by rw [he]; rfl) (hl.child ha ho hr16 hocc) (hrep _ hr16) hs
      refine ⟨h1, ?_⟩
      have hp := repl_isEmpty (nb := nbOf H) key (k', .blk a, v) (ch (nbOf H key d)) (d + 1)
      have hu' := Upd.lift hl ha ho hrep hr16 hocc hu (by rw [hp.1, he]; rfl) hp.2.1
      rw [he] at hu'
      exact ⟨_, hu'⟩

variable [DecidableEq K]

/-- The guard of `BytesMap.Set` and `Mod`: if the key in the slot does not have the nibble of the slot, its entry
is replaced. -/
theorem guard_sim {R : Type} {ins : Ins K V R} {key k' : K} {p' : Ptr} {v' vSlot : V} {rNew : R} {fuel0 : Nat} {chd : BitVec 64}
    {cw : Nat} (L : Laws c sd H) (hm : ∀ a b p, mkLink c a p = mkLink c b p) (hg : ins.guard = true)
    (hnew : ∀ s, ∃ p s', ins.newSlot s = .ok ((p, rNew), s') ∧ NewCell c s s' key p vSlot) (hk : key ≠ k')
    {B : Nat} (hB : B < 256) {s : St K V} (t : T K Ptr V) :
    ∀ {d b0 i0 : Nat} {xs0 : List Link} {lk : Link} {F : Nat → Prop} {cur : Cur} {fuel : Nat},
    t.isNode = true → Loc s b0 i0 xs0 lk F → Rep c s.mem t d lk F → Ht B t d → B < fuel + d →
    CurOk H key d cur → cur.l = ⟨.blk b0, i0⟩ → slot (nbOf H) key t d = some (k', p', v') →
    ins.chash sd key k' (lev (nbOf H) key t d - 1) fuel0 = .ok (chd, cw) →
    radixOf chd ≠ nbOf H key (lev (nbOf H) key t d - 1) →
    ∃ p s' F', (search c sd key fuel cur >>= upsertFin c sd h fuel0 key ins) s = .ok (rNew, s') ∧
      Upd c h s s' b0 i0 xs0 lk F F' t (repl (nbOf H) key (key, p, vSlot) t d) d := by
  induction t with
  | empty => intro d b0 i0 xs0 lk F cur fuel h; cases h
  | leaf => intro d b0 i0 xs0 lk F cur fuel h; cases h
  | node st ch ih =>
    intro d b0 i0 xs0 lk F cur fuel _ hl hr hh hf hc hcl hs hch hrad
    obtain ⟨b, xs, G, ha, ho, hrep⟩ := hr
    have hd : d ≤ B := hh.1
    obtain ⟨fuel, rfl⟩ : ∃ f, fuel = f + 1 := ⟨fuel - 1, by omega⟩
    have hr16 := nbOf_lt H key d
    rw [slot] at hs
    rw [lev] at hch hrad
    simp only [repl]
    cases he : ch (nbOf H key d) with
    | empty => rw [he] at hs; cases hs
    | leaf k1 p1 v1 =>
      rw [he] at hs hch hrad
      simp only [slot, Option.some.injEq, Prod.mk.injEq] at hs
      obtain ⟨rfl, rfl, rfl⟩ := hs
      simp only [lev, Nat.add_sub_cancel] at hch hrad
      have hocc : occ ch (nbOf H key d) = true := by simp [occ, he, isEmpty]
      have hlc := hl.child ha ho hr16 hocc
      have hcr := hrep _ hr16
      rw [he] at hcr
      obtain ⟨p1, h1, h2, h3, _⟩ := hcr
      have hbF : F b := (ho.foot b).2 (Or.inl rfl)
      rw [bind_ok (search_leaf hl ha hc hcl he fuel)]
      simp only [upsertFin, if_true]
      have hc' := push_ok hc (nbOf H key d)
      rw [conflict, bind_ok (itemRef_ok hl ha hc' hcl), bind_ok (load_ok ha.mem (ha.slot hr16 hocc)), h1,
        bind_ok (readKey_ok L (m := s.mem) h2), if_neg (fun e => hk ((L.eq_iff _ _).1 e)),
        bind_ok (liftE_ok (by rw [hc'.d]; exact hch) s)]
      simp only
      rw [hc'.radix, if_pos ⟨hg, hrad⟩]
      obtain ⟨p, s1, e1, hn⟩ := hnew s
      rw [bind_ok e1]
      have hb1 : s1.mem b = some (.links xs) := by rw [hn.frame b hlc.lt, ha.mem]
      simp only
      rw [bind_ok (modLink_ok hb1 (ha.slot hr16 hocc)), h1]
      have hpb : ∀ a, p = .blk a → a ≠ b := fun a hp e => by
        have h1 := (hn.fresh a hp).1
        have h2 := hlc.lt
        omega
      have hmk : ({ ptr := p, pmap := (mkLink c k1 p1).pmap, tmap := (mkLink c k1 p1).tmap } : Link) = mkLink c key p := by
        have : mkLink c k1 p = mkLink c key p := hm k1 key p
        rw [← this]; rfl
      have hu : Upd c h s (s1.put b (.links (xs.set (cnt (occ ch) (nbOf H key d))
          { ptr := p, pmap := (mkLink c k1 p1).pmap, tmap := (mkLink c k1 p1).tmap }))) b (cnt (occ ch) (nbOf H key d)) xs
          (mkLink c key p) (G (nbOf H key d)) (fun a => p = .blk a) (ch (nbOf H key d))
          (.leaf key p vSlot) (d + 1) := by
        refine ⟨?_, ?_, hn.next, fun a hp => Or.inr (hn.fresh a hp), Rep.leaf_mk rfl ?_ fun a => Iff.rfl, ?_⟩
        · rw [put_mem, if_pos rfl, hmk]
        · intro a g1 g2 _
          rw [put_mem, if_neg g2, hn.frame a g1]
        · refine hn.kv.frame fun a hp => ?_
          rw [put_mem, if_neg (hpb a hp)]
        · rw [he]
          refine ⟨fun a _ => by rw [put_roots, hn.roots], by rw [put_roots, hn.roots], ?_, ?_⟩
          · rw [put_roots, hn.roots]; rfl
          · rw [put_roots, hn.roots]; rfl
      have hu' := Upd.lift hl ha ho hrep hr16 hocc hu rfl (by rw [he]; rfl)
      exact ⟨p, _, _, rfl, hu'⟩
    | node st' ch' =>
      have hocc : occ ch (nbOf H key d) = true := by simp [occ, he, isEmpty]
      rw [bind_run, search_node hl ha hc hcl he fuel, ← bind_run]
      have hd' := descend_ok L (push_ok hc (nbOf H key d)) (by have := hh.2 _ hr16; rw [he] at this; have := this.1; omega : d + 1 < 256)
        ⟨.blk b, cnt (occ ch) (nbOf H key d)⟩
      obtain ⟨p, s', F', e1, hu⟩ := ih (nbOf H key d) (d := d + 1) (fuel := fuel) (by rw [he]; rfl)
        (hl.child ha ho hr16 hocc) (hrep _ hr16) (hh.2 _ hr16) (by omega) hd'.1 hd'.2.1 hs hch hrad
      have hp := repl_isEmpty (nb := nbOf H) key (key, p, vSlot) (ch (nbOf H key d)) (d + 1)
      have hu' := Upd.lift hl ha ho hrep hr16 hocc hu (by rw [hp.1, he]; rfl) hp.2.1
      rw [he] at hu' 
      exact ⟨p, s', _, e1, hu'⟩

end

/-! ### The caller modifies any number of keys in place -/

/-- Every stored key `k` now reads `σ k`. -/
def T.mapKeys (σ : K → K) : T K P V → T K P V
  | .empty => .empty
  | .leaf k p v => .leaf (σ k) p v
  | .node st ch => .node st (fun i => mapKeys σ (ch i))

section
variable {σ τ : K → K}

theorem T.mapKeys_isEmpty (t : T K P V) : (mapKeys σ t).isEmpty = t.isEmpty ∧ (mapKeys σ t).isLeaf = t.isLeaf ∧
    (mapKeys σ t).isNode = t.isNode := by
  cases t <;> exact ⟨rfl, rfl, rfl⟩

theorem T.mapKeys_leaves (t : T K P V) : leaves (mapKeys σ t) = (leaves t).map (fun e => (σ e.1, e.2.1, e.2.2)) := by
  induction t with
  | empty => rfl
  | leaf => rfl
  | node st ch ih =>
    simp only [mapKeys, leaves, List.map_flatMap]
    congr 1
    funext i
    exact ih i

theorem T.mapKeys_slot {nb : K → Nat → Nat} (key : K) (t : T K P V) (d : Nat) :
    slot nb key (mapKeys σ t) d = (slot nb key t d).map (fun e => (σ e.1, e.2.1, e.2.2)) := by
  induction t generalizing d with
  | empty => rfl
  | leaf => rfl
  | node st ch ih => simp only [mapKeys, slot]; exact ih _ _

theorem T.mapKeys_lev {nb : K → Nat → Nat} (key : K) (t : T K P V) (d : Nat) :
    lev nb key (mapKeys σ t) d = lev nb key t d := by
  induction t generalizing d with
  | empty => rfl
  | leaf => rfl
  | node st ch ih => simp only [mapKeys, lev]; exact ih _ _

theorem T.mapKeys_Ht {B : Nat} {t : T K P V} {d : Nat} (h : Ht B t d) : Ht B (mapKeys σ t) d := by
  induction t generalizing d with
  | empty => trivial
  | leaf => trivial
  | node st ch ih => exact ⟨h.1, fun i hi => ih i (h.2 i hi)⟩

theorem T.mapKeys_congr {nb : K → Nat → Nat} {t : T K P V} {d : Nat} (hw : WF nb t d) (h : ∀ e ∈ leaves t, σ e.1 = τ e.1) :
    mapKeys σ t = mapKeys τ t := by
  induction t generalizing d with
  | empty => rfl
  | leaf k p v => simp only [mapKeys]; rw [h (k, p, v) (by simp [leaves])]
  | node st ch ih =>
    simp only [mapKeys]
    congr 1
    funext i
    by_cases hi : i < 16
    · exact ih i (hw.2 i hi).2 fun e he => h e (mem_leaves_node.2 ⟨i, hi, he⟩)
    · rw [hw.1 i (by omega)]; rfl

theorem T.mapKeys_self {nb : K → Nat → Nat} {t : T K P V} {d : Nat} (hw : WF nb t d) (h : ∀ e ∈ leaves t, σ e.1 = e.1) :
    mapKeys σ t = t := by
  rw [mapKeys_congr hw (τ := id) h]
  clear h hw
  induction t with
  | empty => rfl
  | leaf => rfl
  | node st ch ih => simp only [mapKeys, ih]

theorem T.mapKeys_repl {nb : K → Nat → Nat} (key : K) (e : K × P × V) (t : T K P V) (d : Nat) :
    mapKeys σ (repl nb key e t d) = repl nb key (σ e.1, e.2.1, e.2.2) (mapKeys σ t) d := by
  induction t generalizing d with
  | empty => rfl
  | leaf => rfl
  | node st ch ih =>
    simp only [mapKeys, repl]
    congr 1
    funext j
    by_cases hj : j = nb key d
    · subst hj; simp only [upd_same]; exact ih _ _
    · rw [upd_other _ _ hj, upd_other _ _ hj]

/-- Modifying one more key. -/
theorem T.repl_mapKeys {nb : K → Nat → Nat} (hnb : ∀ k d, nb k d < 16) {key k : K} {p : P} {v : V} {e : K × P × V} {t : T K P V} {d : Nat} (hw : WF nb t d)
    (hs : slot nb key t d = some (k, p, v)) (hst : ∀ e ∈ leaves t, e.1 ≠ k → σ e.1 = τ e.1) :
    repl nb key e (mapKeys σ t) d = repl nb key e (mapKeys τ t) d ∧
      (e = (τ k, p, v) → repl nb key e (mapKeys σ t) d = mapKeys τ t) := by
  induction t generalizing d with
  | empty => cases hs
  | leaf k1 p1 v1 =>
    simp only [slot, Option.some.injEq, Prod.mk.injEq] at hs
    obtain ⟨rfl, rfl, rfl⟩ := hs
    refine ⟨rfl, fun h => ?_⟩
    subst h; rfl
  | node st ch ih =>
    have hr := hnb key d
    rw [slot] at hs
    obtain ⟨g1, g2⟩ := ih _ (hw.2 _ hr).2 hs (fun e he => hst e (mem_leaves_node.2 ⟨_, hr, he⟩))
    have hk : nb k d = nb key d := (hw.2 _ hr).1 _ (slot_mem hnb hs)
    have ho : ∀ j, j ≠ nb key d → mapKeys σ (ch j) = mapKeys τ (ch j) := by
      intro j hj
      by_cases hj16 : j < 16
      · refine mapKeys_congr (hw.2 j hj16).2 fun e he => hst e (mem_leaves_node.2 ⟨_, hj16, he⟩) fun hek => hj ?_
        rw [← (hw.2 j hj16).1 e he, hek, hk]
      · rw [hw.1 j (by omega)]; rfl
    constructor
    · simp only [mapKeys, repl]
      congr 1
      funext j
      by_cases hj : j = nb key d
      · subst hj; simp only [upd_same]; exact g1
      · rw [upd_other _ _ hj, upd_other _ _ hj]; exact ho j hj
    · intro he
      simp only [mapKeys, repl]
      congr 1
      funext j
      by_cases hj : j = nb key d
      · subst hj; simp only [upd_same]; exact g2 he
      · rw [upd_other _ _ hj]; exact ho j hj

end

/-- Modify keys through the pointers to their cells. -/
def overwriteKeys : List (Ptr × K) → M K V Unit
  | [] => pure ()
  | w :: ws => do overwriteKey w.1 w.2; overwriteKeys ws

section
variable [DecidableEq K]

/-- What every key reads after the modifications `ws`. -/
def keyNow (ws : List (K × K)) (k : K) : K := ws.foldl (fun r w => if w.1 = k then w.2 else r) k

theorem keyNow_append (ws : List (K × K)) (w : K × K) (k : K) :
    keyNow (ws ++ [w]) k = if w.1 = k then w.2 else keyNow ws k := by
  simp [keyNow, List.foldl_append]

end

section
variable [DecidableEq K]
variable {c : Cfg K} {sd : Seed} {H : K → Nat → BitVec 64} {cl : Prop} {h : Nat} {s : St K V} {t : T K Ptr V} {F : Nat → Prop}

/-- The cells of a boxed container. -/
theorem Inv.boxed (hb : c.store = .boxed) (hfg : c.forget = false) (hi : Inv c sd H cl s h t F) : ∀ e ∈ leaves t, ∃ a, e.2.1 = .blk a := by
  obtain ⟨lk, hl, hr⟩ := hi.rep
  have : ∀ (t : T K Ptr V) (d : Nat) (lk : Link) (F : Nat → Prop), Rep c s.mem t d lk F → ∀ e ∈ leaves t, ∃ a, e.2.1 = .blk a := by
    intro t
    induction t with
    | empty => intro d lk F _ e he; simp [leaves] at he
    | leaf k p v =>
      intro d lk F hr e he
      have h2 := (Rep.leaf_inv hfg hr).2.1
      simp only [leaves, List.mem_singleton] at he
      subst he
      rw [KvAt, hb] at h2
      obtain ⟨a, h, _⟩ := h2
      exact ⟨a, h⟩
    | node st ch ih =>
      rintro d lk F ⟨b, xs, G, ha, ho, hr⟩ e he
      obtain ⟨i, hi, he'⟩ := mem_leaves_node.1 he
      exact ih i _ _ _ (hr i hi) e he'
  exact this t 0 lk F hr

/-- Modifying keys keeps the trie. -/
theorem Inv.rekeys (hb : c.store = .boxed) (hfg : c.forget = false) (hm : ∀ a b p, mkLink c a p = mkLink c b p) (hi : Inv c sd H cl s h t F)
    {lk : Link} (hl : Loc s h 0 [lk] lk F) (hr : Rep c s.mem t 0 lk F) {f : K → Ptr}
    (hp : ∀ e ∈ leaves t, f e.1 = e.2.1) (ws : List (K × K)) (hws : ∀ w ∈ ws, w.1 ∈ (absT t).keys) :
    ∃ s' F', overwriteKeys (ws.map fun w => (f w.1, w.2)) s = .ok ((), s') ∧
      Upd c h s s' h 0 [lk] lk F F' t (mapKeys (keyNow ws) t) 0 := by
  have key : ∀ (ws vs : List (K × K)), (∀ w ∈ ws, w.1 ∈ (absT t).keys) → ∀ {s1 F1},
      Upd c h s s1 h 0 [lk] lk F F1 t (mapKeys (keyNow vs) t) 0 →
      ∃ s' F', overwriteKeys (ws.map fun w => (f w.1, w.2)) s1 = .ok ((), s') ∧
        Upd c h s s' h 0 [lk] lk F F' t (mapKeys (keyNow (vs ++ ws)) t) 0 := by
    intro ws
    induction ws with
    | nil => intro vs _ s1 F1 hu; exact ⟨s1, F1, rfl, by rw [List.append_nil]; exact hu⟩
    | cons w ws ih =>
      intro vs hws s1 F1 hu
      obtain ⟨e, he, hek⟩ := mem_absT_keys.1 (hws w (by simp))
      obtain ⟨a, ha⟩ := hi.boxed hb hfg e he
      have hfd := (find_eq_some (nbOf_lt H) hi.wf (key := e.1) (p := e.2.1) (v := e.2.2)).2 he
      have hs : slot (nbOf H) e.1 t 0 = some (e.1, .blk a, e.2.2) := by
        rw [find_slot] at hfd
        cases hs : slot (nbOf H) e.1 t 0 with
        | none => rw [hs] at hfd; cases hfd
        | some e' =>
          rw [hs, Option.bind_some] at hfd
          by_cases hk : e.1 = e'.1
          · rw [if_pos hk, ha] at hfd
            have := Option.some.inj hfd
            rw [Option.some.injEq, Prod.ext_iff]
            exact ⟨hk.symm, this⟩
          · rw [if_neg hk] at hfd; cases hfd
      have hl1 := hu.loc hl
      rw [set_self hl.get] at hl1
      obtain ⟨hcell, F2, hu2⟩ := rekey_sim (h := h) (k' := w.2) hb hfg hm e.1 (mapKeys (keyNow vs) t)
        (by rw [(mapKeys_isEmpty t).2.2, hi.node]) hl1 hu.rep (by rw [mapKeys_slot, hs]; rfl)
      rw [(repl_mapKeys (τ := keyNow (vs ++ [w])) (nbOf_lt H) hi.wf hs (fun e' _ hne => by
          rw [keyNow_append, if_neg (fun h => hne (by rw [← h, hek]))])).2
        (by rw [keyNow_append, if_pos hek.symm])] at hu2
      have hu' : Upd c h s (s1.put a (.kv (some w.2) e.2.2)) h 0 [lk] lk F F2 t (mapKeys (keyNow (vs ++ [w])) t) 0 :=
        Upd.trans hl hu (by rw [set_self hl.get]; exact hu2)
      obtain ⟨s', F', e1, e2⟩ := ih (vs ++ [w]) (fun w hw => hws w (by simp [hw])) hu'
      refine ⟨s', F', ?_, by rw [List.append_assoc] at e2; exact e2⟩
      rw [List.map_cons, overwriteKeys]
      have : overwriteKey (f w.1) w.2 s1 = .ok ((), s1.put a (.kv (some w.2) e.2.2)) := by
        rw [← hek, hp e he, ha]
        simp only [overwriteKey, hcell]; rfl
      rw [bind_ok this]
      exact e1
  have := key ws [] hws (s1 := s) (F1 := F) (by
    rw [mapKeys_self hi.wf (fun _ _ => rfl)]
    exact Upd.refl hl hr)
  exact this

/-- Where a key lands. -/
theorem Inv.slot_of_collides (hi : Inv c sd H cl s h t F) (hcl : cl) {key k : K} {d : Nat}
    (hca : CollidesAt H (absT t).keys key k d) :
    ∃ p v, slot (nbOf H) key t 0 = some (k, p, v) ∧ lev (nbOf H) key t 0 - 1 = d := by
  have hsl := (hi.slot_iff hcl key).2 ⟨k, d + 1, by omega, hca.1, hca.2.1, hca.2.2.1⟩
  obtain ⟨e, hs⟩ := Option.isSome_iff_exists.1 hsl
  have hat := slot_collidesAt hi.node hi.wf (hi.canon hcl) hs
  rw [← absT_keys] at hat
  obtain ⟨rfl, rfl⟩ := hca.unique hat
  exact ⟨_, _, hs, rfl⟩

end

/-! ### C38 -/

section
variable {K V : Type} [DecidableEq K]

/-- Without one entry. -/
theorem del_mid {A C : List (K × Ptr × V)} {k : K} {p : Ptr} {v : V} {t : T K Ptr V} (hn : (absT t).keys.Nodup)
    (h1 : leaves t = A ++ (k, p, v) :: C) : (absT t).del k = (A ++ C).map (fun e => (e.1, e.2.2)) := by
  rw [absT_keys, h1] at hn
  simp only [List.map_append, List.map_cons] at hn
  rw [List.nodup_append] at hn
  have hA : ∀ e ∈ A, e.1 ≠ k := fun e he => hn.2.2 e.1 (List.mem_map_of_mem (f := fun e : K × Ptr × V => e.1) he) k (by simp)
  have hC : ∀ e ∈ C, e.1 ≠ k := by
    intro e he hk
    have := (List.nodup_cons.1 hn.2.1).1
    exact this (by rw [← hk]; exact List.mem_map_of_mem (f := fun e : K × Ptr × V => e.1) he)
  rw [absT, h1, FMap.del, List.map_append, List.map_cons, List.filter_append, List.filter_cons]
  simp only [ne_eq, not_true_eq_false, decide_false, Bool.false_eq_true, if_false]
  rw [List.map_append, List.filter_eq_self.2, List.filter_eq_self.2]
  · intro e he
    obtain ⟨e', he', rfl⟩ := List.mem_map.1 he
    simpa using hC e' he'
  · intro e he
    obtain ⟨e', he', rfl⟩ := List.mem_map.1 he
    simpa using hA e' he'

end

section
variable {V : Type} [Inhabited V]

/-- `op` is `Set(key, w)`, which returns nothing, or `Mod(key, f)` with a callback that is called once, with no value
found, and leaves `w`. -/
inductive Replaces (key : ByteStr) (w : V) : MOp ByteStr V → MOut ByteStr V → Prop where
  | set : Replaces key w (.set key w) .unit
  | mod (f : V → Bool → V) (hf : f default false = w) : Replaces key w (.mod key f) (.calls [(default, false)])

variable (sum : Maphash) (sd : Seed) {ops : List (MOp ByteStr V)} {fuel : Nat}

/-- A history, and then any number of modified keys, in terms of tries. -/
theorem rekeyed (h : EachNew (fun _ => ByteFits (byteStream sum sd id)) [] ops) (hf : 256 ≤ fuel) (s : St ByteStr V)
    {ws : List (ByteStr × ByteStr)} (hws : ∀ w ∈ ws, w.1 ∈ keysAfter [] ops) :
    ∃ os m s₁ s₂ t F F₂ lk, ∃ f : ByteStr → Amt.Ptr, (BytesMap sum).session fuel sd ops s = .ok ((some s.next, os), s₁) ∧
      RunBy (MStepX (byteStream sum sd id) True id) [] ops os m ∧ m.Perm (absT t) ∧
      (∀ x ∈ keysAfter [] ops, (BytesMap sum).Ptr fuel (some s.next) x s₁ = .ok (some (f x), s₁)) ∧
      overwriteKeys (ws.map fun w => (f w.1, w.2)) s₁ = .ok ((), s₂) ∧
      Inv (BytesMap (V := V) sum).cfg sd (byteStream sum sd id) True s₁ s.next t F ∧ Loc s₁ s.next 0 [lk] lk F ∧
      Upd (BytesMap (V := V) sum).cfg s.next s₁ s₂ s.next 0 [lk] lk F F₂ t (mapKeys (keyNow ws) t) 0 ∧
      ∀ x, x ∈ keysAfter [] ops ↔ x ∈ (absT t).keys := by
  obtain ⟨os, s₁, t, F, m, e1, hi, e3, e4⟩ := (MapContainer.bytes (V := V) sum sd).session h hf s
  have ok := BytesMap_ok (V := V) sum sd
  have hks : ∀ x, x ∈ keysAfter [] ops ↔ x ∈ (absT t).keys := fun x => by
    rw [← (FMap.keys_perm e4).mem_iff]; exact (e3.keysAfter x).symm
  obtain ⟨lk, hl, hr⟩ := hi.rep
  let f : ByteStr → Amt.Ptr := fun x => ((find (nbOf (byteStream sum sd id)) x t 0).map (fun e => e.1)).getD .nil
  have hf1 : ∀ e ∈ leaves t, find (nbOf (byteStream sum sd id)) e.1 t 0 = some (e.2.1, e.2.2) := fun e he =>
    (find_eq_some (nbOf_lt _) hi.wf).2 he
  obtain ⟨s₂, F₂, g1, g2⟩ := hi.rekeys rfl rfl (fun _ _ _ => rfl) hl hr (f := f)
    (fun e he => by simp only [f, hf1 e he]; rfl) ws (fun w hw => (hks _).1 (hws w hw))
  refine ⟨os, m, s₁, s₂, t, F, F₂, lk, f, e1, e3, e4, fun x hx => ?_, g1, hi, hl, g2, hks⟩
  rw [Ptr_run ok hi hf x]
  obtain ⟨e, he, rfl⟩ := mem_absT_keys.1 ((hks x).1 hx)
  simp only [f, hf1 e he]; rfl

/-- C38.  After a covered history, the caller modifies any number of the stored keys in place; `keyNow ws x` is what the
stored key `x` reads afterwards.  A new or present key `key` lands on the slot of the stored key `k` at depth `d`; if
`k` no longer reads `key`, and no longer has the nibble of the slot, then `Set` and `Mod` replace its entry: they return
without a fault, `Len` is unchanged, `key` is found, and a traversal meets the new entry and, of the old ones, all
but that of `k`.  If no other key was modified then the map is as good as new: every covered later history is
answered as by the map with the replaced entry.

(`d < 240` because `Set` hangs on any conflict at a greater depth: `C38_deep`.) -/
theorem C38_BytesMap_partial (h : EachNew (fun _ => ByteFits (byteStream sum sd id)) [] ops) (hf : 256 ≤ fuel)
    (s : St ByteStr V) {ws : List (ByteStr × ByteStr)} (hws : ∀ w ∈ ws, w.1 ∈ keysAfter [] ops) {key k : ByteStr} {d : Nat}
    (hca : CollidesAt (byteStream sum sd id) (keysAfter [] ops) key k d) (hd : d < 240) (hk : keyNow ws k ≠ key)
    (hn : nibble (byteStream sum sd id) (keyNow ws k) d ≠ nibble (byteStream sum sd id) key d)
    {op : MOp ByteStr V} {o : MOut ByteStr V} {w : V} (hop : Replaces key w op o) :
    ∃ os m s₁ s₂ s₃, ∃ f : ByteStr → Amt.Ptr, (BytesMap sum).session fuel sd ops s = .ok ((some s.next, os), s₁) ∧
      RunBy (MStepX (byteStream sum sd id) True id) [] ops os m ∧
      (∀ x ∈ keysAfter [] ops, (BytesMap sum).Ptr fuel (some s.next) x s₁ = .ok (some (f x), s₁)) ∧
      overwriteKeys (ws.map fun w => (f w.1, w.2)) s₁ = .ok ((), s₂) ∧
      (BytesMap sum).exec fuel (some s.next) op s₂ = .ok (o, s₃) ∧
      (BytesMap sum).exec fuel (some s.next) .len s₃ = .ok (.num (BitVec.ofNat 64 m.length), s₃) ∧
      (BytesMap sum).exec fuel (some s.next) (.get key) s₃ = .ok (.pair w true, s₃) ∧
      (∃ log s₄, (BytesMap sum).exec fuel (some s.next) (.all fun _ _ v => (v, true)) s₃ = .ok (.log log, s₄) ∧
        log.Perm ((key, w) :: (m.del k).map fun e => (keyNow ws e.1, e.2))) ∧
      ((∀ x ∈ keysAfter [] ops, x ≠ k → keyNow ws x = x) →
        ∀ ops', EachNew (fun _ => ByteFits (byteStream sum sd id)) ((m.del k).set key w).keys ops' →
          ∃ os' m' s₄, (BytesMap sum).run fuel (some s.next) ops' s₃ = .ok (os', s₄) ∧
            RunBy (MStepX (byteStream sum sd id) True id) ((m.del k).set key w) ops' os' m') := by
  obtain ⟨os, m, s₁, s₂, t, F, F₂, lk, f, e1, e2, e3, e4, e5, hi, hl, hu, hks⟩ := rekeyed sum sd h hf s hws
  have ok := BytesMap_ok (V := V) sum sd
  have hnb := nbOf_lt (byteStream sum sd id)
  have hca' := hca.congr hks
  obtain ⟨p, v, hsl, hlev⟩ := hi.slot_of_collides trivial hca'
  have hl2 := hu.loc hl
  rw [set_self hl.get] at hl2
  have hnode : (mapKeys (keyNow ws) t).isNode = true := by rw [(mapKeys_isEmpty t).2.2, hi.node]
  have hht : Ht 255 (mapKeys (keyNow ws) t) 0 := mapKeys_Ht hi.ht
  have hsl2 : slot (nbOf (byteStream sum sd id)) key (mapKeys (keyNow ws) t) 0 = some (keyNow ws k, p, v) := by
    rw [mapKeys_slot, hsl]; rfl
  have hrad : radixOf (hdAt (byteStream sum sd id) (keyNow ws k) d) ≠ nbOf (byteStream sum sd id) key d := by
    rw [← nbOf_eq_nibble, ← nbOf_eq_nibble] at hn; exact hn
  -- the insertion
  have hins : ∃ q s₃ F₃, (BytesMap sum).exec fuel (some s.next) op s₂ = .ok (o, s₃) ∧
      Upd (BytesMap (V := V) sum).cfg s.next s₂ s₃ s.next 0 [lk] lk F₂ F₃ (mapKeys (keyNow ws) t)
        (repl (nbOf (byteStream sum sd id)) key (key, q, w) (mapKeys (keyNow ws) t) 0) 0 := by
    have hseed : (s₂.roots s.next).seed = sd := by rw [hu.acct.seed, hi.seed]
    cases hop with
    | set =>
      obtain ⟨q, s₃, F₃, g1, g2⟩ := guard_sim (h := s.next) (fuel0 := fuel) (fuel := fuel) (ins := (BytesMap sum).setI key w)
        ok.laws (fun _ _ _ => rfl) rfl (fun s => (ok.set key w).newSlot s) (Ne.symm hk) (by omega : 255 < 256)
        (mapKeys (keyNow ws) t) hnode hl2 hu.rep hht (by omega) (start_ok ok.laws key s.next) rfl hsl2
        (by rw [mapKeys_lev, hlev]; exact byteChash_ok sum id sd key _ d fuel hd (by omega))
        (by rw [mapKeys_lev, hlev]; exact hrad)
      refine ⟨q, s₃, F₃, ?_, g2⟩
      have : (BytesMap sum).Set fuel (some s.next) key w s₂ = .ok ((), s₃) := by
        rw [MapImpl.Set, deref, pure_bind_M, upsert_eq, bind_ok (getRoot_run s.next _), hseed]; exact g1
      rw [MapImpl.exec, bind_ok this]; rfl
    | mod f hfw =>
      obtain ⟨q, s₃, F₃, g1, g2⟩ := guard_sim (h := s.next) (fuel0 := fuel) (fuel := fuel) (ins := (BytesMap sum).modI key f)
        ok.laws (fun _ _ _ => rfl) rfl (fun s => (ok.mod key f).newSlot s) (Ne.symm hk) (by omega : 255 < 256)
        (mapKeys (keyNow ws) t) hnode hl2 hu.rep hht (by omega) (start_ok ok.laws key s.next) rfl hsl2
        (by rw [mapKeys_lev, hlev]; exact byteChash_ok sum id sd key _ d fuel hd (by omega))
        (by rw [mapKeys_lev, hlev]; exact hrad)
      rw [hfw] at g2
      refine ⟨q, s₃, F₃, ?_, g2⟩
      have : (BytesMap sum).Mod fuel (some s.next) key f s₂ = .ok ([(default, false)], s₃) := by
        rw [MapImpl.Mod, deref, pure_bind_M, upsert_eq, bind_ok (getRoot_run s.next _), hseed]; exact g1
      rw [MapImpl.exec, bind_ok this]; rfl
  obtain ⟨q, s₃, F₃, g1, hu2⟩ := hins
  have hu3 : Upd (BytesMap (V := V) sum).cfg s.next s₁ s₃ s.next 0 [lk] lk F F₃ t
      (repl (nbOf (byteStream sum sd id)) key (key, q, w) (mapKeys (keyNow ws) t) 0) 0 :=
    Upd.trans hl hu (by rw [set_self hl.get]; exact hu2)
  have hl3 := hu3.loc hl
  rw [set_self hl.get] at hl3
  have hnode3 : (repl (nbOf (byteStream sum sd id)) key (key, q, w) (mapKeys (keyNow ws) t) 0).isNode = true := by
    rw [(repl_isEmpty key _ _ 0).2.2, hnode]
  have hht3 : Ht 255 (repl (nbOf (byteStream sum sd id)) key (key, q, w) (mapKeys (keyNow ws) t) 0) 0 := Ht_repl hnb _ _ hht
  have hsl3 := slot_repl (nb := nbOf (byteStream sum sd id)) key (key, q, w) hsl2
  obtain ⟨A, C, hA, hB⟩ := leaves_repl hnb key (t := t) (d := 0) hsl
  have hlv : leaves (repl (nbOf (byteStream sum sd id)) key (key, q, w) (mapKeys (keyNow ws) t) 0) =
      A.map (fun e => (keyNow ws e.1, e.2)) ++ (key, q, w) :: C.map (fun e => (keyNow ws e.1, e.2)) := by
    rw [(repl_mapKeys (σ := keyNow ws) (τ := fun x => if x = k then key else keyNow ws x) hnb hi.wf hsl fun e _ hne => by
      rw [if_neg hne]).1]
    have := mapKeys_repl (σ := fun x => if x = k then key else keyNow ws x) (nb := nbOf (byteStream sum sd id)) key (k, q, w) t 0
    simp only [if_true] at this
    rw [← this, mapKeys_leaves, hB, List.map_append, List.map_cons]
    have hnd := nodup_absT hi.wf
    rw [absT_keys, hA, List.map_append, List.map_cons, List.nodup_append] at hnd
    congr 1
    · refine List.map_congr_left fun e he => ?_
      rw [if_neg (hnd.2.2 e.1 (List.mem_map_of_mem (f := fun e : ByteStr × Amt.Ptr × V => e.1) he) k (by simp))]
    · rw [if_pos rfl]
      congr 1
      refine List.map_congr_left fun e he => ?_
      rw [if_neg fun hek => (List.nodup_cons.1 hnd.2.1).1 (by
        exact List.mem_map.2 ⟨e, he, hek⟩)]
  have hkey : key ∈ (absT t).keys → key = k := fun h => hca'.2.2.1 key h fun _ _ => rfl
  refine ⟨os, m, s₁, s₂, s₃, f, e1, e2, e4, e5, g1, ?_, ?_, ?_, ?_⟩
  · -- Len
    have hlen := hu3.acct.len
    have hsz : size (repl (nbOf (byteStream sum sd id)) key (key, q, w) (mapKeys (keyNow ws) t) 0) 0 = size t 0 := by
      rw [size_eq_length, size_eq_length, leaves_repl_length hnb, mapKeys_leaves, List.length_map]
    rw [hsz] at hlen
    have hlen' := (BitVec.add_left_inj _).1 hlen
    rw [e3.length_eq, ← hi.length, ← hlen']; rfl
  · -- Get
    have hfd : find (nbOf (byteStream sum sd id)) key (repl (nbOf (byteStream sum sd id)) key (key, q, w) (mapKeys (keyNow ws) t) 0) 0 = some (q, w) := by
      rw [find_slot, hsl3]; simp
    have hlk : lookup (BytesMap (V := V) sum).cfg s.next fuel key s₃ = .ok (some q, s₃) := by
      rw [lookup_eq, bind_ok (getRoot_run s.next _), hu3.acct.seed, hi.seed,
        lookup_sim ok.laws rfl key (by omega : 255 < 256) _ hnode3 hl3 hu3.rep hht3 (by omega) (start_ok ok.laws key s.next) rfl, hfd]
      rfl
    have hmem := slot_mem hnb hsl3
    obtain ⟨o, hld⟩ := (hu3.rep.cell ok.laws.keep _ hmem).load ok.store
    have hget : (BytesMap sum).Get fuel (some s.next) key s₃ = .ok ((w, true), s₃) := by
      rw [MapImpl.Get, bind_ok (show (BytesMap sum).Ptr fuel (some s.next) key s₃ = .ok (some q, s₃) from hlk)]
      simp only
      rw [bind_ok hld]
      rfl
    rw [MapImpl.exec, bind_ok hget]; rfl
  · -- All
    obtain ⟨s₄, F₄, a1, _⟩ := scan_sim (visitMap_ok ok.laws ok.store (fun log k v => (log ++ [(k, v)], (v, true)))) s.next
      (repl (nbOf (byteStream sum sd id)) key (key, q, w) (mapKeys (keyNow ws) t) 0) (u := ([] : List (ByteStr × V))) (fuel := fuel)
      hnode3 hl3 hu3.rep hht3 (by omega)
    have h1 := congrArg (fun x => x.1) (scanT_leaves (fun (log : List (ByteStr × V)) k v => (log ++ [(k, v)], (v, true)))
      (repl (nbOf (byteStream sum sd id)) key (key, q, w) (mapKeys (keyNow ws) t) 0) [])
    have hv := (scanL_visit (fun _ _ v => (v, true)) (leaves (repl (nbOf (byteStream sum sd id)) key (key, q, w) (mapKeys (keyNow ws) t) 0)) []).1
    simp only at h1
    rw [hv, visit_all (by intros; rfl), List.nil_append] at h1
    rw [h1] at a1
    have ha : (BytesMap sum).All fuel (some s.next) (fun log k v => (log ++ [(k, v)], (v, true))) [] s₃ = .ok
        ((leaves (repl (nbOf (byteStream sum sd id)) key (key, q, w) (mapKeys (keyNow ws) t) 0)).map (fun e => (e.1, e.2.2)), s₄) := by
      rw [MapImpl.All, deref, pure_bind_M, bind_ok a1]; rfl
    refine ⟨_, s₄, by rw [MapImpl.exec, bind_ok ha]; rfl, ?_⟩
    rw [hlv]
    refine List.Perm.trans ?_ (((FMap.del_perm e3 k).map _).symm.cons _)
    rw [del_mid (nodup_absT hi.wf) hA]
    simp only [List.map_append, List.map_cons, List.map_map]
    exact List.perm_middle
  · -- later
    intro hid ops' h'
    have hq : repl (nbOf (byteStream sum sd id)) key (key, q, w) (mapKeys (keyNow ws) t) 0
        = repl (nbOf (byteStream sum sd id)) key (key, q, w) t 0 := by
      rw [(repl_mapKeys (σ := keyNow ws) (τ := id) hnb hi.wf hsl fun e he hne =>
        hid _ ((hks _).2 (mem_absT_keys.2 ⟨e, he, rfl⟩)) hne).1, mapKeys_self hi.wf fun _ _ => rfl]
    rw [hq] at hu3 hnode3 hht3
    have hi3 := (Upd.inv hi hl hu3 hnode3 (WF_repl hnb hi.wf hsl) hht3
      (fun _ => CanonRoot_repl hnb key _ (hi.canon trivial)) (fun _ e _ => rfl)).1
    have hperm : ((m.del k).set key w).Perm (absT (repl (nbOf (byteStream sum sd id)) key (key, q, w) t 0)) := by
      refine (FMap.set_perm (FMap.del_perm e3 k) key w).trans ?_
      have hdk : key ∉ FMap.keys ((absT t).del k) := by
        intro h
        obtain ⟨e, he, rfl⟩ := List.mem_map.1 h
        have := List.mem_filter.1 he
        have h4 := hkey (List.mem_map_of_mem this.1)
        simp [h4] at this
      rw [FMap.set, FMap.del_absent hdk, del_mid (nodup_absT hi.wf) hA, absT, hB]
      simp only [List.map_append, List.map_cons]
      exact List.perm_middle.symm
    obtain ⟨os', s₄, t', F', r1, _, _, ⟨m', r2, _⟩, _⟩ := map_run ok hf ops' hi3 (fun x => (FMap.keys_perm hperm).mem_iff) h'
    obtain ⟨m'', r3, _⟩ := r2.perm hperm.symm (nodup_absT hi3.wf)
    exact ⟨os', m'', s₄, r1, r3⟩

/-- The rest of C38: at a depth of 240 or more, `Set` and `Mod` hang instead. -/
theorem C38_deep (h : EachNew (fun _ => ByteFits (byteStream sum sd id)) [] ops) (hf : 256 ≤ fuel)
    (s : St ByteStr V) {ws : List (ByteStr × ByteStr)} (hws : ∀ w ∈ ws, w.1 ∈ keysAfter [] ops) {key k : ByteStr} {d : Nat}
    (hca : CollidesAt (byteStream sum sd id) (keysAfter [] ops) key k d) (hd : 240 ≤ d) (hk : keyNow ws k ≠ key)
    {op : MOp ByteStr V} {o : MOut ByteStr V} {w : V} (hop : Replaces key w op o) :
    ∃ os m s₁ s₂, ∃ f : ByteStr → Amt.Ptr, (BytesMap sum).session fuel sd ops s = .ok ((some s.next, os), s₁) ∧
      RunBy (MStepX (byteStream sum sd id) True id) [] ops os m ∧
      (∀ x ∈ keysAfter [] ops, (BytesMap sum).Ptr fuel (some s.next) x s₁ = .ok (some (f x), s₁)) ∧
      overwriteKeys (ws.map fun w => (f w.1, w.2)) s₁ = .ok ((), s₂) ∧
      (BytesMap sum).exec fuel (some s.next) op s₂ = .error .diverge := by
  obtain ⟨os, m, s₁, s₂, t, F, F₂, lk, f, e1, e2, e3, e4, e5, hi, hl, hu, hks⟩ := rekeyed sum sd h hf s hws
  refine ⟨os, m, s₁, s₂, f, e1, e2, e4, e5, ?_⟩
  have ok := BytesMap_ok (V := V) sum sd
  obtain ⟨p, v, hsl, hlev⟩ := hi.slot_of_collides trivial (hca.congr hks)
  have hl2 := hu.loc hl
  rw [set_self hl.get] at hl2
  obtain ⟨cur, b, g1, g2⟩ := search_sim ok.laws key (by omega : 255 < 256) (mapKeys (keyNow ws) t)
    (by rw [(mapKeys_isEmpty t).2.2, hi.node]) hl2 hu.rep (mapKeys_Ht hi.ht) (by omega : 255 < fuel + 0)
    (start_ok ok.laws key s.next) rfl
  rw [mapKeys_slot, hsl, mapKeys_lev] at g2
  obtain ⟨rfl, hlev', _, item, x, _, g3, g4, g5, _⟩ := g2
  have hup : ∀ {R : Type} (ins : Ins ByteStr V R), ins.chash = byteChash sum id →
      upsert (BytesMap (V := V) sum).cfg s.next fuel key ins s₂ = .error .diverge := by
    intro R ins hc
    rw [upsert_eq, bind_ok (getRoot_run s.next _), hu.acct.seed, hi.seed, bind_ok g1]
    simp only [upsertFin, conflict, if_true]
    rw [bind_ok g3, bind_ok g4, bind_ok g5, if_neg (fun h => hk ((ok.laws.eq_iff _ _).1 h).symm), hc,
      byteChash_diverge sum id sd key _ (by omega) fuel]
    rfl
  cases hop with
  | set => rw [MapImpl.exec, MapImpl.Set, deref, pure_bind_M, bind_run, hup _ rfl]
  | mod f hfw => rw [MapImpl.exec, MapImpl.Mod, deref, pure_bind_M, bind_run, hup _ rfl]

end

/-! Examples: of the stored keys 01, 02, 11 and 21, the last is modified twice and the first once; then a key
that lands on the slot of the last is inserted (`toyHash` makes the nibbles of a key those of its bytes). -/

example := C38_BytesMap_partial (V := Nat) toyHash 0#64 exOps_str (Nat.le_refl 256) St.init
  (ws := [([0x21], [0x21, 3]), ([0x01], [0x45]), ([0x21], [0x34])]) (by decide +kernel)
  (key := [0x21, 7]) (k := [0x21]) (d := 1) (by decide +kernel) (by decide) (by decide +kernel) (by decide +kernel)
  (Replaces.set (w := 9))

/-- The original key is inserted again. -/
example := C38_BytesMap_partial (V := Nat) toyHash 0#64 exOps_str (Nat.le_refl 256) St.init
  (ws := [([0x21], [0x34])]) (by decide +kernel)
  (key := [0x21]) (k := [0x21]) (d := 1) (by decide +kernel) (by decide) (by decide +kernel) (by decide +kernel)
  (Replaces.mod (w := 10) (fun v b => if b then v + 1 else 10) rfl)

example := C38_deep (V := Nat) lateHash 0#64 (ops := [.set [0x01] 1, .set [0x02] 2]) (by decide +kernel) (Nat.le_refl 256) St.init
  (ws := [([0x01], [0x03])]) (by decide +kernel) (key := [0x11]) (k := [0x01]) (d := 240) (by decide +kernel)
  (by decide) (by decide +kernel) (Replaces.set (w := 9))

end Amt
