/- When does a new key collide with a stored one? -/
import Verif.Inv
import Verif.Spec
import Verif.Order

set_option linter.unusedVariables false
set_option linter.unusedSectionVars false

namespace Amt
open T Spec

variable {K V : Type} [DecidableEq K]

section
variable {P : Type} {nb : K → Nat → Nat}

/-- Inserting a new key: it gets the value `vs` if its slot is taken, `v` otherwise. -/
theorem T.leaves_ins_slot (hnb : ∀ k d, nb k d < 16) {B n : Nat} {key : K} {p : P} {v vs : V} {f : V → V}
    {t : T K P V} {d : Nat} {sb : K → BitVec 32} (hn : B < n) (hs : SepFrom nb B key t) (hp : Pre nb key t d) (hw : WF nb t d)
    (h : find nb key t d = none) :
    (leaves (ins nb sb n key p v vs f t d)).Perm
      ((key, p, if (slot nb key t d).isSome then vs else v) :: leaves t) := by
  induction t generalizing d with
  | empty => simp [ins, leaves, slot]
  | leaf k' p' v' =>
    have hne : key ≠ k' := by
      intro hk; rw [find, if_pos hk] at h; cases h
    rw [ins, if_neg hne]
    obtain ⟨j, h1, h2, h3⟩ := sep_leaf hne hs hp
    exact leaves_splitT hnb _ _ _ _ _ _ _ _ _ ⟨j, h1, by omega, h3⟩
  | node st ch ih =>
    rw [ins]
    have hw2 := ih _ (hs.child (hnb key d)) (hp.child hnb hw) (hw.2 _ (hnb key d)).2 h
    obtain ⟨A, C, hu⟩ := leaves_upd ch (hnb key d)
    have h0 := hu st (ch (nb key d))
    rw [upd_self] at h0
    rw [hu, h0]
    refine ((hw2.append_left A).append_right C).trans ?_
    rw [slot, List.append_assoc, List.cons_append, List.append_assoc]
    exact List.perm_middle

/-- The slot of `key` is taken iff some long enough prefix of its nibbles belongs to exactly one entry. -/
theorem T.slot_isSome_iff (hnb : ∀ k d, nb k d < 16) {key : K} {t : T K P V} {d : Nat} (hp : Pre nb key t d)
    (hw : WF nb t d) (hc : Canon t) :
    (slot nb key t d).isSome = true ↔ ∃ j, d ≤ j ∧ ∃ e ∈ leaves t, (∀ i, i < j → nb key i = nb e.1 i) ∧
      ∀ e' ∈ leaves t, (∀ i, i < j → nb key i = nb e'.1 i) → e'.1 = e.1 := by
  induction t generalizing d with
  | empty => simp [slot, leaves]
  | leaf k p v =>
    simp only [slot, Option.isSome_some, true_iff]
    exact ⟨d, Nat.le_refl _, (k, p, v), by simp [leaves], fun i hi => (hp (k, p, v) (by simp [leaves]) i hi).symm,
      fun e' he' _ => by simp only [leaves, List.mem_singleton] at he'; rw [he']⟩
  | node st ch ih =>
    rw [slot, ih (nb key d) (hp.child hnb hw) (hw.2 _ (hnb key d)).2 (hc.2 _ (hnb key d))]
    constructor
    · rintro ⟨j, hj, e, he, h1, h2⟩
      refine ⟨j, by omega, e, mem_leaves_node.2 ⟨_, hnb key d, he⟩, h1, fun e' he' h' => ?_⟩
      obtain ⟨i, hi, he''⟩ := mem_leaves_node.1 he'
      have : i = nb key d := by
        rw [h' d (by omega)]; exact ((hw.2 i hi).1 e' he'').symm
      subst this
      exact h2 e' he'' h'
    · rintro ⟨j, hj, e, he, h1, h2⟩
      rcases Nat.eq_or_lt_of_le hj with hjd | hjd
      · exfalso
        subst hjd
        have hl := hc.1
        have hn := nodup_keys hw
        cases hlv : leaves (.node st ch) with
        | nil => rw [hlv] at hl; simp at hl
        | cons a l =>
          cases l with
          | nil => rw [hlv] at hl; simp at hl
          | cons b l =>
            rw [hlv] at hn
            have ha : a ∈ leaves (.node st ch) := by rw [hlv]; simp
            have hb : b ∈ leaves (.node st ch) := by rw [hlv]; simp
            have e1 := h2 a ha (fun i hi => (hp a ha i hi).symm)
            have e2 := h2 b hb (fun i hi => (hp b hb i hi).symm)
            simp only [List.map_cons, List.nodup_cons, List.mem_cons, not_or] at hn
            exact hn.1.1 (e1.trans e2.symm)
      · obtain ⟨i, hi, he''⟩ := mem_leaves_node.1 he
        have : i = nb key d := by
          rw [h1 d (by omega)]; exact ((hw.2 i hi).1 e he'').symm
        subst this
        exact ⟨j, by omega, e, he'', h1, fun e' he' h' => h2 e' (mem_leaves_node.2 ⟨_, hi, he'⟩) h'⟩

/-- The entry in the slot of `key` is the only one with some prefix of its nibbles. -/
theorem T.slot_unique (hnb : ∀ k d, nb k d < 16) {key : K} {t : T K P V} {d : Nat} {e : K × P × V}
    (hp : Pre nb key t d) (hw : WF nb t d) (h : slot nb key t d = some e) :
    ∃ j, d ≤ j ∧ (t.isNode = true → d < j) ∧ (∀ i, i < j → nb key i = nb e.1 i) ∧
      ∀ e' ∈ leaves t, (∀ i, i < j → nb key i = nb e'.1 i) → e'.1 = e.1 := by
  induction t generalizing d with
  | empty => cases h
  | leaf k p v =>
    simp only [slot, Option.some.injEq] at h
    subst h
    exact ⟨d, Nat.le_refl _, (fun h => nomatch h), fun i hi => (hp (k, p, v) (by simp [leaves]) i hi).symm,
      fun e' he' _ => by simp only [leaves, List.mem_singleton] at he'; rw [he']⟩
  | node st ch ih =>
    obtain ⟨j, hj, _, h1, h2⟩ := ih (nb key d) (hp.child hnb hw) (hw.2 _ (hnb key d)).2 h
    refine ⟨j, by omega, fun _ => by omega, h1, fun e' he' h' => ?_⟩
    obtain ⟨i, hi, he''⟩ := mem_leaves_node.1 he'
    have : i = nb key d := by
      rw [h' d (by omega)]; exact ((hw.2 i hi).1 e' he'').symm
    subst this
    exact h2 e' he'' h'

theorem T.slot_root_iff (hnb : ∀ k d, nb k d < 16) {key : K} {t : T K P V} (hn : t.isNode = true)
    (hw : WF nb t 0) (hc : CanonRoot t) :
    (slot nb key t 0).isSome = true ↔ ∃ j, 1 ≤ j ∧ ∃ e ∈ leaves t, (∀ i, i < j → nb key i = nb e.1 i) ∧
      ∀ e' ∈ leaves t, (∀ i, i < j → nb key i = nb e'.1 i) → e'.1 = e.1 := by
  cases t with
  | empty => cases hn
  | leaf => cases hn
  | node st ch =>
    have hp : Pre nb key (.node st ch) 0 := fun e he j hj => by omega
    rw [slot, slot_isSome_iff hnb (hp.child hnb hw) (hw.2 _ (hnb key 0)).2 (hc.2 _ (hnb key 0))]
    constructor
    · rintro ⟨j, hj, e, he, h1, h2⟩
      refine ⟨j, by omega, e, mem_leaves_node.2 ⟨_, hnb key 0, he⟩, h1, fun e' he' h' => ?_⟩
      obtain ⟨i, hi, he''⟩ := mem_leaves_node.1 he'
      have : i = nb key 0 := by
        rw [h' 0 (by omega)]; exact ((hw.2 i hi).1 e' he'').symm
      subst this
      exact h2 e' he'' h'
    · rintro ⟨j, hj, e, he, h1, h2⟩
      obtain ⟨i, hi, he''⟩ := mem_leaves_node.1 he
      have : i = nb key 0 := by
        rw [h1 0 (by omega)]; exact ((hw.2 i hi).1 e he'').symm
      subst this
      exact ⟨j, by omega, e, he'', h1, fun e' he' h' => h2 e' (mem_leaves_node.2 ⟨_, hi, he'⟩) h'⟩

end

/-- The entries of a trie as an abstract map. -/
def absT (t : T K Ptr V) : FMap K V := (leaves t).map (fun e => (e.1, e.2.2))

theorem absT_keys (t : T K Ptr V) : (absT t).keys = (leaves t).map (fun e => e.1) := by
  simp [absT, FMap.keys, Function.comp_def]

section
variable {c : Cfg K} {sd : Seed} {H : K → Nat → BitVec 64} {s : St K V} {h : Nat} {t : T K Ptr V}
  {cl : Prop} {F : Nat → Prop} {fuel : Nat}

theorem Inv.slot_iff (hi : Inv c sd H cl s h t F) (hcl : cl) (key : K) :
    (slot (nbOf H) key t 0).isSome = true ↔ Collides H (absT t).keys key := by
  rw [slot_root_iff (nbOf_lt H) hi.node hi.wf (hi.canon hcl), absT_keys]
  simp only [Collides, CollidesWith, Agree, ← nbOf_eq_nibble, List.mem_map]
  constructor
  · rintro ⟨j, h1, e, he, h2, h3⟩
    exact ⟨e.1, j, h1, ⟨e, he, rfl⟩, h2, fun k'' ⟨e', he', hk⟩ h' => by subst hk; exact h3 e' he' h'⟩
  · rintro ⟨k', j, h1, ⟨e, he, rfl⟩, h2, h3⟩
    exact ⟨j, h1, e, he, h2, fun e' he' h' => h3 _ ⟨e', he', rfl⟩ h'⟩

theorem Inv.slot_with (hi : Inv c sd H cl s h t F) {key : K} {e : K × Ptr × V} (hs : slot (nbOf H) key t 0 = some e) :
    CollidesWith H (absT t).keys key e.1 := by
  obtain ⟨j, _, h0, h1, h2⟩ := slot_unique (nbOf_lt H) (fun e he j hj => by omega) hi.wf hs
  simp only [CollidesWith, absT_keys, Agree, ← nbOf_eq_nibble, List.mem_map]
  refine ⟨j, h0 hi.node, ⟨e, slot_mem (nbOf_lt H) hs, rfl⟩, h1, ?_⟩
  rintro k'' ⟨e', he', rfl⟩ h'
  exact h2 e' he' h'

/-- `r` refers to an item of an existing array. -/
def Live (s : St K V) (r : Ref) : Prop := ∃ b i xs x, r = ⟨.blk b, i⟩ ∧ b < s.next ∧ s.mem b = some (.links xs) ∧
  xs[i]? = some x

/-- Where the search loop ends. -/
theorem search_sim (L : Laws c sd H) (key : K) {B : Nat} (hB : B < 256) (t : T K Ptr V) :
    ∀ {d b0 i0 : Nat} {xs0 : List Link} {lk : Link} {F : Nat → Prop} {cur : Cur} {fuel : Nat},
    t.isNode = true → Loc s b0 i0 xs0 lk F → Rep c s.mem t d lk F → Ht B t d → B < fuel + d →
    CurOk H key d cur → cur.l = ⟨.blk b0, i0⟩ →
    ∃ cur' b, search c sd key fuel cur s = .ok ((cur', b), s) ∧
      match slot (nbOf H) key t d with
      | none => b = false
      | some e => b = true ∧ cur'.d + 1 = lev (nbOf H) key t d ∧ (CurOk H key cur'.d cur' ∧ Live s cur'.l) ∧
          ∃ item x, Live s item ∧ itemRef cur' s = .ok (item, s) ∧ load item s = .ok (x, s) ∧
          readKey c x s = .ok (e.1, s) ∧ (c.forget = false → x.ptr = e.2.1) := by
  induction t with
  | empty => intro d b0 i0 xs0 lk F cur fuel h; cases h
  | leaf => intro d b0 i0 xs0 lk F cur fuel h; cases h
  | node st ch ih =>
    intro d b0 i0 xs0 lk F cur fuel _ hl hr hh hf hc hcl
    obtain ⟨b, xs, G, ha, ho, hrep⟩ := hr
    have hd : d ≤ B := hh.1
    obtain ⟨fuel, rfl⟩ : ∃ f, fuel = f + 1 := ⟨fuel - 1, by omega⟩
    have hr16 := nbOf_lt H key d
    rw [slot]
    cases he : ch (nbOf H key d) with
    | empty => exact ⟨_, _, search_empty hl ha hc hcl he fuel, rfl⟩
    | leaf k p v =>
      have hocc : occ ch (nbOf H key d) = true := by simp [occ, he, isEmpty]
      have hcr := hrep _ hr16
      rw [he] at hcr
      obtain ⟨q, h1, h2, h3, hq⟩ := hcr
      refine ⟨_, _, search_leaf hl ha hc hcl he fuel, rfl, ?_, ⟨?_, _, _, _, _, hcl, hl.lt, hl.mem, hl.get⟩, _, _,
        ⟨_, _, _, _, rfl, (hl.child ha ho hr16 hocc).lt, ha.mem, ha.slot hr16 hocc⟩, itemRef_ok hl ha (push_ok hc _) hcl,
        load_ok ha.mem (ha.slot hr16 hocc), ?_⟩
      · rw [lev, he, lev]; exact congrArg (· + 1) hc.d
      · have := push_ok hc (nbOf H key d)
        rw [this.d]; exact this
      rw [h1]; exact ⟨readKey_ok L (m := s.mem) h2, hq⟩
    | node st' ch' =>
      have hocc : occ ch (nbOf H key d) = true := by simp [occ, he, isEmpty]
      have hd' := descend_ok L (push_ok hc (nbOf H key d)) (by have := hh.2 _ hr16; rw [he] at this; have := this.1; omega : d + 1 < 256)
        ⟨.blk b, cnt (occ ch) (nbOf H key d)⟩
      have := ih (nbOf H key d) (d := d + 1) (fuel := fuel) (by rw [he]; rfl)
        (hl.child ha ho hr16 hocc) (hrep _ hr16) (hh.2 _ hr16) (by omega) hd'.1 hd'.2.1
      rw [he] at this
      rw [search_node hl ha hc hcl he fuel, lev, he]
      exact this

/-- The rehash hook is only consulted on a collision, at the depth of the collision. -/
theorem Inv.upsert_chash {R : Type} {ins : Ins K V R} {key : K}
    (L : Laws c sd H) (hi : Inv c sd H cl s h t F) (hf : 256 ≤ fuel) (chash : Chash K)
    (hs : ∀ e, slot (nbOf H) key t 0 = some e → e.1 ≠ key →
      ins.chash sd key e.1 (lev (nbOf H) key t 0 - 1) fuel = chash sd key e.1 (lev (nbOf H) key t 0 - 1) fuel) :
    Amt.upsert c h fuel key ins s = Amt.upsert c h fuel key { ins with chash := chash } s := by
  obtain ⟨lk, hl, hr⟩ := hi.rep
  obtain ⟨cur, b, e1, e2⟩ := search_sim L key (by omega : 255 < 256) t hi.node hl hr hi.ht (by omega : 255 < fuel + 0)
    (start_ok L key h) rfl
  rw [upsert_eq, upsert_eq, bind_ok (getRoot_run h s), bind_ok (getRoot_run h s), hi.seed, bind_ok e1, bind_ok e1]
  cases hsl : slot (nbOf H) key t 0 with
  | some e =>
    rw [hsl] at e2
    obtain ⟨rfl, hd, _, item, x, _, e3, e4, e5, e6⟩ := e2
    simp only [upsertFin, conflict, if_true]
    rw [bind_ok e3, bind_ok e3, bind_ok e4, bind_ok e4, bind_ok e5, bind_ok e5]
    by_cases hk : key = e.1
    · rw [if_pos ((L.eq_iff _ _).2 hk), if_pos ((L.eq_iff _ _).2 hk)]
    · have hne : ¬ c.eq key e.1 = true := fun h => hk ((L.eq_iff _ _).1 h)
      have hd' : cur.d = lev (nbOf H) key t 0 - 1 := by omega
      rw [if_neg hne, if_neg hne, hd', hs e hsl (Ne.symm hk)]
      have hsp : ∀ (fuel : Nat) (item : Ref) (d : Nat) (hd chd : BitVec 64) (w cw : Nat),
          split c sd h key e.1 (c.kept x.ptr) ins fuel item d hd chd w cw
            = split c sd h key e.1 (c.kept x.ptr) { ins with chash := chash } fuel item d hd chd w cw := by
        intro fuel
        induction fuel with
        | zero => intros; rfl
        | succ n ih => intro item d hd chd w cw; simp only [split, ih]
      simp only [hsp]
  | none =>
    rw [hsl] at e2
    subst e2
    simp only [upsertFin, insertSlot, Bool.false_eq_true, if_false]

/-- On a present key, `Set`, `Mod` and `Add` only run their hit branch on its cell. -/
theorem Inv.upsert_hitQ {R : Type} {ins : Ins K V R} {key : K} {p : Ptr} {v : V}
    (L : Laws c sd H) (hi : Inv c sd H cl s h t F) (hf : 256 ≤ fuel) (hs : find (nbOf H) key t 0 = some (p, v)) :
    ∃ q, Amt.upsert c h fuel key ins s = ins.hit q s ∧ (c.forget = false → q = p) := by
  obtain ⟨lk, hl, hr⟩ := hi.rep
  obtain ⟨cur, b, e1, e2⟩ := search_sim L key (by omega : 255 < 256) t hi.node hl hr hi.ht (by omega : 255 < fuel + 0)
    (start_ok L key h) rfl
  rw [upsert_eq, bind_ok (getRoot_run h s), hi.seed, bind_ok e1]
  rw [find_slot] at hs
  cases hsl : slot (nbOf H) key t 0 with
  | none => rw [hsl] at hs; cases hs
  | some e =>
    rw [hsl] at hs e2
    obtain ⟨rfl, _, _, item, x, _, e3, e4, e5, e6⟩ := e2
    simp only [Option.bind_some] at hs
    by_cases hk : key = e.1
    · rw [if_pos hk] at hs
      simp only [Option.some.injEq] at hs
      simp only [upsertFin, conflict, if_true]
      rw [bind_ok e3, bind_ok e4, bind_ok e5, if_pos ((L.eq_iff _ _).2 hk)]
      exact ⟨_, rfl, fun hf => by rw [e6 hf, hs]⟩
    · rw [if_neg hk] at hs; cases hs

theorem Inv.upsert_hit {R : Type} {ins : Ins K V R} {key : K} {p : Ptr} {v : V}
    (L : Laws c sd H) (hi : Inv c sd H cl s h t F) (hk : c.forget = false) (hf : 256 ≤ fuel) (hs : find (nbOf H) key t 0 = some (p, v)) :
    Amt.upsert c h fuel key ins s = ins.hit p s := by
  obtain ⟨q, e1, e2⟩ := hi.upsert_hitQ (ins := ins) L hf hs
  rw [e1, e2 hk]

end

end Amt
