/- Insertions that never return. -/
import Verif.PropsFuel

set_option linter.unusedVariables false
set_option linter.unusedSectionVars false

namespace Amt
open T Spec

variable {K V : Type}

/-! ### The split loop -/

theorem Live.modLink {s : St K V} {r : Ref} (h : Live s r) (f : Link → Link) :
    ∃ s', modLink r f s = .ok ((), s') ∧ ∀ r', Live s r' → Live s' r' := by
  obtain ⟨b, i, xs, x, rfl, _, hm, hx⟩ := h
  refine ⟨_, modLink_ok hm hx, ?_⟩
  rintro r' ⟨b', i', xs', x', rfl, hn', hm', hx'⟩
  by_cases hb : b' = b
  · subst hb
    rw [hm] at hm'; cases hm'
    have hlt : i' < (xs.set i (f x)).length := by
      rw [List.length_set]
      exact (List.getElem?_eq_some_iff.1 hx').1
    exact ⟨b', i', _, _, rfl, hn', by rw [put_mem, if_pos rfl], List.getElem?_eq_getElem hlt⟩
  · exact ⟨b', i', xs', x', rfl, hn', by rw [put_mem, if_neg hb]; exact hm', hx'⟩

theorem Live.push {s : St K V} {r : Ref} (h : Live s r) (o : Obj K V) : Live (s.push o) r := by
  obtain ⟨b, i, xs, x, rfl, hn, hm, hx⟩ := h
  exact ⟨b, i, xs, x, rfl, by rw [push_next]; omega, by rw [push_mem, if_neg (by omega)]; exact hm, hx⟩

theorem Live.fresh (s : St K V) : Live (s.push (.links (List.replicate (4 * ((1 + 3) / 4)) {}))) ⟨.blk s.next, 0⟩ :=
  ⟨_, _, _, _, rfl, by rw [push_next]; omega, by rw [push_mem, if_pos rfl], rfl⟩

/-- A relation between the variables of the split loop that guarantees another round. -/
def Persist (c : Cfg K) (sd : Seed) (key ckey : K) (R : Nat → BitVec 64 → BitVec 64 → Nat → Nat → Prop) : Prop :=
  ∀ d hd chd w cw, R d hd chd w cw →
    let d' := (d + 1) % 256
    let hd' := if d' % 16 ≠ 0 then hd >>> 4 else c.digest sd key (w + 1) d'
    let chd' := if d' % 16 ≠ 0 then chd >>> 4 else c.digest sd ckey (cw + 1) d'
    let w' := if d' % 16 ≠ 0 then w else w + 1
    let cw' := if d' % 16 ≠ 0 then cw else cw + 1
    R d' hd' chd' w' cw' ∧ radixOf hd' = radixOf chd'

theorem split_diverge {R' : Type} {c : Cfg K} {sd : Seed} {key ckey : K} {R : Nat → BitVec 64 → BitVec 64 → Nat → Nat → Prop}
    (hR : Persist c sd key ckey R) (h : Nat) (cptr : Ptr) (ins : Ins K V R') (fuel : Nat) :
    ∀ (item : Ref) (d : Nat) (hd chd : BitVec 64) (w cw : Nat) (s : St K V), Live s item → R d hd chd w cw →
      split c sd h key ckey cptr ins fuel item d hd chd w cw s = .error .diverge := by
  induction fuel with
  | zero => intros; rfl
  | succ fuel ih =>
    intro item d hd chd w cw s hl hr
    obtain ⟨h1, h2⟩ := hR _ _ _ _ _ hr
    rw [split]
    simp only [h2]
    generalize radixOf (if (d + 1) % 256 % 16 ≠ 0 then chd >>> 4 else c.digest sd ckey (cw + 1) ((d + 1) % 256)) = r
    obtain ⟨s1, e1, l1⟩ := hl.modLink (fun x => { x with pmap := bitOf r ||| bitOf r })
    rw [bind_ok e1, if_neg (by simp), bind_ok (newLinkArray_run 1 (by omega) (by omega) s1)]
    obtain ⟨s2, e2, l2⟩ := ((l1 item hl).push (.links (List.replicate (4 * ((1 + 3) / 4)) {}))).modLink
      (fun x => { x with ptr := .blk s1.next })
    rw [bind_ok e2]
    exact ih _ _ _ _ _ _ s2 (l2 _ (Live.fresh s1)) h1

/-! ### Conflicts -/

section
variable [DecidableEq K]
variable {c : Cfg K} {sd : Seed} {H : K → Nat → BitVec 64} {s : St K V} {h : Nat} {t : T K Ptr V}
  {cl : Prop} {F : Nat → Prop} {fuel : Nat}

/-- An insertion that ends up at the entry of another key never returns if the rehash of that key does not, or
if the split loop goes on forever. -/
theorem Inv.upsert_diverge {R' : Type} {ins : Ins K V R'} {key : K} {e : K × Ptr × V} (L : Laws c sd H)
    (hi : Inv c sd H cl s h t F) (hf : 256 ≤ fuel) (hs : slot (nbOf H) key t 0 = some e) (hne : e.1 ≠ key)
    (hd : ∀ d, d = lev (nbOf H) key t 0 - 1 → ins.chash sd key e.1 d fuel = .error .diverge ∨
      ∃ chd cw R, ins.chash sd key e.1 d fuel = .ok (chd, cw) ∧ (ins.guard = true → radixOf chd = nbOf H key d) ∧
        Persist c sd key e.1 R ∧ R d (hdAt H key d) chd (d / 16 + 1) cw) :
    Amt.upsert c h fuel key ins s = .error .diverge := by
  obtain ⟨lk, hl, hr⟩ := hi.rep
  obtain ⟨cur, b, e1, e2⟩ := search_sim L key (by omega : 255 < 256) t hi.node hl hr hi.ht (by omega : 255 < fuel + 0)
    (start_ok L key h) rfl
  rw [upsert_eq, bind_ok (getRoot_run h s), hi.seed, bind_ok e1]
  rw [hs] at e2
  obtain ⟨rfl, hlev, ⟨hc, hcl⟩, item, x, hit, e3, e4, e5, e6⟩ := e2
  simp only [upsertFin, conflict, if_true]
  have hk : ¬ c.eq key e.1 = true := fun h => hne ((L.eq_iff _ _).1 h).symm
  rw [bind_ok e3, bind_ok e4, bind_ok e5, if_neg hk]
  rcases hd cur.d (by omega) with h1 | ⟨chd, cw, R, h1, h2, h3, h4⟩
  · rw [h1]; rfl
  · rw [bind_ok (liftE_ok h1 s)]
    simp only
    rw [if_neg (fun hg => hg.2 ((h2 hg.1).trans hc.radix.symm))]
    obtain ⟨s1, g1, l1⟩ := hcl.modLink (fun y => { y with tmap := y.tmap &&& ~~~bitOf (radixOf cur.hd) })
    rw [bind_ok g1, bind_ok (modRoot_run h _ s1)]
    refine split_diverge h3 h _ _ fuel _ _ _ _ _ _ _ ?_ (by rw [hc.hd, hc.w]; exact h4)
    obtain ⟨b, i, xs, x, q1, q2, q3, q4⟩ := l1 _ hit
    exact ⟨b, i, xs, x, q1, q2, q3, q4⟩

/-! ### Which keys hang -/

/-- The rehash loop never ends at a depth of 240 or more: its counter wraps from 240 to 0. -/
theorem chwLoop_diverge {d : Nat} (h1 : 240 ≤ d) (fuel : Nat) :
    ∀ cd w, cd ≤ 240 → cd % 16 = 0 → chwLoop d fuel cd w = .error .diverge := by
  induction fuel with
  | zero => intros; rfl
  | succ fuel ih =>
    intro cd w h3 h4
    rw [chwLoop, if_pos (by omega)]
    exact ih _ _ (by omega) (by omega)

theorem byteChash_diverge (sum : Maphash) (kb : K → List UInt8) (sd : Seed) (key ckey : K) {d : Nat} (hd : 240 ≤ d)
    (fuel : Nat) : byteChash sum kb sd key ckey d fuel = .error .diverge := by
  unfold byteChash
  rw [chwLoop_diverge hd fuel 0 0 (by omega) rfl]

/-- Keys that agree on all nibbles: the split loop of the byte-hashed containers never ends. -/
theorem byte_persist {key ckey : K} (hdig : ∀ k w d, c.digest sd k (w + 1) d = H k w)
    (hag : ∀ j, nibble H key j = nibble H ckey j) :
    Persist c sd key ckey fun d hd chd w cw =>
      ∃ J, d = J % 256 ∧ hd = hdAt H key J ∧ chd = hdAt H ckey J ∧ w = J / 16 + 1 ∧ cw = J / 16 + 1 := by
  rintro d hd chd w cw ⟨J, rfl, rfl, rfl, rfl, rfl⟩
  have hm : (J % 256 + 1) % 256 = (J + 1) % 256 := by omega
  have hm' : (J + 1) % 256 % 16 = (J + 1) % 16 := by omega
  simp only [hm, hm', hdig]
  have hrad := hag (J + 1)
  rw [← nbOf_eq_nibble, ← nbOf_eq_nibble] at hrad
  by_cases hc : (J + 1) % 16 = 0
  · have hq : (J + 1) / 16 = J / 16 + 1 := by omega
    simp only [hc, ne_eq, not_true, if_false]
    have e : ∀ k, H k (J / 16 + 1) = hdAt H k (J + 1) := fun k => by rw [hdAt_rehash H k hc, hq]
    exact ⟨⟨J + 1, rfl, e _, e _, by omega, by omega⟩, by rw [e, e]; exact hrad⟩
  · simp only [ne_eq, hc, not_false_eq_true, if_true]
    have e : ∀ k, hdAt H k J >>> 4 = hdAt H k (J + 1) := fun k => (hdAt_shift H k hc).symm
    exact ⟨⟨J + 1, rfl, e _, e _, by omega, by omega⟩, by rw [e, e]; exact hrad⟩

/-- The digests of the generic containers repeat after 256 nibbles. -/
theorem generic_persist {key ckey : K} (hdig : ∀ k w d, d < 256 → c.digest sd k w d = H k (d / 16))
    (hag : Agree H key ckey 256) :
    Persist c sd key ckey fun d hd chd w cw => d < 256 ∧ hd = hdAt H key d ∧ chd = hdAt H ckey d := by
  rintro d hd chd w cw ⟨hd, rfl, rfl⟩
  have hlt : (d + 1) % 256 < 256 := Nat.mod_lt _ (by omega)
  have hrad := hag ((d + 1) % 256) hlt
  rw [← nbOf_eq_nibble, ← nbOf_eq_nibble] at hrad
  simp only [hdig _ _ _ hlt]
  by_cases hc : (d + 1) % 256 % 16 = 0
  · simp only [hc, ne_eq, not_true, if_false]
    have e : ∀ k, H k ((d + 1) % 256 / 16) = hdAt H k ((d + 1) % 256) := fun k => (hdAt_rehash H k hc).symm
    exact ⟨⟨hlt, e _, e _⟩, by rw [e, e]; exact hrad⟩
  · simp only [ne_eq, hc, not_false_eq_true, if_true]
    have hd' : (d + 1) % 256 = d + 1 := by omega
    rw [hd'] at hc hrad ⊢
    have e : ∀ k, hdAt H k d >>> 4 = hdAt H k (d + 1) := fun k => (hdAt_shift H k hc).symm
    exact ⟨⟨by omega, e _, e _⟩, by rw [e, e]; exact hrad⟩

omit [DecidableEq K] in
theorem _root_.Spec.CollidesAt.unique {ks : List K} {k a b : K} {d e : Nat} (h1 : CollidesAt H ks k a d)
    (h2 : CollidesAt H ks k b e) : a = b ∧ d = e := by
  have key : ∀ {a b : K} {d e : Nat}, CollidesAt H ks k a d → CollidesAt H ks k b e → ¬ d < e := by
    intro a b d e h1 h2 hlt
    have hb : b = a := h1.2.2.1 b h2.1 (fun j hj => h2.2.1 j (by omega))
    rcases h2.2.2.2 with h | ⟨x, hx, hne, hag⟩
    · omega
    · exact hne ((h1.2.2.1 x hx (fun j hj => hag j (by omega))).trans hb.symm)
  have hde : d = e := by
    have := key h1 h2
    have := key h2 h1
    omega
  subst hde
  exact ⟨h2.2.2.1 a h1.1 h1.2.1, rfl⟩

/-- Keys that agree on the first nibbles have the same slot. -/
theorem slot_congr {B : Nat} {key key' : K} {t : T K Ptr V} {d : Nat} (hh : Ht B t d)
    (hag : ∀ j, j ≤ B → nbOf H key j = nbOf H key' j) :
    slot (nbOf H) key t d = slot (nbOf H) key' t d ∧ lev (nbOf H) key t d = lev (nbOf H) key' t d := by
  induction t generalizing d with
  | empty => exact ⟨rfl, rfl⟩
  | leaf => exact ⟨rfl, rfl⟩
  | node st ch ih =>
    rw [slot, slot, lev, lev, hag d hh.1]
    exact ih _ (hh.2 _ (nbOf_lt H key' d))

/-- The slot of a key that agrees with a stored key on the first 256 nibbles. -/
theorem Inv.slot_of_agree (hi : Inv c sd H cl s h t F) {key k' : K} (hk' : k' ∈ (absT t).keys) (hag : Agree H key k' 256) :
    ∃ e, slot (nbOf H) key t 0 = some e ∧ e.1 = k' := by
  have hsl := slot_congr (key := key) (key' := k') hi.ht (fun j hj => by
    rw [nbOf_eq_nibble, nbOf_eq_nibble]; exact hag j (by omega))
  rw [hsl.1]
  obtain ⟨e, he, rfl⟩ := mem_absT_keys.1 hk'
  have hf := (find_eq_some (nbOf_lt H) hi.wf (key := e.1) (p := e.2.1) (v := e.2.2)).2 he
  rw [find_slot] at hf
  cases hs : slot (nbOf H) e.1 t 0 with
  | none => rw [hs] at hf; cases hf
  | some e' =>
    rw [hs, Option.bind_some] at hf
    by_cases hk : e.1 = e'.1
    · exact ⟨e', rfl, hk.symm⟩
    · rw [if_neg hk] at hf; cases hf

theorem Inv.lev_bound (hi : Inv c sd H cl s h t F) (key : K) : lev (nbOf H) key t 0 ≤ 256 :=
  lev_le (nbOf_lt H) key hi.ht (by omega)

/-- A byte-hashed container hangs when a new key agrees with a stored one on all nibbles. -/
theorem Inv.upsert_same {R' : Type} {ins : Ins K V R'} {sum : Maphash} {kb : K → List UInt8} {key k' : K} (L : Laws c sd H)
    (hi : Inv c sd H cl s h t F) (hH : H = byteStream sum sd kb) (hf : 256 ≤ fuel) (hc : ins.chash = byteChash sum kb)
    (hdig : ∀ k w d, c.digest sd k (w + 1) d = H k w) (hk' : k' ∈ (absT t).keys) (hne : k' ≠ key)
    (hag : ∀ j, nibble H key j = nibble H k' j) : Amt.upsert c h fuel key ins s = .error .diverge := by
  obtain ⟨e, hs, rfl⟩ := hi.slot_of_agree hk' (fun j _ => hag j)
  refine hi.upsert_diverge L hf hs hne (fun d hd => ?_)
  have hb := hi.lev_bound key
  rw [hc]
  rcases Nat.lt_or_ge d 240 with h1 | h1
  · refine Or.inr ⟨_, _, _, byteChash_ok sum kb sd key e.1 d fuel h1 (by omega), fun _ => ?_, byte_persist hdig hag,
      d, (Nat.mod_eq_of_lt (by omega)).symm, rfl, by rw [hH], rfl, rfl⟩
    have := hag d
    rw [← nbOf_eq_nibble, ← nbOf_eq_nibble] at this
    rw [← hH]; exact this.symm
  · exact Or.inl (byteChash_diverge sum kb sd key e.1 h1 fuel)

/-- A generic container hangs on a new key that agrees with a stored one on the first 256 nibbles, if it rehashes
the stored key correctly. -/
theorem Inv.upsert_same_gen {R' : Type} {ins : Ins K V R'} {key k' : K} (L : Laws c sd H)
    (hi : Inv c sd H cl s h t F) (hf : 256 ≤ fuel) (hg : ins.guard = false)
    (hdig : ∀ k w d, d < 256 → c.digest sd k w d = H k (d / 16)) (hk' : k' ∈ (absT t).keys) (hne : k' ≠ key)
    (hag : Agree H key k' 256)
    (hch : ∀ d, d = lev (nbOf H) key t 0 - 1 → ins.chash sd key k' d fuel = idealChash H sd key k' d fuel) :
    Amt.upsert c h fuel key ins s = .error .diverge := by
  obtain ⟨e, hs, rfl⟩ := hi.slot_of_agree hk' hag
  have hb := hi.lev_bound key
  refine hi.upsert_diverge L hf hs hne (fun d hd => Or.inr ⟨_, _, _, hch d hd, fun h => ?_, generic_persist hdig hag,
    by omega, rfl, rfl⟩)
  rw [hg] at h; cases h

/-- A byte-hashed container hangs on a conflict at depth 240 or more. -/
theorem Inv.upsert_deep {R' : Type} {ins : Ins K V R'} {sum : Maphash} {kb : K → List UInt8} {key k' : K} {d : Nat}
    (L : Laws c sd H) (hi : Inv c sd H cl s h t F) (hcl : cl) (hf : 256 ≤ fuel) (hc : ins.chash = byteChash sum kb)
    (hk : key ∉ (absT t).keys) (hca : CollidesAt H (absT t).keys key k' d) (hd : 240 ≤ d) :
    Amt.upsert c h fuel key ins s = .error .diverge := by
  have hsl := (hi.slot_iff hcl key).2 ⟨k', d + 1, by omega, hca.1, hca.2.1, hca.2.2.1⟩
  obtain ⟨e, hs⟩ := Option.isSome_iff_exists.1 hsl
  have hat := slot_collidesAt hi.node hi.wf (hi.canon hcl) hs
  rw [← absT_keys] at hat
  obtain ⟨rfl, rfl⟩ := hca.unique hat
  refine hi.upsert_diverge L hf hs (fun h => hk (h ▸ hca.1)) (fun d' hd' => Or.inl ?_)
  rw [hc]
  exact byteChash_diverge sum kb sd key _ (by omega) fuel

/-- A byte-hashed container hangs when a new key does not fit, provided that keys which agree on their first 256
nibbles agree on all. -/
theorem Inv.upsert_unfit {R' : Type} {ins : Ins K V R'} {sum : Maphash} {kb : K → List UInt8} {key : K} (L : Laws c sd H)
    (hi : Inv c sd H cl s h t F) (hcl : cl) (hH : H = byteStream sum sd kb) (hf : 256 ≤ fuel) (hc : ins.chash = byteChash sum kb)
    (hdig : ∀ k w d, c.digest sd k (w + 1) d = H k w) (hk : key ∉ (absT t).keys)
    (hset : ∀ k' ∈ (absT t).keys, Agree H key k' 256 → ∀ j, nibble H key j = nibble H k' j)
    (hbad : ¬ ByteFits H (absT t).keys key) : Amt.upsert c h fuel key ins s = .error .diverge := by
  by_cases hap : ApartAll H (absT t).keys key
  · have : ∃ k' d, CollidesAt H (absT t).keys key k' d ∧ 240 ≤ d := Classical.byContradiction fun hn =>
      hbad ⟨hap, fun k' d hcd => Nat.lt_of_not_le fun hle => hn ⟨k', d, hcd, hle⟩⟩
    obtain ⟨k', d, h1, h2⟩ := this
    exact hi.upsert_deep L hcl hf hc hk h1 h2
  · have : ∃ k', k' ∈ (absT t).keys ∧ ¬ Apart H key k' := Classical.byContradiction fun hn =>
      hap fun k' hk' => Classical.byContradiction fun h => hn ⟨k', hk', h⟩
    obtain ⟨k', h1, h2⟩ := this
    have hag : Agree H key k' 256 := fun j hj => Classical.byContradiction fun h => h2 ⟨j, by omega, h⟩
    exact hi.upsert_same L hH hf hc hdig h1 (fun h => hk (h ▸ h1)) (hset k' h1 hag)

end

end Amt
