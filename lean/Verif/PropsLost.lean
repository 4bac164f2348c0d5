/-
C97: which keys a generic container loses (C05, C10), exactly.
-/
import Verif.PropsPanic
import Verif.PropsLoose
import Verif.BugsLoose
import Verif.PropsSmall

set_option linter.unusedVariables false
set_option linter.unusedSectionVars false

namespace Spec

section
variable {K : Type}

/-- Nibble `j` of `x`, if its digest with the number `d / 16` is taken to be `w`. -/
def misread (H : K → Nat → BitVec 64) (w : BitVec 64) (x : K) (d j : Nat) : Nat :=
  (if j / 16 = d / 16 then w else H x (j / 16)).toNat / 16 ^ (j % 16) % 16

/-- The key `x` is led astray when it is pushed down from depth `d` by the new key `k`, with its digest taken to be `w`: below `d` it goes along with `k`, and
then, at some depth `i`, to a place where it does not belong. -/
def Astray (H : K → Nat → BitVec 64) (w : BitVec 64) (k x : K) (d : Nat) : Prop :=
  ∃ i, d < i ∧ misread H w x d i ≠ nibble H x i ∧ ∀ j, d < j → j < i → misread H w x d j = nibble H k j

/-- The two keys part at some depth. -/
def Parts (H : K → Nat → BitVec 64) (w : BitVec 64) (k x : K) (d : Nat) : Prop :=
  ∃ j, d < j ∧ j ≤ 255 ∧ misread H w x d j ≠ nibble H k j

end

end Spec

namespace Amt
open Spec T

section
variable {K P V : Type} [DecidableEq K] {nb : K → Nat → Nat}

/-- `Astray`, for the nibbles of a trie. -/
def Strays (nb : K → Nat → Nat) (nx : Nat → Nat) (k x : K) (d : Nat) : Prop :=
  ∃ i, d ≤ i ∧ nx i ≠ nb x i ∧ ∀ j, d ≤ j → j < i → nx j = nb k j

theorem strays_step {nx : Nat → Nat} {k x : K} {d : Nat} (h1 : nx d = nb k d) (h2 : nx d = nb x d) : Strays nb nx k x d ↔ Strays nb nx k x (d + 1) := by
  constructor
  · rintro ⟨i, a, b, c⟩
    have : i ≠ d := fun e => b (e ▸ h2)
    exact ⟨i, by omega, b, fun j g1 g2 => c j (by omega) g2⟩
  · rintro ⟨i, a, b, c⟩
    refine ⟨i, by omega, b, fun j g1 g2 => ?_⟩
    rcases Nat.eq_or_lt_of_le g1 with e | e
    · rw [← e, h1]
    · exact c j e g2

theorem strays_part {nx : Nat → Nat} {k x : K} {d : Nat} (h1 : nx d ≠ nb k d) (h2 : nx d = nb x d) : ¬ Strays nb nx k x d := by
  rintro ⟨i, a, b, c⟩
  rcases Nat.eq_or_lt_of_le a with e | e
  · exact b (e ▸ h2)
  · exact h1 (c d (Nat.le_refl _) e)

theorem find_empties (k : K) (d : Nat) : find nb k (empty : T K P V) d = none := rfl

open Classical in
/-- Where the key that was in the way is found afterwards. -/
theorem find_split_in {nb' : K → Nat → Nat} {k : K} {p : P} {v : V} {x : K} {p' : P} {v' : V} {st : BitVec 32} {n d : Nat} (hne : k ≠ x)
    (hk : ∀ j, d ≤ j → nb' k j = nb k j) (hs : ∃ j, d ≤ j ∧ j < d + n ∧ nb' k j ≠ nb' x j) :
    find nb x (splitT nb' k p v x p' v' st n d) d = if Strays nb (nb' x) k x d then none else some (p', v') := by
  induction n generalizing d st with
  | zero => obtain ⟨j, h1, h2, _⟩ := hs; omega
  | succ n ih =>
    rw [splitT]
    by_cases hx : nb' x d = nb x d
    · split
      · rename_i heq
        rw [find, heq, hx, upd_same, ih (fun j hj => hk j (by omega)) (sep_step heq hs)]
        have := strays_step (nb := nb) (nx := nb' x) (k := k) (x := x) (d := d) (by rw [← heq, hk d (Nat.le_refl _)]) hx
        simp only [this]
      · rename_i hkx
        rw [find, ← hx, upd_other _ _ (Ne.symm hkx), upd_same, find, if_pos rfl]
        rw [if_neg (strays_part (by rw [← hk d (Nat.le_refl _)]; exact Ne.symm hkx) hx)]
    · have : Strays nb (nb' x) k x d := ⟨d, Nat.le_refl _, hx, fun j a b => by omega⟩
      rw [if_pos this]
      split
      · rename_i heq
        rw [find, upd_other _ _ (by rw [heq]; exact Ne.symm hx), find]
      · rw [find]
        by_cases hkd : nb x d = nb' k d
        · rw [hkd, upd_same, find, if_neg (Ne.symm hne)]
        · rw [upd_other _ _ hkd, upd_other _ _ (Ne.symm hx), find]

theorem find_split_other {nb' : K → Nat → Nat} {k : K} {p : P} {v : V} {x y : K} {p' : P} {v' : V} {st : BitVec 32} {n d : Nat} (hk : y ≠ k) (hx : y ≠ x) :
    find nb y (splitT nb' k p v x p' v' st n d) d = none := by
  induction n generalizing d st with
  | zero => rfl
  | succ n ih =>
    rw [splitT]
    split
    · rw [find]
      by_cases h : nb y d = nb' k d
      · rw [h, upd_same]; exact ih
      · rw [upd_other _ _ h, find]
    · rw [find]
      by_cases h : nb y d = nb' k d
      · rw [h, upd_same, find, if_neg hk]
      · rw [upd_other _ _ h]
        by_cases h' : nb y d = nb' x d
        · rw [h', upd_same, find, if_neg hx]
        · rw [upd_other _ _ h', find]

section
variable {nb' : K → Nat → K → Nat → Nat} {B n : Nat} {key x : K} {p px : P} {v vs vx : V} {f : V → V}

theorem find_insW_key (hn : B < n) (hk : KeyKeeps nb nb' key) (hne : key ≠ x) {t : T K P V} {d : Nat} (hs : SlotSep nb nb' B key t d)
    (h : slot nb key t d = some (x, px, vx)) : find nb key (insW nb nb' n key p v vs f t d) d = some (p, vs) := by
  induction t generalizing d with
  | empty => cases h
  | leaf k' p' v' =>
    cases h
    rw [insW, if_neg hne]
    obtain ⟨j, h1, h2, h3⟩ := hs _ rfl hne
    rw [lev] at h1 h3
    exact find_splitT (fun j _ => hk _ _ j hne) ⟨j, h1, by omega, h3⟩
  | node st ch ih => rw [insW, find, upd_same]; exact ih _ hs h

open Classical in
theorem find_insW_in (hn : B < n) (hk : KeyKeeps nb nb' key) (hne : key ≠ x) {t : T K P V} {d : Nat} (hs : SlotSep nb nb' B key t d)
    (h : slot nb key t d = some (x, px, vx)) (ha : ∀ j, d ≤ j → j < lev nb key t d → nb key j = nb x j) :
    find nb x (insW nb nb' n key p v vs f t d) d
      = if Strays nb (nb' x (lev nb key t d - 1) x) key x (lev nb key t d) then none else some (px, vx) := by
  induction t generalizing d with
  | empty => cases h
  | leaf k' p' v' =>
    cases h
    rw [insW, if_neg hne]
    obtain ⟨j, h1, h2, h3⟩ := hs _ rfl hne
    rw [lev] at h1 h3
    exact find_split_in hne (fun j _ => hk _ _ j hne) ⟨j, h1, by omega, h3⟩
  | node st ch ih =>
    have := lev_ge nb key (ch (nb key d)) (d + 1)
    rw [insW, find, ← ha d (Nat.le_refl _) (by rw [lev]; omega), upd_same, lev]
    exact ih _ hs h (fun j h1 h2 => ha j (by omega) (by rw [lev]; exact h2))

theorem find_insW_other (hne : key ≠ x) {y : K} (hy : y ≠ key) (hyx : y ≠ x) {t : T K P V} {d : Nat}
    (h : slot nb key t d = some (x, px, vx)) : find nb y (insW nb nb' n key p v vs f t d) d = find nb y t d := by
  induction t generalizing d with
  | empty => cases h
  | leaf k' p' v' =>
    cases h
    rw [insW, if_neg hne, find_split_other hy hyx, find, if_neg hyx]
  | node st ch ih =>
    rw [insW, find, find]
    by_cases hd : nb y d = nb key d
    · rw [hd, upd_same]; exact ih _ h
    · rw [upd_other _ _ hd]

theorem length_insW_new (hnb : ∀ k d, nb k d < 16) (hnb' : ∀ k d k' d', nb' k d k' d' < 16) (hn : B < n) (hne : key ≠ x)
    {t : T K P V} {d : Nat} (hs : SlotSep nb nb' B key t d) (h : slot nb key t d = some (x, px, vx)) :
    (leaves (insW nb nb' n key p v vs f t d)).length = (leaves t).length + 1 := by
  induction t generalizing d with
  | empty => cases h
  | leaf k' p' v' =>
    cases h
    rw [insW, if_neg hne]
    obtain ⟨j, h1, h2, h3⟩ := hs _ rfl hne
    rw [lev] at h1
    rw [(leaves_splitT (nb := nb' x (d - 1)) (fun a b => hnb' _ _ a b) key p vs x px vx 0#32 n d ⟨j, h1, by omega, h3⟩).length_eq]
    simp [leaves]
  | node st ch ih =>
    rw [insW]
    obtain ⟨A, C, hu⟩ := leaves_upd ch (hnb key d)
    have h0 := hu st (ch (nb key d))
    rw [upd_self] at h0
    rw [hu, h0]
    have := ih (nb key d) (d := d + 1) hs h
    simp only [List.length_append]
    omega

theorem mk_two {st : BitVec 32} {ch : Nat → T K P V} (h : 2 ≤ (leaves (node st ch)).length) : mk st ch = node st ch := by
  have hl := leaves_mk st ch
  rcases mk_cases st ch with h1 | h1 | ⟨i, hi, h1, h2⟩
  · rw [h1] at hl; rw [← hl] at h; simp [leaves] at h
  · exact h1
  · rw [h1] at hl
    cases hc : ch i with
    | empty => rw [hc] at h2; cases h2
    | node => rw [hc] at h2; cases h2
    | leaf k p v => rw [hc] at hl; rw [← hl] at h; simp [leaves] at h

theorem mk_one {i : Nat} (hi : i < 16) (k : K) (p : P) (v : V) : mk 0#32 (upd (fun _ => empty) i (leaf k p v)) = leaf k p v := by
  have h1 : (List.range 16).filter (fun j => !(upd (fun _ => empty) i (leaf k p v) j).isEmpty) = (List.range 16).filter (fun j => decide (j = i)) := by
    apply List.filter_congr
    intro j _
    by_cases h : j = i
    · subst h; simp [isEmpty]
    · rw [upd_other _ _ h]; simp [isEmpty, h]
  have h2 : ∀ i, i < 16 → (List.range 16).filter (fun j => decide (j = i)) = [i] := by decide
  rw [mk, h1, h2 i hi]
  simp [isLeaf]

theorem upd_upd (ch : Nat → T K P V) (i : Nat) (x y : T K P V) : upd (upd ch i x) i y = upd ch i y := by
  funext j; by_cases h : j = i
  · subst h; simp
  · simp [upd, h]

/-- Removing the new key puts the key that it pushed down back in its place. -/
theorem del_split {nb' : K → Nat → Nat} (hnb : ∀ k d, nb k d < 16) (hnb' : ∀ k d, nb' k d < 16) {k : K} {p : P} {v : V} {x : K} {p' : P} {v' : V} {n d : Nat}
    (hk : ∀ j, d ≤ j → nb' k j = nb k j) (hs : ∃ j, d ≤ j ∧ j < d + n ∧ nb' k j ≠ nb' x j) :
    del nb k (splitT nb' k p v x p' v' 0#32 n d) d = leaf x p' v' := by
  induction n generalizing d with
  | zero => obtain ⟨j, h1, h2, _⟩ := hs; omega
  | succ n ih =>
    have hkd := hk d (Nat.le_refl _)
    rw [splitT]
    split
    · rename_i heq
      rw [del, hkd, upd_same, ih (fun j hj => hk j (by omega)) (sep_step heq hs), upd_upd, mk_one (hnb k d)]
    · rename_i hne
      rw [del, hkd, upd_same, del, if_pos rfl, upd_upd]
      have : upd (upd (fun _ => empty) (nb' x d) (leaf x p' v')) (nb k d) empty = upd (fun _ => empty) (nb' x d) (leaf x p' v') := by
        funext j; by_cases h : j = nb k d
        · subst h; rw [upd_same, upd_other _ _ (by rw [← hkd]; exact hne)]
        · rw [upd_other _ _ h]
      rw [this, mk_one (hnb' x d)]

theorem del_insW (hnb : ∀ k d, nb k d < 16) (hnb' : ∀ k d k' d', nb' k d k' d' < 16) (hn : B < n) (hk : KeyKeeps nb nb' key) (hne : key ≠ x)
    {t : T K P V} {d : Nat} (hs : SlotSep nb nb' B key t d) (hc : Canon t) (h : slot nb key t d = some (x, px, vx)) :
    del nb key (insW nb nb' n key p v vs f t d) d = t := by
  induction t generalizing d with
  | empty => cases h
  | leaf k' p' v' =>
    cases h
    rw [insW, if_neg hne]
    obtain ⟨j, h1, h2, h3⟩ := hs _ rfl hne
    rw [lev] at h1 h3
    exact del_split hnb (fun a b => hnb' _ _ a b) (fun j _ => hk _ _ j hne) ⟨j, h1, by omega, h3⟩
  | node st ch ih => rw [insW, del, upd_same, ih _ hs (hc.2 _ (hnb key d)) h, upd_upd, upd_self, mk_two hc.1.2]

theorem delRoot_insW (hnb : ∀ k d, nb k d < 16) (hnb' : ∀ k d k' d', nb' k d k' d' < 16) (hn : B < n) (hk : KeyKeeps nb nb' key) (hne : key ≠ x)
    {t : T K P V} (hs : SlotSep nb nb' B key t 0) (hc : CanonRoot t) (h : slot nb key t 0 = some (x, px, vx)) :
    delRoot nb key (insW nb nb' n key p v vs f t 0) = t := by
  cases t with
  | empty => cases h
  | leaf => cases hc
  | node st ch =>
    rw [insW, delRoot, upd_same, upd_upd]
    have := del_insW (p := p) (v := v) (vs := vs) (f := f) hnb hnb' hn hk hne (t := ch (nb key 0)) (d := 1) hs (hc.2 _ (hnb key 0)) h
    rw [show (0 : Nat) + 1 = 1 from rfl, this, upd_self]

end

theorem shallow_of_ht {B M : Nat} (hM : B < M) {t : T K P V} {d : Nat} {pre : K → Bool} (h : Ht B t d) : Shallow nb M t d pre := by
  induction t generalizing d pre with
  | empty => trivial
  | leaf => trivial
  | node st ch ih =>
    have := h.1
    rw [Shallow, if_neg (by omega)]
    exact fun i hi => ih i (h.2 i hi)

end

section
variable {K V : Type} [DecidableEq K] [Inhabited V] {c : Cfg K} {sd : Seed} {H : K → Nat → BitVec 64} {s : St K V} {h : Nat} {t : T K Ptr V} {F : Nat → Prop} {fuel : Nat}

theorem altNb_misread (D : K → Nat → BitVec 64) (x : K) (d j : Nat) : altNb H D x d x j = misread H (D x d) x d j := by
  rw [altNb, nbOf_eq_nibble, nibble, misread, altH]
  simp only [true_and]

theorem strays_astray (D : K → Nat → BitVec 64) (k x : K) (d : Nat) :
    Strays (nbOf H) (altNb H D x d x) k x (d + 1) ↔ Astray H (D x d) k x d := by
  simp only [Strays, Astray, altNb_misread, nbOf_eq_nibble]
  rfl

open Classical in
/-- What an insertion does that takes the digest of the key `x` in its way to be `D x d`. -/
theorem Inv.upsert_alt {R : Type} {ins : Ins K V R} {key x : K} {d : Nat} {f : V → V} {vSlot vSplit : V} {gHit : V → R} {rNew : R}
    {D : K → Nat → BitVec 64} (L : Laws c sd H) (hi : Inv c sd H True s h t F)
    (hins : InsOk c sd H { ins with chash := idealChash H } key f vSlot vSplit gHit rNew)
    (hC : ∀ ckey d fuel, key ≠ ckey → ins.chash sd key ckey d fuel = .ok (D ckey d >>> (4 * (d % 16)), d / 16 + 1))
    (hg : ins.guard = false) (hz : ∀ k, c.encT k = 0#32) (hf : 256 ≤ fuel) (hk : key ∉ (absT t).keys)
    (hco : CollidesAt H (absT t).keys key x d) (hp : Parts H (D x d) key x d) :
    ∃ p s' t' F', Amt.upsert c h fuel key ins s = .ok (rNew, s') ∧ LInv c sd H 256 (fun _ => True) s' h t' F' ∧
      find (nbOf H) key t' 0 = some (p, vSplit) ∧
      find (nbOf H) x t' 0 = (if Astray H (D x d) key x d then none else find (nbOf H) x t 0) ∧
      (∀ y, y ≠ key → y ≠ x → find (nbOf H) y t' 0 = find (nbOf H) y t 0) ∧
      (leaves t').length = (leaves t).length + 1 ∧ delRoot (nbOf H) key t' = t := by
  obtain ⟨px, vx, hs, hd⟩ := hi.slot_of_collides trivial hco
  have hne : key ≠ x := fun e => hk (e ▸ hco.1)
  have hag := slot_agree hi.node hi.wf hs
  have hlv : 1 ≤ lev (nbOf H) key t 0 := by
    have hn := hi.node
    cases t with
    | empty => cases hn
    | leaf => cases hn
    | node st ch => exact lev_ge (nbOf H) key (ch (nbOf H key 0)) 1
  have hlev : lev (nbOf H) key t 0 = d + 1 := by omega
  have hsep : SlotSep (nbOf H) (altNb H D) 255 key t 0 := by
    intro e he _
    rw [hs] at he
    cases he
    obtain ⟨j, h1, h2, h3⟩ := hp
    refine ⟨j, by omega, h2, ?_⟩
    rw [hd, altNb_misread, altNb_keeps H D key _ _ _ hne, nbOf_eq_nibble]
    exact Ne.symm h3
  obtain ⟨lk, hl, hr⟩ := hi.rep
  have hi' : LInv c sd H 256 (fun _ => True) s h t F :=
    ⟨⟨lk, hl, hr⟩, hi.seed, hi.node, hi.ht, hi.canon trivial, shallow_of_ht (by omega) hi.ht, fun _ _ => trivial, hi.len, hi.dep⟩
  obtain ⟨p, s', lk', F', e1, hu⟩ := upsert_loose L hins hC hg hz h (by omega : 255 < 256) (by omega : 255 < 256)
    (by omega : 255 < fuel) t hi.node hl hr hi.ht (Or.inr (hi.canon trivial)) hsep (by omega : 255 < fuel + 0) (start_ok L key h) rfl
  have hfx : find (nbOf H) x t 0 = some (px, vx) := (find_eq_some (nbOf_lt H) hi.wf).2 (slot_mem (nbOf_lt H) hs)
  have hht := Ht_insW (p := p) (v := vSlot) (vs := vSplit) (f := f) (n := 256) hsep (nbOf_lt H) hi.ht
  refine ⟨p, s', _, F', ?_, (Upd.linv hi' hl hu ?_ hht (CanonRoot_insW (nbOf_lt H) (altNb_lt H D) (by omega : 255 < 256) hsep (hi.canon trivial))
    (shallow_of_ht (by omega) hht) (fun _ _ => trivial)).1, ?_, ?_, ?_, ?_, ?_⟩
  · rw [upsert_eq, bind_ok (getRoot_run h s), hi.seed, e1, (find_none_iff hi key).2 hk]
  · have := hi.node
    cases t with
    | node st ch => rfl
    | empty => cases this
    | leaf => cases this
  · exact find_insW_key (by omega : 255 < 256) (altNb_keeps H D key) hne hsep hs
  · rw [find_insW_in (by omega : 255 < 256) (altNb_keeps H D key) hne hsep hs (fun j _ hj => by
      rw [nbOf_eq_nibble, nbOf_eq_nibble]; exact hag j (by omega)), hfx, hlev]
    simp only [Nat.add_sub_cancel, strays_astray]
  · exact fun y h1 h2 => find_insW_other hne h1 h2 hs
  · exact length_insW_new (nbOf_lt H) (altNb_lt H D) (by omega : 255 < 256) hne hsep hs
  · exact delRoot_insW (nbOf_lt H) (altNb_lt H D) (by omega : 255 < 256) (altNb_keeps H D key) hne hsep (hi.canon trivial) hs

end

section
variable {K V : Type} [DecidableEq K] [Inhabited V] {I : KeyImpl K} {sd : Seed} {s : St K V} {h : Nat} {t : T K Ptr V} {F : Nat → Prop} {fuel M : Nat} {S : K → Prop}

theorem generic_get (heq : ∀ a b, I.equal a b = true ↔ a = b) (hi : LInv (GenericMap (V := V) I).cfg sd (fun k n => I.hash k sd n) M S s h t F) (hf : 256 ≤ fuel) (k : K) :
    (GenericMap I).exec fuel (some h) (.get k) s
      = .ok (.pair (((find (nbOf fun k n => I.hash k sd n) k t 0).map fun e => e.2).getD default) (find (nbOf fun k n => I.hash k sd n) k t 0).isSome, s) := by
  have ok := GenericMap_ok (V := V) (sd := sd) I heq
  have hPtr : (GenericMap (V := V) I).Ptr fuel (some h) k s
      = .ok ((find (nbOf fun k n => I.hash k sd n) k t 0).map (fun e => e.1), s) := hi.lookup ok.laws (ok.laws.keep ok.store) hf k
  rw [MapImpl.exec, MapImpl.Get, bind_assoc_M, bind_ok hPtr]
  cases hfd : find (nbOf fun k n => I.hash k sd n) k t 0 with
  | none => rfl
  | some e =>
    obtain ⟨o, e1⟩ := (hi.cell ok.laws (find_mem (nbOf_lt _) hfd)).load ok.store
    simp only [Option.map_some]
    rw [bind_assoc_M, bind_ok e1]
    rfl

/-- What is in a generic map in the memory `s₂`, where `m` was in it before the key `k` was given the value `v` and pushed the key `x` down: `k` is found, and so are
all keys that were there before, except that `x` is not if `lost`; but it is still counted. -/
def AfterPush (I : KeyImpl K) (fuel : Nat) (hd : Handle) (m : FMap K V) (k : K) (v : V) (x : K) (lost : Prop) (s₂ : St K V) : Prop :=
  (GenericMap I).exec fuel hd (.get k) s₂ = .ok (.pair v true, s₂) ∧
  (lost → (GenericMap I).exec fuel hd (.get x) s₂ = .ok (.pair default false, s₂)) ∧
  (∀ y ∈ m.keys, (y = x → ¬ lost) → ∃ w, m.get y = some w ∧ (GenericMap I).exec fuel hd (.get y) s₂ = .ok (.pair w true, s₂)) ∧
  (GenericMap I).exec fuel hd .len s₂ = .ok (.num (BitVec.ofNat 64 (m.length + 1)), s₂)

theorem after_push (heq : ∀ a b, I.equal a b = true ↔ a = b) {R : Type} {ins : Ins K V R} {key x : K} {d : Nat} {f : V → V} {v : V}
    {gHit : V → R} {rNew : R} {D : K → Nat → BitVec 64} {m : FMap K V} (hm : m.Perm (absT t)) (hnd : m.keys.Nodup)
    (hi : Inv (GenericMap (V := V) I).cfg sd (fun k n => I.hash k sd n) True s h t F)
    (hins : InsOk (GenericMap (V := V) I).cfg sd (fun k n => I.hash k sd n) { ins with chash := idealChash fun k n => I.hash k sd n } key f v v gHit rNew)
    (hC : ∀ ckey d fuel, key ≠ ckey → ins.chash sd key ckey d fuel = .ok (D ckey d >>> (4 * (d % 16)), d / 16 + 1))
    (hg : ins.guard = false) (hf : 256 ≤ fuel) (hk : key ∉ m.keys) (hco : CollidesAt (fun k n => I.hash k sd n) m.keys key x d)
    (hp : Parts (fun k n => I.hash k sd n) (D x d) key x d) :
    ∃ s', Amt.upsert (GenericMap (V := V) I).cfg h fuel key ins s = .ok (rNew, s') ∧
      AfterPush I fuel (some h) m key v x (Astray (fun k n => I.hash k sd n) (D x d) key x d) s' := by
  have ok := GenericMap_ok (V := V) (sd := sd) I heq
  have hks : ∀ y, y ∈ m.keys ↔ y ∈ (absT t).keys := fun y => (FMap.keys_perm hm).mem_iff
  obtain ⟨p, s', t', F', e1, e2, e3, e4, e5, e6, _⟩ := hi.upsert_alt ok.laws hins hC hg (fun _ => rfl) hf (by rw [← hks]; exact hk) (hco.congr hks) hp
  have hne : key ≠ x := fun e => hk (e ▸ hco.1)
  refine ⟨s', e1, ?_, fun hl => ?_, fun y hy hyx => ?_, ?_⟩
  · rw [generic_get heq e2 hf, e3]; rfl
  · rw [generic_get heq e2 hf, e4, if_pos hl]; rfl
  · have hyk : y ≠ key := fun e => hk (e ▸ hy)
    have hfy : find (nbOf fun k n => I.hash k sd n) y t' 0 = find (nbOf fun k n => I.hash k sd n) y t 0 := by
      by_cases h : y = x
      · rw [h, e4, if_neg (hyx h)]
      · exact e5 y hyk h
    cases hfd : find (nbOf fun k n => I.hash k sd n) y t 0 with
    | none => rw [find_none_iff hi, ← hks] at hfd; exact absurd hy hfd
    | some e =>
      refine ⟨e.2, ?_, ?_⟩
      · rw [FMap.get_perm hm hnd, ← find_absT hi.wf, hfd]; rfl
      · rw [generic_get heq e2 hf, hfy, hfd]; rfl
  · have : m.length + 1 = size t' 0 := by
      rw [size_eq_length, e6, hm.length_eq, absT, List.length_map]
    rw [this, ← e2.len]; rfl

end

section
variable {K V : Type} [DecidableEq K] [Inhabited V] {fuel : Nat}

/-- C97 for `Set`.  After every history on which a generic map was right so far (C05), a `Set` of a new key `k` that collides with the stored key `x` at depth `d`
loses `x` just if the digest numbered `d % 16`, which is used in place of the one numbered `d / 16`, leads `x` astray.  `k` itself and all other keys are found. -/
theorem C97_Map_set (I : KeyImpl K) (heq : ∀ a b, I.equal a b = true ↔ a = b) (sd : Seed) {ops : List (MOp K V)} (h : EachNew (GenFits fun k n => I.hash k sd n) [] ops)
    {k x : K} {d : Nat} (hk : k ∉ keysAfter [] ops) (hco : CollidesAt (fun k n => I.hash k sd n) (keysAfter [] ops) k x d)
    (hp : Parts (fun k n => I.hash k sd n) (I.hash x sd (d % 16)) k x d) (v : V) (hf : 256 ≤ fuel) (s : St K V) :
    ∃ os s₁ m s₂, (GenericMap I).session fuel sd ops s = .ok ((some s.next, os), s₁) ∧ MRun [] ops os m ∧ x ∈ m.keys ∧
      (GenericMap I).exec fuel (some s.next) (.set k v) s₁ = .ok (.unit, s₂) ∧
      AfterPush I fuel (some s.next) m k v x (Astray (fun k n => I.hash k sd n) (I.hash x sd (d % 16)) k x d) s₂ := by
  obtain ⟨os, s₁, t, F, m, e1, hi, e3, e4⟩ := (MapContainer.generic (V := V) sd I heq).session h hf s
  have ok := GenericMap_ok (V := V) (sd := sd) I heq
  have hks : ∀ y, y ∈ keysAfter [] ops ↔ y ∈ m.keys := fun y => (e3.keysAfter y).symm
  have hnd := e3.nodup (by simp [FMap.keys])
  obtain ⟨s₂, g1, g2⟩ := after_push (D := fun x d => I.hash x sd (d % 16)) (ins := (GenericMap (V := V) I).setI k v) heq e4 hnd hi (ok.set k v) (fun _ _ _ _ => rfl) rfl hf
    (by rw [← hks]; exact hk) (hco.congr hks) hp
  refine ⟨os, s₁, m, s₂, e1, e3.mono (fun _ _ _ _ => MStepX.toStep (fun _ => rfl)), (hks x).1 hco.1, ?_, g2⟩
  have g1' : (GenericMap (V := V) I).Set fuel (some s.next) k v s₁ = .ok ((), s₂) := by rw [MapImpl.Set, deref, pure_bind_M, g1]
  rw [MapImpl.exec, bind_ok g1']; rfl

/-- C97 for `Mod`, which uses a digest of the new key `k` in place of one of the key `x` in its way. -/
theorem C97_Map_mod (I : KeyImpl K) (heq : ∀ a b, I.equal a b = true ↔ a = b) (sd : Seed) {ops : List (MOp K V)} (h : EachNew (GenFits fun k n => I.hash k sd n) [] ops)
    {k x : K} {d : Nat} (hk : k ∉ keysAfter [] ops) (hco : CollidesAt (fun k n => I.hash k sd n) (keysAfter [] ops) k x d)
    (hp : Parts (fun k n => I.hash k sd n) (I.hash k sd (d % 16)) k x d) (f : V → Bool → V) (hf : 256 ≤ fuel) (s : St K V) :
    ∃ os s₁ m s₂, (GenericMap I).session fuel sd ops s = .ok ((some s.next, os), s₁) ∧ MRun [] ops os m ∧ x ∈ m.keys ∧
      (GenericMap I).exec fuel (some s.next) (.mod k f) s₁ = .ok (.calls [(default, false)], s₂) ∧
      AfterPush I fuel (some s.next) m k (f default false) x (Astray (fun k n => I.hash k sd n) (I.hash k sd (d % 16)) k x d) s₂ := by
  obtain ⟨os, s₁, t, F, m, e1, hi, e3, e4⟩ := (MapContainer.generic (V := V) sd I heq).session h hf s
  have ok := GenericMap_ok (V := V) (sd := sd) I heq
  have hks : ∀ y, y ∈ keysAfter [] ops ↔ y ∈ m.keys := fun y => (e3.keysAfter y).symm
  have hnd := e3.nodup (by simp [FMap.keys])
  obtain ⟨s₂, g1, g2⟩ := after_push (D := fun _ d => I.hash k sd (d % 16)) (ins := (GenericMap (V := V) I).modI k f) heq e4 hnd hi (ok.mod k f) (fun _ _ _ _ => rfl) rfl hf
    (by rw [← hks]; exact hk) (hco.congr hks) hp
  refine ⟨os, s₁, m, s₂, e1, e3.mono (fun _ _ _ _ => MStepX.toStep (fun _ => rfl)), (hks x).1 hco.1, ?_, g2⟩
  have g1' := (show (GenericMap (V := V) I).Mod fuel (some s.next) k f s₁
    = upsert (GenericMap (V := V) I).cfg s.next fuel k ((GenericMap (V := V) I).modI k f) s₁ from rfl).trans g1
  rw [MapImpl.exec, bind_ok g1']; rfl

/-- A `Mod` of a new key that has its first nibble in common with just one stored key `x` loses `x`, if the two have different digests for iteration 0 and for
another one. -/
theorem C97_mod_first (I : KeyImpl K) (heq : ∀ a b, I.equal a b = true ↔ a = b) (sd : Seed) {ops : List (MOp K V)} (h : EachNew (GenFits fun k n => I.hash k sd n) [] ops)
    {k x : K} (hk : k ∉ keysAfter [] ops) (hx : x ∈ keysAfter [] ops)
    (hn : ∀ y ∈ keysAfter [] ops, nibble (fun k n => I.hash k sd n) k 0 = nibble (fun k n => I.hash k sd n) y 0 ↔ y = x)
    (h0 : I.hash k sd 0 ≠ I.hash x sd 0) {n : Nat} (hn0 : 1 ≤ n) (hn1 : n ≤ 15) (h1 : I.hash k sd n ≠ I.hash x sd n) (f : V → Bool → V) (hf : 256 ≤ fuel) (s : St K V) :
    ∃ os s₁ m s₂ w, (GenericMap I).session fuel sd ops s = .ok ((some s.next, os), s₁) ∧ MRun [] ops os m ∧ m.get x = some w ∧
      (GenericMap I).exec fuel (some s.next) (.mod k f) s₁ = .ok (.calls [(default, false)], s₂) ∧
      (GenericMap I).exec fuel (some s.next) (.get x) s₂ = .ok (.pair default false, s₂) := by
  have hco : CollidesAt (fun k n => I.hash k sd n) (keysAfter [] ops) k x 0 := by
    refine ⟨hx, fun j hj => ?_, fun y hy ha => (hn y hy).1 (ha 0 (by omega)), Or.inl rfl⟩
    obtain rfl : j = 0 := by omega
    exact (hn x hx).2 rfl
  have hmis : ∀ j, j < 16 → misread (fun k n => I.hash k sd n) (I.hash k sd (0 % 16)) x 0 j = nibble (fun k n => I.hash k sd n) k j := by
    intro j hj
    have : j / 16 = 0 := by omega
    simp [misread, nibble, this]
  obtain ⟨i, a1, a2, a3⟩ := exists_nibble (H := fun k n => I.hash k sd n) (a := k) (b := x) h0
  obtain ⟨j, b1, b2, b3⟩ := exists_nibble (H := fun k n => I.hash k sd n) (a := k) (b := x) h1
  rw [nbOf_eq_nibble, nbOf_eq_nibble] at a3 b3
  have hi0 : i ≠ 0 := fun e => a3 (e ▸ (hn x hx).2 rfl)
  have hp : Parts (fun k n => I.hash k sd n) (I.hash k sd (0 % 16)) k x 0 := by
    refine ⟨j, by omega, by omega, ?_⟩
    have : j / 16 ≠ 0 / 16 := by omega
    rw [misread, if_neg this]
    exact Ne.symm b3
  have hl : Astray (fun k n => I.hash k sd n) (I.hash k sd (0 % 16)) k x 0 :=
    ⟨i, by omega, by rw [hmis i (by omega)]; exact a3, fun j _ hj => hmis j (by omega)⟩
  obtain ⟨os, s₁, m, s₂, e1, e2, hm, e3, e4⟩ := C97_Map_mod I heq sd h hk hco hp f hf s
  cases hg : m.get x with
  | none => exact absurd hm (FMap.get_eq_none.1 hg)
  | some w => exact ⟨os, s₁, m, s₂, w, e1, e2, hg, e3, e4.2.1 hl⟩

end

/-! ### Sets -/

section
variable {K : Type} [DecidableEq K] {fuel : Nat}

/-- C97 for `Add`. -/
theorem C97_Set (I : KeyImpl K) (heq : ∀ a b, I.equal a b = true ↔ a = b) (sd : Seed) {ops : List (SOp K)}
    (h : SEachNew (fun k n => I.hash k sd n) false (GenFits (fun k n => I.hash k sd n) false) [] ops)
    {k x : K} {d : Nat} (hk : k ∉ elemsAfterX (fun k n => I.hash k sd n) false [] ops)
    (hco : CollidesAt (fun k n => I.hash k sd n) (elemsAfterX (fun k n => I.hash k sd n) false [] ops) k x d)
    (hp : Parts (fun k n => I.hash k sd n) (I.hash x sd (d % 16)) k x d) (hf : 256 ≤ fuel) (s : St K Unit) :
    ∃ os s₁ m s₂, (GenericSet I).session fuel sd ops s = .ok ((some s.next, os), s₁) ∧ SRun [] ops os m ∧ x ∈ m ∧
      (GenericSet I).exec fuel (some s.next) (.add k) s₁ = .ok (.unit, s₂) ∧
      (∀ y, y = k ∨ y ∈ m → ∃ b, (GenericSet I).exec fuel (some s.next) (.has y) s₂ = .ok (.bool b, s₂) ∧
        (b = false ↔ y = x ∧ Astray (fun k n => I.hash k sd n) (I.hash x sd (d % 16)) k x d)) ∧
      (GenericSet I).exec fuel (some s.next) .len s₂ = .ok (.num (BitVec.ofNat 64 (m.length + 1)), s₂) := by
  obtain ⟨os, s₁, t, F, m, e1, hi, e3, e4⟩ := (SetContainer.generic sd I heq).session h hf s
  have ok := GenericSet_ok (sd := sd) I heq
  have hks : ∀ y, y ∈ elemsAfterX (fun k n => I.hash k sd n) false [] ops ↔ y ∈ m := fun y => (e3.elemsAfterX y).symm
  have hks' : ∀ y, y ∈ m ↔ y ∈ (absT t).keys := fun y => by rw [e4.mem_iff, absS_eq, absT_keys]
  have hks2 := fun y => (hks y).trans (hks' y)
  obtain ⟨p, s₂, t', F', g1, g2, g3, g4, g5, g6, _⟩ := hi.upsert_alt (ins := (GenericSet I).addI k) (D := fun x d => I.hash x sd (d % 16)) ok.laws (ok.add k) (fun _ _ _ _ => rfl)
    rfl (fun _ => rfl) hf (by rw [← hks2]; exact hk) (hco.congr hks2) hp
  have hne : k ≠ x := fun e => hk (e ▸ hco.1)
  have hhas : ∀ y, (GenericSet I).exec fuel (some s.next) (.has y) s₂ = .ok (.bool (find (nbOf fun k n => I.hash k sd n) y t' 0).isSome, s₂) := by
    intro y
    have : (GenericSet I).Has fuel (some s.next) y s₂ = .ok ((find (nbOf fun k n => I.hash k sd n) y t' 0).isSome, s₂) := by
      rw [SetImpl.Has, deref, pure_bind_M, bind_ok (g2.lookup ok.laws rfl hf y)]
      cases find (nbOf fun k n => I.hash k sd n) y t' 0 <;> rfl
    rw [SetImpl.exec, bind_ok this]; rfl
  have hin : ∀ y, y ∈ m → find (nbOf fun k n => I.hash k sd n) y t 0 ≠ none := fun y hy hn => by
    rw [find_none_iff hi, ← hks'] at hn; exact hn hy
  refine ⟨os, s₁, m, s₂, e1, e3.mono (fun _ _ _ _ => SStepX.toStep), (hks x).1 hco.1, ?_, fun y hy => ⟨_, hhas y, ?_⟩, ?_⟩
  · have g1' : (GenericSet I).Add fuel (some s.next) k s₁ = .ok ((), s₂) := by rw [SetImpl.Add, deref, pure_bind_M, g1]
    rw [SetImpl.exec, bind_ok g1']; rfl
  · by_cases hyk : y = k
    · subst hyk
      rw [g3]
      exact ⟨fun h => by simp at h, fun h => absurd h.1 hne⟩
    · have hym : y ∈ m := hy.resolve_left hyk
      have := hin y hym
      by_cases hyx : y = x
      · subst hyx
        rw [g4]
        split
        · rename_i ha; simp [ha]
        · rename_i ha; simp [ha, this, Option.isNone_iff_eq_none]
      · rw [g5 y hyk hyx]
        simp [hyx, this, Option.isNone_iff_eq_none]
  · have : m.length + 1 = size t' 0 := by
      rw [size_eq_length, g6, e4.length_eq, absS_eq, absT_keys, List.length_map]
    rw [this, ← g2.len]; rfl

end

/-! ### How often -/

theorem countP_without {α : Type} (p q : α → Bool) (l : List α) : l.countP p ≤ l.countP (fun x => p x && !q x) + l.countP q := by
  induction l with
  | nil => simp
  | cons a l ih =>
    simp only [List.countP_cons]
    cases p a <;> cases q a <;> simp <;> omega

theorem countP_sum {α : Type} (p : α → Bool) (l : List α) : (l.map fun x => if p x = true then 1 else 0).sum = l.countP p := by
  induction l with
  | nil => rfl
  | cons a l ih => rw [List.map_cons, List.sum_cons, ih, List.countP_cons]; omega

theorem countP_pairs {α : Type} (D : List α) (d : α) (p : α → α → Bool) :
    (vecs D 2).countP (fun v => p (v.getD 0 d) (v.getD 1 d)) = (D.map fun x => D.countP (p x)).sum := by
  rw [countP_vecs]
  congr 1
  apply List.map_congr_left
  intro x _
  rw [countP_vecs, ← countP_sum]
  congr 1
  apply List.map_congr_left
  intro y _
  simp [vecs, List.countP_cons]

theorem countP_digests_eq (x : BitVec 64) : digests.countP (fun y => decide (x.toNat % 16 = y.toNat % 16)) = 2 ^ 60 := by
  rw [digests, List.countP_map, ← countP_mod (Nat.mod_lt x.toNat (show 0 < 16 by decide)) (2 ^ 60)]
  rw [show 16 * 2 ^ 60 = 2 ^ 64 from rfl]
  apply List.countP_congr
  intro i hi
  have hi := List.mem_range.1 hi
  simp only [Function.comp, BitVec.toNat_ofNat, Nat.mod_eq_of_lt hi, decide_eq_true_eq]
  exact eq_comm

theorem length_digests : digests.length = 2 ^ 64 := by rw [digests, List.length_map, List.length_range]

theorem countP_digests_one (x : BitVec 64) : digests.countP (fun y => decide (x = y)) ≤ 1 := by
  have h := countP_digests x (j := 16) (by decide)
  rw [length_digests] at h
  have : digests.countP (fun y => decide (x = y)) ≤ digests.countP (fun y => decide (x.toNat % 16 ^ 16 = y.toNat % 16 ^ 16)) :=
    List.countP_mono_left fun y _ hy => by
      rw [decide_eq_true_eq] at hy ⊢
      rw [hy]
  omega

/-- The functions with different digests for the two keys, that have the first nibble in common. -/
def firstOnly (v : List (BitVec 64)) : Bool :=
  decide ((v.getD 0 0#64).toNat % 16 = (v.getD 1 0#64).toNat % 16) && !decide (v.getD 0 0#64 = v.getD 1 0#64)

theorem firstOnly_count : (vecs digests 2).length ≤ 17 * (vecs digests 2).countP firstOnly := by
  have h : (vecs digests 2).countP firstOnly = (digests.map fun x => digests.countP fun y => decide (x.toNat % 16 = y.toNat % 16) && !decide (x = y)).sum :=
    countP_pairs digests 0#64 (fun x y => decide (x.toNat % 16 = y.toNat % 16) && !decide (x = y))
  have h2 : (digests.map fun _ => 2 ^ 60 - 1).sum ≤ (vecs digests 2).countP firstOnly := by
    rw [h]
    refine sum_le_sum fun x _ => ?_
    have a := countP_without (fun y => decide (x.toNat % 16 = y.toNat % 16)) (fun y => decide (x = y)) digests
    rw [countP_digests_eq] at a
    have b := countP_digests_one x
    omega
  rw [sum_const, length_digests] at h2
  rw [length_vecs, length_digests]
  omega

section
variable {V : Type} [Inhabited V]

/-- C97 for a random hash function, which may return anything in later iterations as long as it tells the two keys apart in iteration 1: at least one in 17 of the
functions makes a generic map lose the first key when `Mod` stores the second. -/
theorem C97_random {a b : ByteStr} (hab : a ≠ b) {later : ByteStr → Seed → Nat → BitVec 64} {sd : Seed} (hl : later b sd 1 ≠ later a sd 1) (w : V) (f : V → Bool → V) :
    ∃ lost : List (BitVec 64) → Bool, (allHashes [a, b]).length ≤ 17 * (allHashes [a, b]).countP lost ∧
      ∀ v ∈ allHashes [a, b], lost v = true → ∀ fuel, 256 ≤ fuel → ∀ s : St ByteStr V, ∃ s',
        (GenericMap (tableKey [a, b] later v)).session fuel sd [.set a w, .mod b f, .get a] s
          = .ok ((some s.next, [.unit, .calls [(default, false)], .pair default false]), s') := by
  refine ⟨firstOnly, firstOnly_count, fun v _ hv fuel hf s => ?_⟩
  simp only [firstOnly, Bool.and_eq_true, decide_eq_true_eq, Bool.not_eq_true', decide_eq_false_iff_not] at hv
  have ha : ∀ i, (tableKey [a, b] later v).hash a sd i = if i = 0 then v.getD 0 0#64 else later a sd i := fun i => by simp [tableKey, tableHash]
  have hb : ∀ i, (tableKey [a, b] later v).hash b sd i = if i = 0 then v.getD 1 0#64 else later b sd i := fun i => by
    have : [a, b].idxOf b = 1 := by rw [List.idxOf_cons, beq_false_of_ne hab]; simp
    simp only [tableKey, tableHash, this]
  have h : EachNew (GenFits fun k n => (tableKey [a, b] later v).hash k sd n) [] [MOp.set a w] :=
    ⟨fun k _ _ => ⟨fun k' hk' => by simp at hk', fun k' d hc => by simp [CollidesAt] at hc⟩, trivial⟩
  have hks : ∀ y, y ∈ keysAfter [] [MOp.set a w] ↔ y = a := fun y => by simp [keysAfter, MOp.after]
  obtain ⟨os, s₁, m, s₂, w', e1, e2, _, e3, e4⟩ := C97_mod_first (tableKey [a, b] later v) (fun _ _ => decide_eq_true_iff) sd h (k := b) (x := a)
    (by rw [hks]; exact Ne.symm hab) (by rw [hks]) (fun y hy => by
      rw [hks] at hy
      subst hy
      simp only [nibble, ha, hb, Nat.zero_div, if_true, Nat.zero_mod, Nat.pow_zero, Nat.div_one, iff_true]
      exact hv.1.symm) (by rw [ha, hb]; exact fun e => hv.2 e.symm) (n := 1) (by decide) (by decide) (by rw [ha, hb]; exact hl) f hf s
  obtain ⟨o, os', m', rfl, ⟨rfl, _⟩, rfl, _⟩ := e2
  refine ⟨s₂, ?_⟩
  rw [show [MOp.set a w, .mod b f, .get a] = [.set a w] ++ [.mod b f, .get a] from rfl, MapImpl.session_append, bind_ok e1]
  simp only [MapImpl.run]
  rw [bind_assoc_M, bind_ok e3, bind_assoc_M, bind_assoc_M, bind_ok e4]
  rfl

end

/-! ### Instances -/

/-- The keys 0x321 and 0x421 share two nibbles, and 0x051 shares one with them (`xorKey`). -/
theorem lostOps_covered : EachNew (GenFits fun k n => xorKey.hash k 0#64 n) [] [MOp.set 0x321 1, MOp.set 0x051 2] :=
  eachNew_noMod (S := fun k => k ∈ [0x321, 0x051]) (fun ks k h1 h2 h3 => genFits_two (U := [0x321, 0x051]) (by decide +kernel) h1 h2 h3) (by simp)
    (by simp [MOp.isMod]) (by
      rintro k ⟨op, h1, h2⟩
      simp only [List.mem_cons, List.not_mem_nil, or_false] at h1
      rcases h1 with rfl | rfl <;> simp [MOp.stores] at h2 <;> simp [h2])

theorem lost_collides : CollidesAt (fun k n => xorKey.hash k 0#64 n) (keysAfter [] [MOp.set 0x321 1, MOp.set 0x051 2]) 0x421 0x321 1 := by
  unfold CollidesAt Agree
  decide +kernel

theorem lost_parts : Parts (fun k n => xorKey.hash k 0#64 n) (xorKey.hash 0x321 0#64 (1 % 16)) 0x421 0x321 1 := ⟨2, by decide, by decide, by decide +kernel⟩

/-- A third key is stored, and the first is lost: its digest for iteration 1 is used in place of the one for iteration 0. -/
theorem lost_astray : Astray (fun k n => xorKey.hash k 0#64 n) (xorKey.hash 0x321 0#64 (1 % 16)) 0x421 0x321 1 :=
  ⟨2, by decide, by decide +kernel, fun j h1 h2 => by omega⟩

example := C97_Map_set xorKey xorKey_eq 0#64 lostOps_covered (by decide +kernel) lost_collides lost_parts 3 (Nat.le_refl 256) St.init

/-- A key that is pushed down at depth 0 by `Set` is not. -/
theorem kept : ¬ Astray (fun k n => xorKey.hash k 0#64 n) (xorKey.hash 0x321 0#64 (0 % 16)) 0x051 0x321 0 := by
  rintro ⟨i, _, h, _⟩
  apply h
  by_cases hi : i / 16 = 0 <;> simp [misread, nibble, hi]

theorem oneOp_covered : EachNew (GenFits fun k n => xorKey.hash k 0#64 n) [] [MOp.set 0x321 1] :=
  ⟨fun k _ _ => ⟨fun k' hk' => by simp at hk', fun k' d hc => by simp [CollidesAt] at hc⟩, trivial⟩

example := C97_Map_mod (d := 0) (k := 0x051) (x := 0x321) xorKey xorKey_eq 0#64 oneOp_covered (by decide +kernel) (by unfold CollidesAt Agree; decide +kernel)
  ⟨17, by decide, by decide, by decide +kernel⟩ (fun v _ => v + 1) (Nat.le_refl 256) St.init

example := C97_mod_first (k := 0x051) (x := 0x321) xorKey xorKey_eq 0#64 oneOp_covered (by decide +kernel) (by decide +kernel) (by decide +kernel) (by decide +kernel)
  (n := 1) (by decide) (by decide) (by decide +kernel) (fun v _ => v + 1) (Nat.le_refl 256) St.init

theorem lostOpsS_covered : SEachNew (fun k n => xorKey.hash k 0#64 n) false (GenFits (fun k n => xorKey.hash k 0#64 n) false) [] [SOp.add 0x321, SOp.add 0x051] :=
  SEachNew.of_pairs (S := fun k => k ∈ [0x321, 0x051]) (fun ks k h1 h2 h3 => genFits_two (U := [0x321, 0x051]) (by decide +kernel) h1 h2 h3) (by simp) (by
    rintro k ⟨op, h1, h2⟩
    simp only [List.mem_cons, List.not_mem_nil, or_false] at h1
    rcases h1 with rfl | rfl <;> simp [SOp.stores] at h2 <;> simp [h2])

theorem lostOpsS_elems : elemsAfterX (fun k n => xorKey.hash k 0#64 n) false [] [SOp.add 0x321, SOp.add 0x051] = keysAfter [] [MOp.set 0x321 1, MOp.set 0x051 2] := by
  simp [elemsAfterX, keysAfter, MOp.after, SOp.afterX, SOp.after]

example := C97_Set xorKey xorKey_eq 0#64 lostOpsS_covered (by rw [lostOpsS_elems]; decide +kernel) (by rw [lostOpsS_elems]; exact lost_collides) lost_parts
  (Nat.le_refl 256) St.init

example := C97_random (a := strKey 0x01) (b := strKey 0x12) (V := Nat) (by decide) (later := fun k _ _ => BitVec.ofNat 64 k.length + (k.map fun b => b.toNat).sum) (sd := 0#64)
  (by decide +kernel) 1 (fun v _ => v + 1)

end Amt
