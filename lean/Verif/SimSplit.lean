/- The split loop, and `Set`, `Mod`, `Add` as a whole, simulate insertion into the pure trie. -/
import Verif.SimIns

set_option linter.unusedVariables false

namespace Amt
open T

variable {K V : Type}

theorem tsum_upd_empty {P : Type} (g : Nat → Nat) (st : BitVec 32) (x : T K P V) {i : Nat} (hi : i < 16) (d : Nat) :
    tsum g (.node st (upd (fun _ => .empty) i x)) d = tsum g x (d + 1) := by
  obtain ⟨C, h⟩ := tsum_upd g (fun _ => (.empty : T K P V)) hi d
  have h0 := h st .empty
  have e : upd (fun _ => (.empty : T K P V)) i .empty = fun _ => .empty := upd_self _ _
  rw [e] at h0
  have : tsum g (.node st (fun _ => (.empty : T K P V))) d = 0 := by
    rw [tsum_node]; simp only [tsum]; decide
  rw [h st x]
  simp only [tsum] at h0 this
  omega

theorem tsum_pair {P : Type} (g : Nat → Nat) (st : BitVec 32) (k k' : K) (p p' : P) (v v' : V) {i j : Nat} (hi : i < 16)
    (hj : j < 16) (hij : i ≠ j) (d : Nat) :
    tsum g (.node st (upd (upd (fun _ => .empty) j (.leaf k' p' v')) i (.leaf k p v))) d
      = g (d + 1) + g (d + 1) := by
  obtain ⟨C, h⟩ := tsum_upd g (upd (fun _ => (.empty : T K P V)) j (.leaf k' p' v')) hi d
  have h0 := h st .empty
  have e : upd (upd (fun _ => (.empty : T K P V)) j (.leaf k' p' v')) i .empty
      = upd (fun _ => (.empty : T K P V)) j (.leaf k' p' v') := by
    funext x; simp only [upd]
    by_cases h1 : x = i
    · subst h1; simp [hij]
    · simp [h1]
  rw [e, tsum_upd_empty _ _ _ hj] at h0
  rw [h]
  simp only [tsum] at h0 ⊢
  omega

/-- A branch with a single item. -/
theorem Rep.single {c : Cfg K} {m : Nat → Option (Obj K V)} {x : T K Ptr V} {d b r : Nat} {lk lkc : Link}
    {G : Nat → Prop} (hr : r < 16) (hd : d ≠ 0) (hx : x.isNode = true)
    (hptr : lk.ptr = .blk b) (hpm : lk.pmap = bitOf r) (htm : lk.tmap.getLsbD r = false)
    (hm : m b = some (.links ((List.replicate 4 {}).set 0 lkc)))
    (hG : ¬ G b) (hrep : Rep c m x (d + 1) lkc G) :
    Rep c m (.node lk.tmap (upd (fun _ => .empty) r x)) d lk (fun a => a = b ∨ G a) := by
  have hxe : x.isEmpty = false := by cases x <;> simp_all [isNode, isEmpty]
  have hxl : x.isLeaf = false := by cases x <;> simp_all [isNode, isLeaf]
  have hcnt := cnt_set (f := fun _ => false) (g := occ (upd (fun _ => (.empty : T K Ptr V)) r x)) (i := r) rfl
    (by simp [occ, hxe]) (fun j hj => by simp [occ, upd, hj, isEmpty])
  have hz : ∀ n, cnt (fun _ => false) n = 0 := fun n => cnt_eq_zero.2 (fun _ _ => rfl)
  refine ⟨b, (List.replicate 4 {}).set 0 lkc, fun i a => i = r ∧ G a, ?_, ?_, ?_⟩
  · refine ⟨hptr, hm, ?_, ?_, ?_⟩
    · rw [hcnt 16, hz, if_pos hr]; simp [capOf, hd]
    · have := BitsAre.zero.or_bit (g := occ (upd (fun _ => (.empty : T K Ptr V)) r x)) hr
        (by simp [occ, hxe]) (fun j hj => by simp [occ, upd, hj, isEmpty])
      rw [hpm]; simpa using this
    · refine ⟨fun i => ?_, fun i _ hs => ?_⟩
      · have : lf (upd (fun _ => (.empty : T K Ptr V)) r x) i = false := by
          by_cases hi : i = r
          · subst hi; simp [lf, hxl]
          · simp [lf, upd, hi, isLeaf]
        rw [this]; simp
      · have : i ≠ r := fun e => by rw [e, htm] at hs; cases hs
        rw [upd_other _ _ this]
  · refine ⟨fun a => ?_, fun i hi h => hG h.2, fun i j a _ _ h1 h2 => h1.1.trans h2.1.symm⟩
    constructor
    · rintro (h | h)
      · exact Or.inl h
      · exact Or.inr ⟨r, hr, rfl, h⟩
    · rintro (h | ⟨i, _, _, h⟩)
      · exact Or.inl h
      · exact Or.inr h
  · intro i hi
    by_cases hne : i = r
    · subst hne
      rw [upd_same, hcnt i, hz, if_neg (by omega : ¬ i < i)]
      refine Rep.congr_foot (F := G) hrep (fun a => ?_)
      simp
    · rw [upd_other _ _ hne]
      intro a h; exact hne h.1

/-- A branch with two keys. -/
theorem Rep.pair {c : Cfg K} {m : Nat → Option (Obj K V)} {k k' : K} {p p' : Ptr} {v v' : V} {d b r r' : Nat}
    {lk : Link} {xs : List Link}
    (hr : r < 16) (hr' : r' < 16) (hne : r ≠ r') (hd : d ≠ 0)
    (hptr : lk.ptr = .blk b) (hpm : lk.pmap = bitOf r ||| bitOf r') (htm : lk.tmap = lk.pmap)
    (hm : m b = some (.links xs)) (hlen : xs.length = 4)
    (h0 : xs[0]? = some (if r < r' then mkLink c k p else mkLink c k' p'))
    (h1 : xs[1]? = some (if r < r' then mkLink c k' p' else mkLink c k p))
    (hk : KvAt c m k p v) (hk' : KvAt c m k' p' v')
    (hp : p ≠ .blk b) (hp' : p' ≠ .blk b) (hpp : ∀ a, p = .blk a → p' ≠ .blk a) :
    Rep c m (.node 0#32 (upd (upd (fun _ => .empty) r' (.leaf k' p' v')) r (.leaf k p v))) d lk
      (fun a => a = b ∨ p = .blk a ∨ p' = .blk a) := by
  have hz : ∀ n, cnt (fun _ => false) n = 0 := fun n => cnt_eq_zero.2 (fun _ _ => rfl)
  have hc1 := cnt_set (f := fun _ => false) (g := occ (upd (fun _ => (.empty : T K Ptr V)) r' (.leaf k' p' v')))
    (i := r') rfl (by simp [occ, isEmpty]) (fun j hj => by simp [occ, upd, hj, isEmpty])
  have hc2 := cnt_set (f := occ (upd (fun _ => (.empty : T K Ptr V)) r' (.leaf k' p' v')))
    (g := occ (upd (upd (fun _ => (.empty : T K Ptr V)) r' (.leaf k' p' v')) r (.leaf k p v)))
    (i := r) (by simp [occ, upd, hne, isEmpty]) (by simp [occ, isEmpty]) (fun j hj => occ_upd_other hj)
  have hb1 : BitsAre (0#32 ||| bitOf r') (occ (upd (fun _ => (.empty : T K Ptr V)) r' (.leaf k' p' v'))) :=
    BitsAre.zero.or_bit hr' (by simp [occ, isEmpty]) (fun j hj => by simp [occ, upd, hj, isEmpty])
  have hb2 : BitsAre (bitOf r' ||| bitOf r)
      (occ (upd (upd (fun _ => (.empty : T K Ptr V)) r' (.leaf k' p' v')) r (.leaf k p v))) := by
    have := hb1.or_bit (g := occ (upd (upd (fun _ => (.empty : T K Ptr V)) r' (.leaf k' p' v')) r (.leaf k p v)))
      hr (by simp [occ, isEmpty]) (fun j hj => occ_upd_other hj)
    simpa using this
  rw [BitVec.or_comm] at hb2
  refine ⟨b, xs, fun i a => (i = r ∧ p = .blk a) ∨ (i = r' ∧ p' = .blk a), ?_, ?_, ?_⟩
  · refine ⟨hptr, hm, ?_, ?_, ?_⟩
    · rw [hc2 16, hc1 16, hz, if_pos hr, if_pos hr']; simp [capOf, hd, hlen]
    · rw [hpm]; exact hb2
    · refine ⟨fun i => ?_, fun i _ hs => by simp at hs⟩
      rw [htm, hpm, hb2 i]
      simp only [occ, lf, upd]
      split
      · simp [isEmpty, isLeaf]
      · split <;> simp [isEmpty, isLeaf]
  · refine ⟨fun a => ?_, fun i hi => ?_, fun i j a _ _ h1 h2 => ?_⟩
    · constructor
      · rintro (h | h | h)
        · exact Or.inl h
        · exact Or.inr ⟨r, hr, Or.inl ⟨rfl, h⟩⟩
        · exact Or.inr ⟨r', hr', Or.inr ⟨rfl, h⟩⟩
      · rintro (h | ⟨i, _, ⟨_, h⟩ | ⟨_, h⟩⟩)
        · exact Or.inl h
        · exact Or.inr (Or.inl h)
        · exact Or.inr (Or.inr h)
    · rintro (⟨_, h⟩ | ⟨_, h⟩)
      · exact hp h
      · exact hp' h
    · rcases h1 with ⟨e1, q1⟩ | ⟨e1, q1⟩ <;> rcases h2 with ⟨e2, q2⟩ | ⟨e2, q2⟩
      · rw [e1, e2]
      · exact absurd q2 (hpp a q1)
      · exact absurd q1 (hpp a q2)
      · rw [e1, e2]
  · intro i hi
    rw [hc2 i, hc1 i, hz]
    by_cases hir : i = r
    · subst hir
      rw [upd_same]
      have hx : xs.getD (0 + (if r' < i then 1 else 0) + (if i < i then 1 else 0)) {} = mkLink c k p := by
        apply getD_of_getElem?
        by_cases hlt : i < r'
        · rw [if_neg (by omega), if_neg (by omega)]
          simpa [hlt] using h0
        · rw [if_pos (by omega), if_neg (by omega)]
          simpa [hlt] using h1
      rw [hx]
      exact Rep.leaf_mk rfl hk fun a => by simp [hne]
    · rw [upd_other _ _ hir]
      by_cases hir' : i = r'
      · subst hir'
        rw [upd_same]
        have hx : xs.getD (0 + (if i < i then 1 else 0) + (if r < i then 1 else 0)) {} = mkLink c k' p' := by
          apply getD_of_getElem?
          by_cases hlt : r < i
          · rw [if_neg (by omega : ¬ i < i), if_pos hlt]
            simpa [hlt] using h1
          · rw [if_neg (by omega : ¬ i < i), if_neg hlt]
            simpa [hlt] using h0
        rw [hx]
        exact Rep.leaf_mk rfl hk' fun a => by simp [hir]
      · rw [upd_other _ _ hir']
        rintro a (⟨h, _⟩ | ⟨h, _⟩)
        · exact hir h
        · exact hir' h

/-! ### The split loop -/

/-- What the split loop leaves behind: the item `(b0, i0)` now represents the branches `t'`. -/
structure SplitPost (c : Cfg K) (h : Nat) (s s' : St K V) (b0 i0 : Nat) (xs0 : List Link) (lk' : Link)
    (F' : Nat → Prop) (cptr : Ptr) (t' : T K Ptr V) (d : Nat) : Prop where
  link : s'.mem b0 = some (.links (xs0.set i0 lk'))
  frame : ∀ a, a < s.next → a ≠ b0 → s'.mem a = s.mem a
  next : s.next ≤ s'.next
  foot : ∀ a, F' a → cptr = .blk a ∨ (s.next ≤ a ∧ a < s'.next)
  rep : Rep c s'.mem t' d lk' F'
  ptr : lk'.ptr = .blk s.next
  roots : s'.roots = fun a => if a = h then
    { s.roots a with len := (s.roots a).len + 1, dep := (s.roots a).dep + BitVec.ofNat 64 (dsum t' d) }
    else s.roots a

theorem splitT_succ {P : Type} (nb : K → Nat → Nat) (k k' : K) (p p' : P) (v v' : V) (st : BitVec 32) (n d : Nat) :
    splitT nb k p v k' p' v' st (n + 1) d =
      if nb k d = nb k' d then
        .node st (upd (fun _ => .empty) (nb k d) (splitT nb k p v k' p' v' 0#32 n (d + 1)))
      else
        .node 0#32 (upd (upd (fun _ => .empty) (nb k' d) (.leaf k' p' v')) (nb k d) (.leaf k p v)) := rfl

theorem splitT_isNode {P : Type} (nb : K → Nat → Nat) (k k' : K) (p p' : P) (v v' : V) (st : BitVec 32) (n d : Nat) :
    (splitT nb k p v k' p' v' st (n + 1) d).isNode = true := by
  rw [splitT]; split <;> rfl

theorem split_simQ {R : Type} {c : Cfg K} {sd : Seed} {H : K → Nat → BitVec 64} {ins : Ins K V R}
    {key ckey : K} {vSplit : V} {rNew : R} {Q : (Nat → Option (Obj K V)) → Ptr → Prop} (hQ : CellProp Q)
    (hi : ∀ s, ∃ p s', ins.newSplit s = .ok ((p, rNew), s') ∧ NewCell c s s' key p vSplit ∧ Q s'.mem p) (h : Nat) {B : Nat} (hB : B < 256)
    {cptr : Ptr} {cv : V} :
    ∀ (n d fuel : Nat) (s : St K V) (b0 i0 : Nat) (xs0 : List Link) (lk : Link),
    (∀ k j, d < j → j < 256 → j % 16 = 0 → c.digest sd k (j / 16 + 1) j = H k (j / 16)) →
    (∃ j, d + 1 ≤ j ∧ j ≤ B ∧ nbOf H key j ≠ nbOf H ckey j) → B < d + n + 1 → B < d + fuel + 1 →
    s.mem b0 = some (.links xs0) → xs0[i0]? = some lk →
    (nbOf H key (d + 1) = nbOf H ckey (d + 1) → lk.tmap.getLsbD (nbOf H key (d + 1)) = false) → b0 < s.next →
    KvAt c s.mem ckey cptr cv → (∀ a, cptr = .blk a → a < s.next ∧ a ≠ b0) →
    ∃ p s' lk' F',
      split c sd h key ckey cptr ins fuel ⟨.blk b0, i0⟩ d (hdAt H key d) (hdAt H ckey d) (d / 16 + 1)
        (d / 16 + 1) s = .ok (rNew, s') ∧
      SplitPost c h s s' b0 i0 xs0 lk' F' cptr
        (splitT (nbOf H) key p vSplit ckey cptr cv lk.tmap n (d + 1)) (d + 1) ∧ Q s'.mem p := by
  intro n
  induction n with
  | zero => intro d fuel s b0 i0 xs0 lk L hs hn; obtain ⟨j, h1, h2, _⟩ := hs; omega
  | succ n ih =>
    intro d fuel s b0 i0 xs0 lk L hs hn hfu hmem hget htm hlt hkv hcp
    obtain ⟨j, hj1, hj2, hj3⟩ := hs
    obtain ⟨fuel, rfl⟩ : ∃ f, fuel = f + 1 := ⟨fuel - 1, by omega⟩
    have hi0 : i0 < xs0.length := by
      rcases Nat.lt_or_ge i0 xs0.length with h' | h'
      · exact h'
      · rw [List.getElem?_eq_none h'] at hget; cases hget
    have hmod : (d + 1) % 256 = d + 1 := by omega
    have hw : (if (d + 1) % 16 ≠ 0 then d / 16 + 1 else d / 16 + 1 + 1) = (d + 1) / 16 + 1 := by
      split <;> omega
    have hrk := nbOf_lt H key (d + 1)
    have hrc := nbOf_lt H ckey (d + 1)
    rw [split]
    simp only [hmod, next_hd' key (L key (d + 1) (by omega) (by omega)), next_hd' ckey (L ckey (d + 1) (by omega) (by omega)), hw]
    rw [bind_ok (modLink_ok hmem hget)]
    have e1 : radixOf (hdAt H key (d + 1)) = nbOf H key (d + 1) := rfl
    have e2 : radixOf (hdAt H ckey (d + 1)) = nbOf H ckey (d + 1) := rfl
    simp only [e1, e2, splitT_succ]
    by_cases heq : nbOf H key (d + 1) = nbOf H ckey (d + 1)
    · simp only [if_pos heq]
      rw [if_neg (by rw [heq]; simp)]
      rw [bind_ok (newLinkArray_run 1 (by omega) (by omega) _)]
      rw [bind_ok (modLink_ok (xs := xs0.set i0 ⟨lk.ptr, bitOf (nbOf H key (d + 1)) ||| bitOf (nbOf H ckey (d + 1)), lk.tmap⟩)
        (x := ⟨lk.ptr, bitOf (nbOf H key (d + 1)) ||| bitOf (nbOf H ckey (d + 1)), lk.tmap⟩)
        (by simp [show b0 ≠ s.next by omega]) (by simp [hi0]))]
      simp only [put_next, List.set_set]
      have hbr : bitOf (nbOf H key (d + 1)) ||| bitOf (nbOf H ckey (d + 1)) = bitOf (nbOf H key (d + 1)) := by
        rw [← heq]; simp
      rw [hbr]
      obtain ⟨p, s', lk', F', e3, hp, hq⟩ := ih (d + 1) fuel (b0 := s.next) (i0 := 0)
        (xs0 := List.replicate (4 * ((1 + 3) / 4)) {}) (lk := {})
        (fun k j h1 h2 h3 => L k j (by omega) h2 h3)
        (by
          refine ⟨j, ?_, hj2, hj3⟩
          rcases Nat.lt_or_ge (d + 1) j with h' | h'
          · omega
          · have : j = d + 1 := by omega
            subst this; exact absurd heq hj3)
        (by omega) (by omega)
        (s := ((s.put b0 (.links (xs0.set i0 ⟨lk.ptr, bitOf (nbOf H key (d + 1)), lk.tmap⟩))).push (.links (List.replicate (4 * ((1 + 3) / 4)) {}))).put b0
          (.links (xs0.set i0 ⟨.blk s.next, bitOf (nbOf H key (d + 1)), lk.tmap⟩)))
        (by simp [show s.next ≠ b0 by omega]) (by simp) (fun _ => by simp) (by simp)
        (hkv.frame (fun a ha => by
          have := hcp a ha
          simp [this.2, show a ≠ s.next by omega]))
        (fun a ha => by have := hcp a ha; simp; omega)
      refine ⟨p, s', ⟨.blk s.next, bitOf (nbOf H key (d + 1)), lk.tmap⟩, (fun a => a = s.next ∨ F' a), e3, ?_, hq⟩
      obtain ⟨n, rfl⟩ : ∃ m, n = m + 1 := ⟨n - 1, by
        have : j ≠ d + 1 := fun e => hj3 (e ▸ heq)
        omega⟩
      have hb0 : s'.mem b0 = some (.links (xs0.set i0
          ⟨.blk s.next, bitOf (nbOf H key (d + 1)), lk.tmap⟩)) := by
        rw [hp.frame b0 (by simp; omega) (by omega)]; simp
      refine ⟨hb0, ?_, ?_, ?_, Rep.single (lk := ⟨.blk s.next, bitOf (nbOf H key (d + 1)), lk.tmap⟩)
        (x := splitT (nbOf H) key p vSplit ckey cptr cv 0#32 (n + 1) (d + 1 + 1)) (b := s.next) (G := F') (lkc := lk') hrk (by omega)
        (splitT_isNode ..) rfl rfl (htm heq) ?_ ?_ hp.rep, rfl, ?_⟩
      · intro a h1 h2
        rw [hp.frame a (by simp; omega) (by omega)]
        simp [h2, show a ≠ s.next by omega]
      · have := hp.next; simp at this; omega
      · rintro a (h1 | h1)
        · have := hp.next; simp at this; right; omega
        · rcases hp.foot a h1 with h2 | h2
          · exact Or.inl h2
          · simp at h2; right; omega
      · exact hp.link
      · intro hF
        rcases hp.foot _ hF with h2 | h2
        · have := hcp _ h2; omega
        · simp only [put_next, push_next] at h2; omega
      · rw [hp.roots]
        unfold dsum
        rw [tsum_upd_empty _ _ _ hrk]
        rfl
    · simp only [if_neg heq]
      rw [if_pos (by rw [Ne, bitOf_inj (by omega) (by omega)]; exact heq)]
      rw [bind_ok (modLink_ok (xs := xs0.set i0 ⟨lk.ptr, bitOf (nbOf H key (d + 1)) ||| bitOf (nbOf H ckey (d + 1)), lk.tmap⟩)
        (x := ⟨lk.ptr, bitOf (nbOf H key (d + 1)) ||| bitOf (nbOf H ckey (d + 1)), lk.tmap⟩)
        (by simp) (by simp [hi0]))]
      simp only [put_put, List.set_set]
      rw [bind_ok (newLinkArray_run 2 (by omega) (by omega) _)]
      rw [bind_ok (modLink_ok (xs := xs0.set i0 ⟨lk.ptr, bitOf (nbOf H key (d + 1)) ||| bitOf (nbOf H ckey (d + 1)), bitOf (nbOf H key (d + 1)) ||| bitOf (nbOf H ckey (d + 1))⟩)
        (x := ⟨lk.ptr, bitOf (nbOf H key (d + 1)) ||| bitOf (nbOf H ckey (d + 1)), bitOf (nbOf H key (d + 1)) ||| bitOf (nbOf H ckey (d + 1))⟩)
        (by simp [show b0 ≠ s.next by omega]) (by simp [hi0]))]
      simp only [put_next, List.set_set]
      generalize hs1 : ((s.put b0 (.links (xs0.set i0 ⟨lk.ptr, bitOf (nbOf H key (d + 1)) ||| bitOf (nbOf H ckey (d + 1)), bitOf (nbOf H key (d + 1)) ||| bitOf (nbOf H ckey (d + 1))⟩))).push
          (.links (List.replicate (4 * ((2 + 3) / 4)) {}))).put b0
          (.links (xs0.set i0 ⟨.blk s.next, bitOf (nbOf H key (d + 1)) ||| bitOf (nbOf H ckey (d + 1)), bitOf (nbOf H key (d + 1)) ||| bitOf (nbOf H ckey (d + 1))⟩)) = s1
      have hs1n : s1.next = s.next + 1 := by rw [← hs1]; simp
      have hs1r : s1.roots = s.roots := by rw [← hs1]; simp
      have hs1f : ∀ a, a < s.next → a ≠ b0 → s1.mem a = s.mem a := by
        intro a h1 h2; rw [← hs1]; simp [h2, show a ≠ s.next by omega]
      have hs1b0 : s1.mem b0 = some (.links (xs0.set i0 ⟨.blk s.next, bitOf (nbOf H key (d + 1)) ||| bitOf (nbOf H ckey (d + 1)), bitOf (nbOf H key (d + 1)) ||| bitOf (nbOf H ckey (d + 1))⟩)) := by
        rw [← hs1]; simp
      have hs1a : s1.mem s.next = some (.links (List.replicate 4 {})) := by
        rw [← hs1]; simp [show s.next ≠ b0 by omega]
      obtain ⟨p, s2, e3, hn2, hq⟩ := hi s1
      rw [bind_ok e3]
      have hs2b0 : s2.mem b0 = some (.links (xs0.set i0 ⟨.blk s.next, bitOf (nbOf H key (d + 1)) ||| bitOf (nbOf H ckey (d + 1)), bitOf (nbOf H key (d + 1)) ||| bitOf (nbOf H ckey (d + 1))⟩)) := by
        rw [hn2.frame _ (by omega), hs1b0]
      simp only
      rw [bind_ok (load_ok hs2b0 (x := ⟨.blk s.next, bitOf (nbOf H key (d + 1)) ||| bitOf (nbOf H ckey (d + 1)), bitOf (nbOf H key (d + 1)) ||| bitOf (nbOf H ckey (d + 1))⟩)
        (by simp [hi0]))]
      have hs2a : s2.mem s.next = some (.links (List.replicate 4 {})) := by
        rw [hn2.frame _ (by omega), hs1a]
      have hs2n := hn2.next
      have key2 : ∀ (k0 k1 : K) (p0 p1 : Ptr),
          (do modLink ⟨.blk s.next, 0⟩ (putLink c k0 p0)
              modLink ⟨.blk s.next, 1⟩ (putLink c k1 p1)
              modRoot h fun m => { m with len := m.len + 1, dep := m.dep + BitVec.ofNat 64 (d + 1) * 2 }
              pure rNew : M K V R) s2
          = .ok (rNew, (s2.put s.next (.links [mkLink c k0 p0, mkLink c k1 p1, {}, {}])).root h fun m =>
              { m with len := m.len + 1, dep := m.dep + BitVec.ofNat 64 (d + 1) * 2 }) := by
        intro k0 k1 p0 p1
        rw [bind_ok (modLink_ok hs2a (x := {}) (by simp)), putLink_fresh,
          bind_ok (modLink_ok (xs := (List.replicate 4 {}).set 0 (mkLink c k0 p0)) (x := {}) (by simp) (by simp)), putLink_fresh,
          bind_ok (modRoot_run ..), put_put]
        rfl
      simp only
      have key3 : ∃ l0 l1,
          l0 = (if nbOf H key (d + 1) < nbOf H ckey (d + 1) then mkLink c key p else mkLink c ckey cptr) ∧
          l1 = (if nbOf H key (d + 1) < nbOf H ckey (d + 1) then mkLink c ckey cptr else mkLink c key p) ∧
          (if bitOf (nbOf H key (d + 1)) < bitOf (nbOf H ckey (d + 1)) then (do
              modLink ⟨.blk s.next, 0⟩ (putLink c key p)
              modLink ⟨.blk s.next, 1⟩ (putLink c ckey cptr)
              modRoot h fun m => { m with len := m.len + 1, dep := m.dep + BitVec.ofNat 64 (d + 1) * 2 }
              pure rNew : M K V R)
            else (do
              modLink ⟨.blk s.next, 0⟩ (putLink c ckey cptr)
              modLink ⟨.blk s.next, 1⟩ (putLink c key p)
              modRoot h fun m => { m with len := m.len + 1, dep := m.dep + BitVec.ofNat 64 (d + 1) * 2 }
              pure rNew)) s2
          = .ok (rNew, (s2.put s.next (.links [l0, l1, {}, {}])).root h fun m =>
              { m with len := m.len + 1, dep := m.dep + BitVec.ofNat 64 (d + 1) * 2 }) := by
        simp only [bitOf_lt (show nbOf H key (d + 1) < 32 by omega) (show nbOf H ckey (d + 1) < 32 by omega)]
        by_cases hlt : nbOf H key (d + 1) < nbOf H ckey (d + 1)
        · simp only [if_pos hlt]; exact ⟨_, _, rfl, rfl, key2 _ _ _ _⟩
        · simp only [if_neg hlt]; exact ⟨_, _, rfl, rfl, key2 _ _ _ _⟩
      obtain ⟨l0, l1, el0, el1, e4⟩ := key3
      have hfin : ∀ a, a < s.next → a ≠ b0 → s2.mem a = s.mem a := by
        intro a h1 h2; rw [hn2.frame a (by omega), hs1f a h1 h2]
      refine ⟨p, _, ⟨.blk s.next, bitOf (nbOf H key (d + 1)) ||| bitOf (nbOf H ckey (d + 1)), bitOf (nbOf H key (d + 1)) ||| bitOf (nbOf H ckey (d + 1))⟩,
        (fun a => a = s.next ∨ p = .blk a ∨ cptr = .blk a), e4, ?_, hQ _ _ _ (fun a ha => by
          have := hn2.fresh a ha
          simp only [root_mem, put_mem]
          rw [if_neg (by omega)]) hq⟩
      refine ⟨?_, ?_, ?_, ?_, Rep.pair (b := s.next) (xs := [l0, l1, {}, {}]) hrk hrc heq (by omega) rfl rfl
        rfl (by simp) rfl (by simp [el0]) (by simp [el1]) ?_ ?_ ?_ ?_ ?_, rfl, ?_⟩
      · simp only [root_mem, put_mem]
        rw [if_neg (by omega), hn2.frame b0 (by omega), hs1b0]
      · intro a h1 h2
        simp only [root_mem, put_mem]
        rw [if_neg (by omega), hfin a h1 h2]
      · simp; omega
      · rintro a (h1 | h1 | h1)
        · right; simp; omega
        · have := hn2.fresh a h1; right; simp; omega
        · exact Or.inl h1
      · refine hn2.kv.frame (fun a ha => ?_)
        have := hn2.fresh a ha
        simp only [root_mem, put_mem]
        rw [if_neg (by omega)]
      · refine hkv.frame (fun a ha => ?_)
        have := hcp a ha
        simp only [root_mem, put_mem]
        rw [if_neg (by omega), hfin a this.1 this.2]
      · intro he; have := hn2.fresh _ he; omega
      · intro he; have := hcp _ he; omega
      · intro a h1 h2
        have := hn2.fresh a h1; have := hcp a h2; omega
      · unfold dsum
        rw [tsum_pair _ _ _ _ _ _ _ _ hrk hrc heq]
        funext a
        simp only [root_roots, put_roots, hn2.roots, hs1r]
        have : (BitVec.ofNat 64 (d + 1) * 2 : BitVec 64) = BitVec.ofNat 64 (d + 1 + 1 - 1 + (d + 1 + 1 - 1)) := by
          rw [show d + 1 + 1 - 1 + (d + 1 + 1 - 1) = (d + 1) * 2 by omega, BitVec.ofNat_mul]
          rfl
        rw [this]

theorem split_sim {R : Type} {c : Cfg K} {sd : Seed} {H : K → Nat → BitVec 64} {ins : Ins K V R}
    {key ckey : K} {vSplit : V} {rNew : R}
    (hi : ∀ s, ∃ p s', ins.newSplit s = .ok ((p, rNew), s') ∧ NewCell c s s' key p vSplit) (h : Nat) {B : Nat} (hB : B < 256)
    {cptr : Ptr} {cv : V} :
    ∀ (n d fuel : Nat) (s : St K V) (b0 i0 : Nat) (xs0 : List Link) (lk : Link),
    (∀ k j, d < j → j < 256 → j % 16 = 0 → c.digest sd k (j / 16 + 1) j = H k (j / 16)) →
    (∃ j, d + 1 ≤ j ∧ j ≤ B ∧ nbOf H key j ≠ nbOf H ckey j) → B < d + n + 1 → B < d + fuel + 1 →
    s.mem b0 = some (.links xs0) → xs0[i0]? = some lk →
    (nbOf H key (d + 1) = nbOf H ckey (d + 1) → lk.tmap.getLsbD (nbOf H key (d + 1)) = false) → b0 < s.next →
    KvAt c s.mem ckey cptr cv → (∀ a, cptr = .blk a → a < s.next ∧ a ≠ b0) →
    ∃ p s' lk' F',
      split c sd h key ckey cptr ins fuel ⟨.blk b0, i0⟩ d (hdAt H key d) (hdAt H ckey d) (d / 16 + 1)
        (d / 16 + 1) s = .ok (rNew, s') ∧
      SplitPost c h s s' b0 i0 xs0 lk' F' cptr
        (splitT (nbOf H) key p vSplit ckey cptr cv lk.tmap n (d + 1)) (d + 1) := by
  intro n d fuel s b0 i0 xs0 lk h1 h2 h3 h4 h5 h6 h7 h8 h9 h10
  obtain ⟨p, s', lk', F', e, hp, _⟩ := split_simQ (Q := fun _ _ => True) (fun _ _ _ _ h => h)
    (fun s => by obtain ⟨p, s', e, h⟩ := hi s; exact ⟨p, s', e, h, trivial⟩) h hB n d fuel s b0 i0 xs0 lk h1 h2 h3 h4 h5 h6 h7 h8 h9 h10
  exact ⟨p, s', lk', F', e, hp⟩

/-! ### A key-value item in the way -/

theorem size_splitT {P : Type} {nb : K → Nat → Nat} (hnb : ∀ k d, nb k d < 16) (k : K) (p : P) (v : V) (k' : K)
    (p' : P) (v' : V) (st : BitVec 32) (n d : Nat) (hs : ∃ j, d ≤ j ∧ j < d + n ∧ nb k j ≠ nb k' j) :
    size (splitT nb k p v k' p' v' st n d) d = 2 := by
  classical
  rw [size_eq_length, (leaves_splitT hnb k p v k' p' v' st n d hs).length_eq]; rfl

variable [DecidableEq K]

theorem conflict_simQ {R : Type} {c : Cfg K} {sd : Seed} {H H' : K → Nat → BitVec 64} {ins : Ins K V R}
    {key : K} {f : V → V} {vSlot vSplit : V} {gHit : V → R} {rNew : R}
    {Q : (Nat → Option (Obj K V)) → Ptr → Prop} (hQ : CellProp Q) (hq : ∀ s p s', ins.newSplit s = .ok ((p, rNew), s') → Q s'.mem p)
    (L : Laws c sd H)
    (hi : InsOk c sd H { ins with chash := fun _ _ ckey d _ => .ok (hdAt H ckey d, d / 16 + 1) } key f vSlot vSplit gHit rNew)
    (h : Nat) {B n : Nat} (hB : B < 256) (hn : B < n)
    {s : St K V} {b0 i0 : Nat} {xs0 : List Link} {lk : Link} {F : Nat → Prop} {cur : Cur}
    {st : BitVec 32} {ch : Nat → T K Ptr V} {d b : Nat} {xs : List Link} {G : Nat → Nat → Prop} {fuel : Nat}
    (hl : Loc s b0 i0 xs0 lk F) (ha : Arr s.mem st ch d lk b xs) (ho : Own F b G)
    (hrep : ∀ i, i < 16 → Rep c s.mem (ch i) (d + 1) (xs.getD (cnt (occ ch) i) {}) (G i))
    (hc : CurOk H key d cur) (hcl : cur.l = ⟨.blk b0, i0⟩) {ckey : K} {cptr : Ptr} {cv : V}
    (hch : ch (nbOf H key d) = .leaf ckey cptr cv) (hfu : B < fuel) 
    (hH : key ≠ ckey → H' key = H key)
    (hch' : key ≠ ckey → ins.chash sd key ckey d fuel = .ok (hdAt H' ckey d, d / 16 + 1))
    (hdig : ∀ k j, d < j → j < 256 → j % 16 = 0 → c.digest sd k (j / 16 + 1) j = H' k (j / 16))
    (hcn : key ≠ ckey → ins.guard = false ∨ nbOf H' ckey d = nbOf H' key d)
    (hsep : key ≠ ckey → ∃ j, d + 1 ≤ j ∧ j ≤ B ∧ nbOf H' key j ≠ nbOf H' ckey j)
    (hsafe : key ≠ ckey → nbOf H' key (d + 1) = nbOf H' ckey (d + 1) → (c.encT ckey).getLsbD (nbOf H' key (d + 1)) = false) :
    ∃ p s' lk' F', conflict c sd h fuel key ins cur s
        = .ok (if key = ckey then gHit cv else rNew, s') ∧
      Upd c h s s' b0 i0 xs0 lk' F F' (.node st ch)
        (.node st (upd ch (nbOf H key d)
          (T.ins (nbOf H') c.encT n key p vSlot vSplit f (.leaf ckey cptr cv) (d + 1)))) d ∧ (key ≠ ckey → Q s'.mem p) := by
  have hr16 := nbOf_lt H key d
  have hcr0 := hrep _ hr16
  rw [hch] at hcr0
  obtain ⟨q, h1, h2, h3, hqp⟩ := hcr0
  have hocc : occ ch (nbOf H key d) = true := by simp [occ, hch, isEmpty]
  have hlc := hl.child ha ho hr16 hocc
  have hbF : F b := (ho.foot b).2 (Or.inl rfl)
  have hbb0 : b ≠ b0 := fun e => hl.nF (e ▸ hbF)
  have hGF : ∀ i a, i < 16 → G i a → F a := fun i a hi hg => (ho.foot a).2 (Or.inr ⟨i, hi, hg⟩)
  rw [conflict, bind_ok (itemRef_ok hl ha hc hcl), bind_ok (load_ok ha.mem (ha.slot hr16 hocc)), h1,
    bind_ok (readKey_ok L (m := s.mem) h2)]
  by_cases hk : key = ckey
  · subst hk
    rw [if_pos ((L.eq_iff _ _).2 rfl), if_pos rfl]
    obtain ⟨s', e1, hcs⟩ := hi.hit s q cv h2
    have hu : Upd c h s s' b (cnt (occ ch) (nbOf H key d)) xs (xs.getD (cnt (occ ch) (nbOf H key d)) {})
        (G (nbOf H key d)) (G (nbOf H key d)) (ch (nbOf H key d)) (.leaf key cptr (f cv)) (d + 1) := by
      refine ⟨?_, ?_, by rw [hcs.next]; exact Nat.le_refl _, fun a hg => Or.inl hg, ?_, ?_⟩
      · rw [set_self hlc.get, hcs.frame b (fun e => ho.nob _ hr16 ((h3 b).2 e)), ha.mem]
      · intro a _ _ hng
        exact hcs.frame a (fun e => hng ((h3 a).2 e))
      · rw [h1]; exact ⟨q, rfl, hcs.kv, h3, hqp⟩
      · rw [hch]
        refine ⟨fun a _ => by rw [hcs.roots], by rw [hcs.roots], ?_, ?_⟩
        · rw [hcs.roots]; rfl
        · rw [hcs.roots]; rfl
    have hins : ∀ p, T.ins (nbOf H') c.encT n key p vSlot vSplit f (.leaf key cptr cv) (d + 1)
        = .leaf key cptr (f cv) := fun p => by rw [T.ins, if_pos rfl]
    have hu' := Upd.lift hl ha ho hrep hr16 hocc hu rfl (by rw [hch]; rfl)
    rw [← hins cptr] at hu'
    exact ⟨cptr, s', lk, _, e1, hu', fun h => absurd rfl h⟩
  · rw [if_neg (fun e => hk ((L.eq_iff _ _).1 e)), if_neg hk]
    obtain ⟨j, hj1, hj2, hj3⟩ := hsep hk
    have hnk : ∀ j, nbOf H' key j = nbOf H key j := fun j => by unfold nbOf hdAt; rw [hH hk]
    have hdk : hdAt H key d = hdAt H' key d := by unfold hdAt; rw [hH hk]
    rw [bind_ok (liftE_ok (by rw [hc.d]; exact hch' hk) s)]
    simp only
    have hrc : radixOf (hdAt H' ckey d) = nbOf H' ckey d := rfl
    rw [hrc, hc.radix, if_neg (by rcases hcn hk with g | g <;> simp [g, hnk]), hcl]
    rw [bind_ok (modLink_ok hl.mem hl.get), bind_ok (modRoot_run ..), hc.d, hc.hd, hc.w, hdk]
    have hcp : ∀ a, q = .blk a → a < s.next ∧ a ≠ b := by
      intro a ha'
      have hg := (h3 a).2 ha'
      exact ⟨hlc.bound a hg, fun e => ho.nob _ hr16 (e ▸ hg)⟩
    have hcb0 : ∀ a, q = .blk a → a ≠ b0 := fun a ha' e => hl.nF (e ▸ hGF _ a hr16 ((h3 a).2 ha'))
    generalize hs1 : St.root (s.put b0 (.links (xs0.set i0
      { ptr := lk.ptr, pmap := lk.pmap, tmap := lk.tmap &&& ~~~bitOf (nbOf H key d) }))) h
        (fun m => { m with dep := m.dep - BitVec.ofNat 64 d }) = s1
    have hs1m : ∀ a, a ≠ b0 → s1.mem a = s.mem a := by intro a h'; rw [← hs1]; simp [h']
    have hs1n : s1.next = s.next := by rw [← hs1]; simp
    have hs1b0 : s1.mem b0 = some (.links (xs0.set i0
      { ptr := lk.ptr, pmap := lk.pmap, tmap := lk.tmap &&& ~~~bitOf (nbOf H key d) })) := by
      rw [← hs1]; simp
    obtain ⟨p, s2, lkc, F2, e2, hp, hq2⟩ := split_simQ (H := H') (ins := ins) hQ
      (fun s => by obtain ⟨p, s', e, h⟩ := hi.newSplit s; exact ⟨p, s', e, h, hq s p s' e⟩) h (B := B) (by omega)
      (cv := cv) (cptr := c.kept q) n d fuel s1 b (cnt (occ ch) (nbOf H key d)) xs (mkLink c ckey q)
      hdig ⟨j, hj1, hj2, hj3⟩ (by omega) (by omega)
      (by rw [hs1m b hbb0]; exact ha.mem) (by rw [ha.slot hr16 hocc, h1]) (hsafe hk)
      (by rw [hs1n]; exact hlc.lt) ((h2.frame (fun a ha' => hs1m a (hcb0 a ha'))).kept L)
      (fun a ha' => by rw [hs1n]; exact hcp a (Cfg.kept_blk ha'))
    refine ⟨p, s2, { ptr := lk.ptr, pmap := lk.pmap, tmap := lk.tmap &&& ~~~bitOf (nbOf H key d) },
      (fun a => a = b ∨ F2 a ∨ ∃ i, i < 16 ∧ i ≠ nbOf H key d ∧ G i a), e2, ?_, fun _ => hq2⟩
    rw [T.ins, if_neg hk]
    obtain ⟨n, rfl⟩ : ∃ m, n = m + 1 := ⟨n - 1, by omega⟩
    have hnode := splitT_isNode (nbOf H') key ckey p cptr vSplit cv (c.encT ckey) n (d + 1)
    have hp : SplitPost c h s1 s2 b (cnt (occ ch) (nbOf H key d)) xs lkc F2 (c.kept q) (splitT (nbOf H') key p vSplit ckey cptr cv (c.encT ckey) (n + 1) (d + 1)) (d + 1) := by
      by_cases hf : c.forget = false
      · rw [Cfg.kept_eq hf, hqp hf] at hp ⊢; exact hp
      · have hsb := SameBut.splitT (nbOf H') key p vSplit ckey (c.kept q) cptr cv (c.encT ckey) (n + 1) (d + 1)
        have hr := hp.roots
        unfold dsum at hr
        rw [show (mkLink c ckey q).tmap = c.encT ckey from rfl, hsb.tsum] at hr
        exact ⟨hp.link, hp.frame, hp.next, hp.foot, hp.rep.sameBut (by simpa using hf) hsb, hp.ptr, hr⟩
    change SplitPost c h s1 s2 b _ xs lkc F2 (c.kept q) (splitT (nbOf H') key p vSplit ckey cptr cv (c.encT ckey) (n + 1) (d + 1)) (d + 1) at hp
    generalize hT : splitT (nbOf H') key p vSplit ckey cptr cv (c.encT ckey) (n + 1) (d + 1) = t' at *
    have hsize : size t' (d + 1) = 2 := by
      rw [← hT]; exact size_splitT (nbOf_lt H') _ _ _ _ _ _ _ _ _ ⟨j, hj1, by omega, hj3⟩
    have hb0s2 : s2.mem b0 = some (.links (xs0.set i0
      { ptr := lk.ptr, pmap := lk.pmap, tmap := lk.tmap &&& ~~~bitOf (nbOf H key d) })) := by
      rw [hp.frame b0 (by rw [hs1n]; exact hl.lt) (Ne.symm hbb0), hs1b0]
    refine Upd.lift' (s' := s2.put b0 (.links xs0)) (lkc := lkc) (G' := F2) hl ha ho hrep hr16 hocc ?_
      (by cases t' <;> simp_all [isNode, isEmpty]) rfl rfl ?_ ?_
    · refine ⟨?_, ?_, ?_, ?_, ?_, ?_⟩
      · rw [put_mem, if_neg hbb0]; exact hp.link
      · intro a g1 g2 g3
        rw [put_mem]
        split
        · rename_i e; rw [e, hl.mem]
        · rename_i e
          rw [hp.frame a (by rw [hs1n]; exact g1) g2, hs1m a e]
      · have := hp.next; rw [hs1n] at this; exact this
      · intro a hF
        rcases hp.foot a hF with g | g
        · exact Or.inl ((h3 a).2 (Cfg.kept_blk g))
        · rw [hs1n] at g; exact Or.inr g
      · apply hp.rep.frame
        intro a hF
        rw [put_mem, if_neg]
        intro e
        rcases hp.foot a hF with g | g
        · exact hcb0 a (Cfg.kept_blk g) e
        · rw [hs1n] at g; have := hl.lt; omega
      · rw [hch]
        have hr1 : s1.roots = fun a => if a = h then
            { s.roots a with dep := (s.roots a).dep - BitVec.ofNat 64 d } else s.roots a := by
          rw [← hs1]; rfl
        have hr2 := hp.roots
        rw [hr1] at hr2
        refine ⟨fun a hah => ?_, ?_, ?_, ?_⟩
        · rw [put_roots, hr2]; simp [hah]
        · rw [put_roots, hr2]; simp
        · rw [put_roots, hr2, hsize]
          simp only [if_true, size, tsum]
          rw [BitVec.add_assoc]; rfl
        · rw [put_roots, hr2]
          simp only [if_true]
          have : dsum (.leaf ckey cptr cv : T K Ptr V) (d + 1) = d := rfl
          rw [this, BitVec.add_assoc, BitVec.add_comm (BitVec.ofNat 64 (dsum t' (d + 1))), ← BitVec.add_assoc,
            BitVec.sub_add_cancel]
    · refine ha.tm.unleaf hr16 hocc ?_
      cases t' <;> simp_all [isNode, isLeaf]
    · rw [put_put, put_self hb0s2]

theorem conflict_sim' {R : Type} {c : Cfg K} {sd : Seed} {H H' : K → Nat → BitVec 64} {ins : Ins K V R}
    {key : K} {f : V → V} {vSlot vSplit : V} {gHit : V → R} {rNew : R} (L : Laws c sd H)
    (hi : InsOk c sd H { ins with chash := fun _ _ ckey d _ => .ok (hdAt H ckey d, d / 16 + 1) } key f vSlot vSplit gHit rNew)
    (h : Nat) {B n : Nat} (hB : B < 256) (hn : B < n)
    {s : St K V} {b0 i0 : Nat} {xs0 : List Link} {lk : Link} {F : Nat → Prop} {cur : Cur}
    {st : BitVec 32} {ch : Nat → T K Ptr V} {d b : Nat} {xs : List Link} {G : Nat → Nat → Prop} {fuel : Nat}
    (hl : Loc s b0 i0 xs0 lk F) (ha : Arr s.mem st ch d lk b xs) (ho : Own F b G)
    (hrep : ∀ i, i < 16 → Rep c s.mem (ch i) (d + 1) (xs.getD (cnt (occ ch) i) {}) (G i))
    (hc : CurOk H key d cur) (hcl : cur.l = ⟨.blk b0, i0⟩) {ckey : K} {cptr : Ptr} {cv : V}
    (hch : ch (nbOf H key d) = .leaf ckey cptr cv) (hfu : B < fuel) 
    (hH : key ≠ ckey → H' key = H key)
    (hch' : key ≠ ckey → ins.chash sd key ckey d fuel = .ok (hdAt H' ckey d, d / 16 + 1))
    (hdig : ∀ k j, d < j → j < 256 → j % 16 = 0 → c.digest sd k (j / 16 + 1) j = H' k (j / 16))
    (hcn : key ≠ ckey → ins.guard = false ∨ nbOf H' ckey d = nbOf H' key d)
    (hsep : key ≠ ckey → ∃ j, d + 1 ≤ j ∧ j ≤ B ∧ nbOf H' key j ≠ nbOf H' ckey j)
    (hsafe : key ≠ ckey → nbOf H' key (d + 1) = nbOf H' ckey (d + 1) → (c.encT ckey).getLsbD (nbOf H' key (d + 1)) = false) :
    ∃ p s' lk' F', conflict c sd h fuel key ins cur s
        = .ok (if key = ckey then gHit cv else rNew, s') ∧
      Upd c h s s' b0 i0 xs0 lk' F F' (.node st ch)
        (.node st (upd ch (nbOf H key d)
          (T.ins (nbOf H') c.encT n key p vSlot vSplit f (.leaf ckey cptr cv) (d + 1)))) d := by
  obtain ⟨p, s', lk', F', e, hu, _⟩ := conflict_simQ (Q := fun _ _ => True) (fun _ _ _ _ h => h) (fun _ _ _ _ => trivial)
    L hi h hB hn hl ha ho hrep hc hcl hch hfu hH hch' hdig hcn hsep hsafe
  exact ⟨p, s', lk', F', e, hu⟩

theorem conflict_sim {R : Type} {c : Cfg K} {sd : Seed} {H : K → Nat → BitVec 64} {ins : Ins K V R}
    {key : K} {f : V → V} {vSlot vSplit : V} {gHit : V → R} {rNew : R} (L : Laws c sd H)
    (hi : InsOk c sd H ins key f vSlot vSplit gHit rNew) (h : Nat) {B n : Nat} (hB : B < 256) (hn : B < n)
    {s : St K V} {b0 i0 : Nat} {xs0 : List Link} {lk : Link} {F : Nat → Prop} {cur : Cur}
    {st : BitVec 32} {ch : Nat → T K Ptr V} {d b : Nat} {xs : List Link} {G : Nat → Nat → Prop} {fuel : Nat}
    (hl : Loc s b0 i0 xs0 lk F) (ha : Arr s.mem st ch d lk b xs) (ho : Own F b G)
    (hrep : ∀ i, i < 16 → Rep c s.mem (ch i) (d + 1) (xs.getD (cnt (occ ch) i) {}) (G i))
    (hc : CurOk H key d cur) (hcl : cur.l = ⟨.blk b0, i0⟩) {ckey : K} {cptr : Ptr} {cv : V}
    (hch : ch (nbOf H key d) = .leaf ckey cptr cv) (hfu : B < fuel) (hfu2 : 17 ≤ fuel)
    (hcn : nbOf H ckey d = nbOf H key d)
    (hsep : key ≠ ckey → ∃ j, d + 1 ≤ j ∧ j ≤ B ∧ nbOf H key j ≠ nbOf H ckey j)
    (hsafe : key ≠ ckey → nbOf H key (d + 1) = nbOf H ckey (d + 1) → (c.encT ckey).getLsbD (nbOf H key (d + 1)) = false) :
    ∃ p s' lk' F', conflict c sd h fuel key ins cur s
        = .ok (if key = ckey then gHit cv else rNew, s') ∧
      Upd c h s s' b0 i0 xs0 lk' F F' (.node st ch)
        (.node st (upd ch (nbOf H key d)
          (T.ins (nbOf H) c.encT n key p vSlot vSplit f (.leaf ckey cptr cv) (d + 1)))) d :=
  conflict_sim' (H' := H) L ⟨fun _ _ _ _ _ => rfl, hi.hit, hi.newSlot, hi.newSplit⟩ h hB hn hl ha ho hrep hc hcl hch hfu (fun _ => rfl)
    (fun hk => hi.chash ckey d fuel (by obtain ⟨j, h1, h2, _⟩ := hsep hk; omega) hfu2) (fun k j _ h1 h2 => L.digest k j h1 h2) (fun _ => Or.inr hcn) hsep hsafe

/-! ### `Set`, `Mod`, `Add` -/

/-- What `upsert` does after the search loop. -/
def upsertFin {R : Type} (c : Cfg K) (sd : Seed) (h fuel : Nat) (key : K) (ins : Ins K V R) :
    Cur × Bool → M K V R
  | (cur, hit) => if hit then conflict c sd h fuel key ins cur else insertSlot c h key ins cur

omit [DecidableEq K] in
theorem upsert_eq {R : Type} (c : Cfg K) (h fuel : Nat) (key : K) (ins : Ins K V R) :
    upsert c h fuel key ins
      = (do let r ← getRoot h
            let x ← search c r.seed key fuel (start c r.seed key h)
            upsertFin c r.seed h fuel key ins x) := rfl

theorem upsert_sim {R : Type} {c : Cfg K} {sd : Seed} {H : K → Nat → BitVec 64} {ins : Ins K V R}
    {key : K} {f : V → V} {vSlot vSplit : V} {gHit : V → R} {rNew : R} (L : Laws c sd H)
    (hi : InsOk c sd H ins key f vSlot vSplit gHit rNew) (h : Nat) {B n : Nat} (hB : B < 256) (hn : B < n)
    {s : St K V} {fuel0 : Nat} (hf0 : B < fuel0) (hf1 : 17 ≤ fuel0) (t : T K Ptr V) :
    ∀ {d b0 i0 : Nat} {xs0 : List Link} {lk : Link} {F : Nat → Prop} {cur : Cur} {fuel : Nat},
    t.isNode = true → Loc s b0 i0 xs0 lk F → Rep c s.mem t d lk F → Ht B t d → WF (nbOf H) t d →
    Pre (nbOf H) key t d → SepFrom (nbOf H) B key t → (find (nbOf H) key t d = none → SafeFor (nbOf H) c.encT key t) → B < fuel + d →
    CurOk H key d cur → cur.l = ⟨.blk b0, i0⟩ →
    ∃ p s' lk' F', (search c sd key fuel cur >>= upsertFin c sd h fuel0 key ins) s
        = .ok ((match find (nbOf H) key t d with | some e => gHit e.2 | none => rNew), s') ∧
      Upd c h s s' b0 i0 xs0 lk' F F' t (T.ins (nbOf H) c.encT n key p vSlot vSplit f t d) d := by
  induction t with
  | empty => intro d b0 i0 xs0 lk F cur fuel h; cases h
  | leaf => intro d b0 i0 xs0 lk F cur fuel h; cases h
  | node st ch ih =>
    intro d b0 i0 xs0 lk F cur fuel _ hl hr hh hw hpre hsep hsafe hf hc hcl
    obtain ⟨b, xs, G, ha, ho, hrep⟩ := hr
    have hd : d ≤ B := hh.1
    obtain ⟨fuel, rfl⟩ : ∃ f, fuel = f + 1 := ⟨fuel - 1, by omega⟩
    have hr16 := nbOf_lt H key d
    rw [find] at hsafe ⊢
    simp only [T.ins]
    cases he : ch (nbOf H key d) with
    | empty =>
      rw [bind_ok (search_empty hl ha hc hcl he fuel)]
      simp only [upsertFin, find]
      exact insertSlot_sim hi h hl ha ho hrep hc hcl he
    | leaf k p v =>
      rw [bind_ok (search_leaf hl ha hc hcl he fuel)]
      simp only [upsertFin, if_true]
      have hpre' := hpre.child (nbOf_lt H) hw
      have hsep' := SepFrom.child hr16 hsep
      have hsafe' := fun hn => SafeFor.child hr16 (hsafe hn)
      rw [he] at hpre' hsep' hsafe'
      have hcn : nbOf H k d = nbOf H key d := (hw.2 _ hr16).1 (k, p, v) (by rw [he]; simp [leaves])
      obtain ⟨p', s', lk', F', e1, hu⟩ := conflict_sim L hi h hB hn hl ha ho hrep
        (push_ok hc (nbOf H key d)) hcl he hf0 hf1 hcn (fun hne => sep_leaf hne hsep' hpre')
        (fun hne heq => safe_leaf (by omega) hne (hsafe' (by rw [find, if_neg hne])) hpre' heq)
      have hst := ha.tm.st_clear hr16 (by simp [occ, he, isEmpty])
      refine ⟨p', s', lk', F', ?_, by rw [show st &&& ~~~(1#32 <<< nbOf H key d) = st from hst]; exact hu⟩
      rw [e1, find]
      by_cases hk : key = k
      · simp [hk]
      · simp [hk]
    | node st' ch' =>
      have hocc : occ ch (nbOf H key d) = true := by simp [occ, he, isEmpty]
      rw [bind_run, search_node hl ha hc hcl he fuel, ← bind_run]
      have hd' := descend_ok L (push_ok hc (nbOf H key d)) (by have := hh.2 _ hr16; rw [he] at this; have := this.1; omega : d + 1 < 256)
        ⟨.blk b, cnt (occ ch) (nbOf H key d)⟩
      obtain ⟨p', s', lk', F', e1, hu⟩ := ih (nbOf H key d) (d := d + 1) (fuel := fuel) (by rw [he]; rfl)
        (hl.child ha ho hr16 hocc) (hrep _ hr16) (hh.2 _ hr16) (hw.2 _ hr16).2
        (hpre.child (nbOf_lt H) hw) (SepFrom.child hr16 hsep) (fun hn => SafeFor.child hr16 (hsafe hn)) (by omega) hd'.1 hd'.2.1
      rw [he] at e1
      have hu' := Upd.lift hl ha ho hrep hr16 hocc hu (by rw [he]; rfl) (by rw [he]; rfl)
      rw [he] at hu'
      have hst := ha.tm.st_clear hr16 hocc
      rw [show st &&& ~~~(1#32 <<< nbOf H key d) = st from hst]
      exact ⟨p', s', lk, _, e1, hu'⟩

end Amt
