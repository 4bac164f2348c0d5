/-
`Set`, `Mod` and `Add` of the integer containers when the type bits of the displaced key hide the branches that
should hold the two keys.
-/
import Verif.Phantom
import Verif.LooseSim

set_option linter.unusedVariables false
set_option linter.unusedSectionVars false

namespace Amt
open T

variable {K V : Type}

/-- A branch with a single item, which is a key. -/
theorem Rep.singleLeaf {c : Cfg K} {m : Nat → Option (Obj K V)} {k : K} {p : Ptr} {v : V} {d b r : Nat} {lk : Link}
    {xs : List Link} (hr : r < 16) (hd : d ≠ 0)
    (hptr : lk.ptr = .blk b) (hpm : lk.pmap = bitOf r) (htm : lk.tmap.getLsbD r = true)
    (hm : m b = some (.links xs)) (hlen : xs.length = 4) (hx : xs[0]? = some (mkLink c k p))
    (hk : KvAt c m k p v) (hp : p ≠ .blk b) :
    Rep c m (.node (lk.tmap &&& ~~~bitOf r) (upd (fun _ => .empty) r (.leaf k p v))) d lk (fun a => a = b ∨ p = .blk a) := by
  have hcnt := cnt_set (f := fun _ => false) (g := occ (upd (fun _ => (.empty : T K Ptr V)) r (.leaf k p v))) (i := r) rfl
    (by simp [occ, isEmpty]) (fun j hj => by simp [occ, upd, hj, isEmpty])
  have hz : ∀ n, cnt (fun _ => false) n = 0 := fun n => cnt_eq_zero.2 (fun _ _ => rfl)
  refine ⟨b, xs, fun i a => i = r ∧ p = .blk a, ?_, ?_, ?_⟩
  · refine ⟨hptr, hm, ?_, ?_, ?_⟩
    · rw [hcnt 16, hz, if_pos hr, hlen]; simp [capOf, hd]
    · have := BitsAre.zero.or_bit (g := occ (upd (fun _ => (.empty : T K Ptr V)) r (.leaf k p v))) hr
        (by simp [occ, isEmpty]) (fun j hj => by simp [occ, upd, hj, isEmpty])
      rw [hpm]; simpa using this
    · refine ⟨fun i => ?_, fun i _ hs => ?_⟩
      · rw [getLsbD_andNot_bitOf (by omega)]
        by_cases hi : i = r
        · subst hi; simp [lf, isLeaf, hr, htm]
        · have : lf (upd (fun _ => (.empty : T K Ptr V)) r (.leaf k p v)) i = false := by simp [lf, upd, hi, isLeaf]
          rw [this]; simp [hi]
      · rw [getLsbD_andNot_bitOf (by omega)] at hs
        have : i ≠ r := fun e => by subst e; simp at hs
        rw [upd_other _ _ this]
  · refine ⟨fun a => ?_, fun i hi h => hp h.2, fun i j a _ _ h1 h2 => h1.1.trans h2.1.symm⟩
    constructor
    · rintro (h | h)
      · exact Or.inl h
      · exact Or.inr ⟨r, hr, rfl, h⟩
    · rintro (h | ⟨i, _, _, h⟩)
      · exact Or.inl h
      · exact Or.inr h
  · intro i hi
    by_cases hne : i = r
    · subst hne
      rw [upd_same, hcnt i, hz, if_neg (by omega : ¬ i < i), getD_of_getElem? hx]
      exact Rep.leaf_mk rfl hk fun a => by simp
    · rw [upd_other _ _ hne]
      intro a h; exact hne h.1

/-- The words of the link of the branches that hold `k` and `x` from depth `d` on, read as a key. -/
def PhOf (c : Cfg K) (nb : K → Nat → Nat) (k x : K) (d : Nat) (ph : K) : Prop :=
  if nb k d = nb x d then c.encP ph = bitOf (nb k d) ∧ c.encT ph = 0#32
  else c.encP ph = bitOf (nb k d) ||| bitOf (nb x d) ∧ c.encT ph = bitOf (nb k d) ||| bitOf (nb x d)

theorem BitsAre.unique {x y : BitVec 32} {f : Nat → Bool} (hx : BitsAre x f) (hy : BitsAre y f) : x = y := by
  apply BitVec.eq_of_getLsbD_eq
  intro i _
  rw [hx i, hy i]

/-- The link of such branches. -/
theorem Rep.splitT_link {c : Cfg K} {m : Nat → Option (Obj K V)} {nb : K → Nat → Nat} (hnb : ∀ k d, nb k d < 16) {k k' : K} {p p' : Ptr}
    {v v' : V} {n d d' : Nat} {lk : Link} {F : Nat → Prop} (hn : nb k d = nb k' d → 0 < n) (h : Rep c m (splitT nb k p v k' p' v' 0#32 (n + 1) d) d' lk F)
    {ph : K} (h1 : c.encP ph = lk.pmap) (h2 : c.encT ph = lk.tmap) :
    PhOf c nb k k' d ph ∧ ∃ b xs, lk = mkLink c ph (.blk b) ∧ F b ∧ m b = some (.links xs) := by
  rw [splitT_succ] at h
  refine ⟨?_, ?_⟩
  · rw [PhOf, h1, h2]
    have hr := hnb k d
    have hr' := hnb k' d
    by_cases heq : nb k d = nb k' d
    · rw [if_pos heq] at h ⊢
      obtain ⟨b, xs, G, ha, ho, hrep⟩ := h
      obtain ⟨n, rfl⟩ : ∃ m, n = m + 1 := ⟨n - 1, by have := hn heq; omega⟩
      have hx := splitT_isNode nb k k' p p' v v' 0#32 n (d + 1)
      generalize splitT nb k p v k' p' v' 0#32 (n + 1) (d + 1) = x at *
      generalize nb k d = r at *
      have hxe : x.isEmpty = false := by cases x <;> simp_all [isNode, isEmpty]
      have hxl : x.isLeaf = false := by cases x <;> simp_all [isNode, isLeaf]
      constructor
      · have := BitsAre.zero.or_bit (g := occ (upd (fun _ => (.empty : T K Ptr V)) r x)) hr
          (by simp [occ, hxe]) (fun j hj => by simp [occ, upd, hj, isEmpty])
        rw [ha.pm.unique this]; simp
      · apply BitVec.eq_of_getLsbD_eq
        intro i _
        have : lf (upd (fun _ => (.empty : T K Ptr V)) r x) i = false := by
          by_cases hi : i = r
          · subst hi; simp [lf, hxl]
          · simp [lf, upd, hi, isLeaf]
        rw [ha.tm.bit, this]; simp
    · rw [if_neg heq] at h ⊢
      obtain ⟨b, xs, G, ha, ho, hrep⟩ := h
      generalize nb k d = r at *
      generalize nb k' d = r' at *
      have hb1 : BitsAre (0#32 ||| bitOf r') (occ (upd (fun _ => (.empty : T K Ptr V)) r' (.leaf k' p' v'))) :=
        BitsAre.zero.or_bit hr' (by simp [occ, isEmpty]) (fun j hj => by simp [occ, upd, hj, isEmpty])
      have hb2 := hb1.or_bit (g := occ (upd (upd (fun _ => (.empty : T K Ptr V)) r' (.leaf k' p' v')) r (.leaf k p v)))
        hr (by simp [occ, isEmpty]) (fun j hj => occ_upd_other hj)
      have hpm : lk.pmap = bitOf r ||| bitOf r' := by
        rw [ha.pm.unique hb2, BitVec.or_comm]; simp
      refine ⟨hpm, ?_⟩
      rw [← hpm]
      symm
      rw [ha.tm.eq_pm ha.pm]
      refine ⟨fun i hi => ?_, rfl⟩
      simp only [occ, lf, upd]
      split
      · rfl
      · split <;> rfl
  · have : ∃ b xs, lk.ptr = .blk b ∧ F b ∧ m b = some (.links xs) := by
      split at h
      · obtain ⟨b, xs, G, ha, ho, hrep⟩ := h
        exact ⟨b, xs, ha.ptr, (ho.foot b).2 (Or.inl rfl), ha.mem⟩
      · obtain ⟨b, xs, G, ha, ho, hrep⟩ := h
        exact ⟨b, xs, ha.ptr, (ho.foot b).2 (Or.inl rfl), ha.mem⟩
    obtain ⟨b, xs, h3, h4, h5⟩ := this
    refine ⟨b, xs, ?_, h4, h5⟩
    rw [mkLink, h1, h2, ← h3]

/-! ### The split loop -/

/-- What the split loop leaves behind when its branches are hidden. -/
structure HidPost (c : Cfg K) (h : Nat) (s s' : St K V) (b0 i0 : Nat) (xs0 : List Link) (lk : Link) (r A : Nat) (ph : K) :
    Prop where
  link : s'.mem b0 = some (.links (xs0.set i0 ⟨.blk s.next, bitOf r, lk.tmap⟩))
  inner : s'.mem s.next = some (.links ((List.replicate 4 {}).set 0 (mkLink c ph (.blk A))))
  frame : ∀ a, a < s.next → a ≠ b0 → s'.mem a = s.mem a
  next : s.next < s'.next
  fresh : s.next < A ∧ A < s'.next
  arr : ∃ xs, s'.mem A = some (.links xs)
  other : ∀ a, a ≠ h → s'.roots a = s.roots a
  seed : (s'.roots h).seed = (s.roots h).seed
  len : (s'.roots h).len = (s.roots h).len + 1

theorem split_hid {R : Type} {c : Cfg K} {sd : Seed} {H : K → Nat → BitVec 64} {ins : Ins K V R}
    {key ckey : K} {vSplit : V} {rNew : R} (hbare : c.store = .bare) (hw : ∀ pm tm, ∃ k, c.encP k = pm ∧ c.encT k = tm)
    (hi : ∀ s, ∃ p s', ins.newSplit s = .ok ((p, rNew), s') ∧ NewCell c s s' key p vSplit) (h : Nat) {B : Nat} (hB : B < 256)
    {cptr : Ptr} {cv : V} {d fuel : Nat} {s : St K V} {b0 i0 : Nat} {xs0 : List Link} {lk : Link}
    (L : ∀ k j, d < j → j < 256 → j % 16 = 0 → c.digest sd k (j / 16 + 1) j = H k (j / 16))
    (hs : ∃ j, d + 1 ≤ j ∧ j ≤ B ∧ nbOf H key j ≠ nbOf H ckey j) (hfu : B < d + fuel + 1)
    (hmem : s.mem b0 = some (.links xs0)) (hget : xs0[i0]? = some lk)
    (heq : nbOf H key (d + 1) = nbOf H ckey (d + 1)) (hlt : b0 < s.next)
    (hcp : ∀ a, cptr = .blk a → a < s.next ∧ a ≠ b0) :
    ∃ ph A s', split c sd h key ckey cptr ins fuel ⟨.blk b0, i0⟩ d (hdAt H key d) (hdAt H ckey d) (d / 16 + 1)
        (d / 16 + 1) s = .ok (rNew, s') ∧
      HidPost c h s s' b0 i0 xs0 lk (nbOf H key (d + 1)) A ph ∧ PhOf c (nbOf H) key ckey (d + 2) ph := by
  have hkv : ∀ m : Nat → Option (Obj K V), KvAt c m ckey cptr cv := fun m => by simp [KvAt, hbare]
  obtain ⟨j, hj1, hj2, hj3⟩ := hs
  have hj4 : d + 2 ≤ j := by
    rcases Nat.lt_or_ge (d + 1) j with h' | h'
    · omega
    · have : j = d + 1 := by omega
      subst this; exact absurd heq hj3
  obtain ⟨fuel, rfl⟩ : ∃ f, fuel = f + 1 := ⟨fuel - 1, by omega⟩
  have hi0 : i0 < xs0.length := by
    rcases Nat.lt_or_ge i0 xs0.length with h' | h'
    · exact h'
    · rw [List.getElem?_eq_none h'] at hget; cases hget
  have hmod : (d + 1) % 256 = d + 1 := by omega
  have hw' : (if (d + 1) % 16 ≠ 0 then d / 16 + 1 else d / 16 + 1 + 1) = (d + 1) / 16 + 1 := by
    split <;> omega
  rw [split]
  simp only [hmod, next_hd' key (L key (d + 1) (by omega) (by omega)), next_hd' ckey (L ckey (d + 1) (by omega) (by omega)), hw']
  rw [bind_ok (modLink_ok hmem hget)]
  have e1 : radixOf (hdAt H key (d + 1)) = nbOf H key (d + 1) := rfl
  have e2 : radixOf (hdAt H ckey (d + 1)) = nbOf H ckey (d + 1) := rfl
  simp only [e1, e2]
  rw [if_neg (by rw [heq]; simp)]
  rw [bind_ok (newLinkArray_run 1 (by omega) (by omega) _)]
  rw [bind_ok (modLink_ok (xs := xs0.set i0 ⟨lk.ptr, bitOf (nbOf H key (d + 1)) ||| bitOf (nbOf H ckey (d + 1)), lk.tmap⟩)
    (x := ⟨lk.ptr, bitOf (nbOf H key (d + 1)) ||| bitOf (nbOf H ckey (d + 1)), lk.tmap⟩)
    (by simp [show b0 ≠ s.next by omega]) (by simp [hi0]))]
  simp only [put_next, List.set_set]
  have hbr : bitOf (nbOf H key (d + 1)) ||| bitOf (nbOf H ckey (d + 1)) = bitOf (nbOf H key (d + 1)) := by
    rw [← heq]; simp
  rw [hbr]
  obtain ⟨p, s', lk', F', e3, hp⟩ := split_sim hi h hB (cv := cv) (cptr := cptr) (H := H) (sd := sd) 257 (d + 1) fuel
    (b0 := s.next) (i0 := 0)
    (xs0 := List.replicate (4 * ((1 + 3) / 4)) {}) (lk := {})
    (fun k j h1 h2 h3 => L k j (by omega) h2 h3) ⟨j, by omega, hj2, hj3⟩
    (by omega) (by omega)
    (s := ((s.put b0 (.links (xs0.set i0 ⟨lk.ptr, bitOf (nbOf H key (d + 1)), lk.tmap⟩))).push (.links (List.replicate (4 * ((1 + 3) / 4)) {}))).put b0
      (.links (xs0.set i0 ⟨.blk s.next, bitOf (nbOf H key (d + 1)), lk.tmap⟩)))
    (by simp [show s.next ≠ b0 by omega]) (by simp) (fun _ => by simp) (by simp)
    (hkv _)
    (fun a ha => by have := hcp a ha; simp; omega)
  obtain ⟨ph, g1, g2⟩ := hw lk'.pmap lk'.tmap
  obtain ⟨g3, A, xs, rfl, g5, g6⟩ := hp.rep.splitT_link (nbOf_lt H) (fun _ => by omega) g1 g2
  have hnx := hp.next
  simp only [put_next, push_next] at hnx
  refine ⟨ph, A, s', e3, ⟨?_, hp.link, ?_, by omega, ?_, ⟨xs, g6⟩, ?_, ?_, ?_⟩, g3⟩
  · rw [hp.frame b0 (by simp; omega) (by omega)]; simp
  · intro a h1 h2
    rw [hp.frame a (by simp; omega) (by omega)]
    simp [h2, show a ≠ s.next by omega]
  · have := hp.ptr
    simp only [mkLink, put_next, push_next, Ptr.blk.injEq] at this
    refine ⟨by omega, Nat.lt_of_not_le fun hge => ?_⟩
    rcases hp.foot A g5 with h2 | h2
    · have := hcp A h2; omega
    · omega
  · intro a ha; rw [hp.roots]; simp [ha]
  · rw [hp.roots]; simp
  · rw [hp.roots]; simp

/-! ### A key-value item in the way -/

/-- The state `s'`, with counters that take account of the phantom instead of the two hidden keys. -/
def ghost (s s' : St K V) (h : Nat) : St K V :=
  s'.root h fun m => { m with len := (s.roots h).len, dep := (s.roots h).dep + 1 }

variable [DecidableEq K]

theorem conflict_hid {R : Type} {c : Cfg K} {sd : Seed} {H : K → Nat → BitVec 64} {ins : Ins K V R}
    {key : K} {vSplit : V} {rNew : R} (L : Laws c sd H)
    (hbare : c.store = .bare) (hw : ∀ pm tm, ∃ k, c.encP k = pm ∧ c.encT k = tm)
    (hi : ∀ s, ∃ p s', ins.newSplit s = .ok ((p, rNew), s') ∧ NewCell c s s' key p vSplit) (hg : ins.guard = false)
    (h : Nat) {B : Nat} (hB : B < 256)
    {s : St K V} {b0 i0 : Nat} {xs0 : List Link} {lk : Link} {F : Nat → Prop} {cur : Cur}
    {st : BitVec 32} {ch : Nat → T K Ptr V} {d b : Nat} {xs : List Link} {G : Nat → Nat → Prop} {fuel : Nat}
    (hl : Loc s b0 i0 xs0 lk F) (ha : Arr s.mem st ch d lk b xs) (ho : Own F b G)
    (hrep : ∀ i, i < 16 → Rep c s.mem (ch i) (d + 1) (xs.getD (cnt (occ ch) i) {}) (G i))
    (hc : CurOk H key d cur) (hcl : cur.l = ⟨.blk b0, i0⟩) {ckey : K} {cptr : Ptr} {cv : V}
    (hch : ch (nbOf H key d) = .leaf ckey cptr cv) (hfu : B < fuel) (hne : key ≠ ckey)
    (hC : ins.chash sd key ckey d fuel = .ok (hdAt H ckey d, d / 16 + 1))
    (hsep : ∃ j, d + 1 ≤ j ∧ j ≤ B ∧ nbOf H key j ≠ nbOf H ckey j)
    (heq : nbOf H key (d + 1) = nbOf H ckey (d + 1)) (hsh : (c.encT ckey).getLsbD (nbOf H key (d + 1)) = true) :
    ∃ ph A s' lk' F', conflict c sd h fuel key ins cur s = .ok (rNew, s') ∧
      Upd c h s (ghost s s' h) b0 i0 xs0 lk' F F' (.node st ch)
        (.node st (upd ch (nbOf H key d) (.node (c.encT ckey &&& ~~~bitOf (nbOf H key (d + 1)))
          (upd (fun _ => .empty) (nbOf H key (d + 1)) (.leaf ph (.blk A) cv))))) d ∧
      PhOf c (nbOf H) key ckey (d + 2) ph ∧ (s'.roots h).len = (s.roots h).len + 1 ∧
      ∃ ys, s'.mem A = some (.links ys) := by
  have hr16 := nbOf_lt H key d
  have hcr0 := hrep _ hr16
  rw [hch] at hcr0
  obtain ⟨q, h1, h2, h3, hq⟩ := hcr0
  have hocc : occ ch (nbOf H key d) = true := by simp [occ, hch, isEmpty]
  have hlc := hl.child ha ho hr16 hocc
  have hbF : F b := (ho.foot b).2 (Or.inl rfl)
  have hbb0 : b ≠ b0 := fun e => hl.nF (e ▸ hbF)
  have hGF : ∀ i a, i < 16 → G i a → F a := fun i a hi hg => (ho.foot a).2 (Or.inr ⟨i, hi, hg⟩)
  rw [conflict, bind_ok (itemRef_ok hl ha hc hcl), bind_ok (load_ok ha.mem (ha.slot hr16 hocc)), h1,
    bind_ok (readKey_ok L (m := s.mem) h2), if_neg (fun e => hne ((L.eq_iff _ _).1 e)),
    bind_ok (liftE_ok (by rw [hc.d]; exact hC) s)]
  simp only
  rw [if_neg (by simp [hg]), hc.radix, hcl]
  rw [bind_ok (modLink_ok hl.mem hl.get), bind_ok (modRoot_run ..), hc.d, hc.hd, hc.w]
  have hcp : ∀ a, q = .blk a → a < s.next ∧ a ≠ b := by
    intro a ha'
    have hg := (h3 a).2 ha'
    exact ⟨hlc.bound a hg, fun e => ho.nob _ hr16 (e ▸ hg)⟩
  generalize hs1 : St.root (s.put b0 (.links (xs0.set i0
    { ptr := lk.ptr, pmap := lk.pmap, tmap := lk.tmap &&& ~~~bitOf (nbOf H key d) }))) h
      (fun m => { m with dep := m.dep - BitVec.ofNat 64 d }) = s1
  have hs1m : ∀ a, a ≠ b0 → s1.mem a = s.mem a := by intro a h'; rw [← hs1]; simp [h']
  have hs1n : s1.next = s.next := by rw [← hs1]; simp
  have hs1b0 : s1.mem b0 = some (.links (xs0.set i0
    { ptr := lk.ptr, pmap := lk.pmap, tmap := lk.tmap &&& ~~~bitOf (nbOf H key d) })) := by
    rw [← hs1]; simp
  have hr1 : s1.roots = fun a => if a = h then
      { s.roots a with dep := (s.roots a).dep - BitVec.ofNat 64 d } else s.roots a := by
    rw [← hs1]; rfl
  obtain ⟨ph, A, s2, e2, hp, hph⟩ := split_hid (sd := sd) (H := H) (ins := ins) (ckey := ckey) (cv := cv) (cptr := c.kept q) (fuel := fuel) (d := d)
    hbare hw hi h hB (s := s1) (b0 := b) (i0 := cnt (occ ch) (nbOf H key d)) (xs0 := xs) (lk := mkLink c ckey q)
    (fun k j _ h1 h2 => L.digest k j h1 h2) hsep (by omega)
    (by rw [hs1m b hbb0]; exact ha.mem) (by rw [ha.slot hr16 hocc, h1]) heq
    (by rw [hs1n]; exact hlc.lt)
    (fun a ha' => by rw [hs1n]; exact hcp a (Cfg.kept_blk ha'))
  have hfr := hp.fresh
  rw [hs1n] at hfr
  have hb0lt := hl.lt
  have hblt := hlc.lt
  refine ⟨ph, A, s2, { ptr := lk.ptr, pmap := lk.pmap, tmap := lk.tmap &&& ~~~bitOf (nbOf H key d) },
    (fun a => a = b ∨ (a = s.next ∨ Ptr.blk A = .blk a) ∨ ∃ i, i < 16 ∧ i ≠ nbOf H key d ∧ G i a), e2, ?_, hph, ?_, hp.arr⟩
  rotate_left
  · rw [hp.len, hr1]; simp
  have hb0s2 : s2.mem b0 = some (.links (xs0.set i0
    { ptr := lk.ptr, pmap := lk.pmap, tmap := lk.tmap &&& ~~~bitOf (nbOf H key d) })) := by
    rw [hp.frame b0 (by rw [hs1n]; exact hl.lt) (Ne.symm hbb0), hs1b0]
  refine Upd.lift' (s' := (ghost s s2 h).put b0 (.links xs0)) (lkc := ⟨.blk s.next, bitOf (nbOf H key (d + 1)), c.encT ckey⟩)
    (G' := fun a => a = s.next ∨ Ptr.blk A = .blk a) hl ha ho hrep hr16 hocc ?_ rfl rfl rfl ?_ ?_
  · refine ⟨?_, ?_, ?_, ?_, ?_, ?_⟩
    · rw [put_mem, if_neg hbb0]
      have := hp.link
      rw [hs1n] at this
      exact this
    · intro a g1 g2 g3
      rw [put_mem]
      split
      · rename_i e; rw [e, hl.mem]
      · rename_i e
        simp only [ghost, root_mem]
        rw [hp.frame a (by rw [hs1n]; exact g1) g2, hs1m a e]
    · simp only [ghost, put_next, root_next]; omega
    · rintro a (g | g)
      · right; simp only [ghost, put_next, root_next]; omega
      · cases g; right; simp only [ghost, put_next, root_next]; omega
    · have := Rep.singleLeaf (c := c) (m := ((ghost s s2 h).put b0 (.links xs0)).mem) (k := ph) (p := .blk A) (v := cv) (d := d + 1) (b := s.next)
        (r := nbOf H key (d + 1)) (lk := ⟨.blk s.next, bitOf (nbOf H key (d + 1)), c.encT ckey⟩)
        (xs := (List.replicate 4 {}).set 0 (mkLink c ph (.blk A))) (nbOf_lt H key (d + 1)) (by omega) rfl rfl hsh
        (by
          have := hp.inner
          rw [hs1n] at this
          rw [put_mem, if_neg (by omega)]; exact this) (by simp) (by simp) (by simp [KvAt, hbare]) (by simp; omega)
      exact this
    · rw [hch]
      refine ⟨fun a hah => ?_, ?_, ?_, ?_⟩
      · simp only [ghost, put_roots, root_roots, if_neg hah]
        rw [hp.other a hah, hr1]; simp [hah]
      · simp only [ghost, put_roots, root_roots, if_true]
        rw [hp.seed, hr1]; simp
      · simp only [ghost, put_roots, root_roots, if_true, size]
        rw [tsum_upd_empty _ _ _ (nbOf_lt H key (d + 1))]; rfl
      · simp only [ghost, put_roots, root_roots, if_true, dsum]
        rw [tsum_upd_empty _ _ _ (nbOf_lt H key (d + 1))]
        simp only [tsum]
        rw [show d + 1 + 1 - 1 = d + 1 by omega, show d + 1 - 1 = d by omega, Nat.add_comm d 1, BitVec.ofNat_add, BitVec.add_assoc]
        rfl
  · exact ha.tm.unleaf hr16 hocc rfl
  · rw [put_put, put_self]
    exact hb0s2

theorem split_hit {R : Type} {c : Cfg K} {sd : Seed} {h : Nat} {key ckey : K} {cptr : Ptr} {ins : Ins K V R} (hit : Ptr → M K V R)
    (fuel : Nat) : ∀ item d hd chd w cw, split c sd h key ckey cptr ins fuel item d hd chd w cw
      = split c sd h key ckey cptr { ins with hit := hit } fuel item d hd chd w cw := by
  induction fuel with
  | zero => intros; rfl
  | succ n ih => intros; simp only [split, ih]

/-- What happens on a hit does not matter if there is none. -/
theorem conflict_hit {R : Type} {c : Cfg K} {sd : Seed} {h fuel : Nat} {key ckey : K} {ins : Ins K V R} {cur : Cur} {s : St K V}
    {item : Ref} {x : Link} (e1 : itemRef cur s = .ok (item, s)) (e2 : load item s = .ok (x, s))
    (e3 : readKey c x s = .ok (ckey, s)) (he : c.eq key ckey = false) (hit : Ptr → M K V R) :
    conflict c sd h fuel key ins cur s = conflict c sd h fuel key { ins with hit := hit } cur s := by
  rw [conflict, conflict, bind_ok e1, bind_ok e1, bind_ok e2, bind_ok e2, bind_ok e3, bind_ok e3, if_neg (by simp [he]), if_neg (by simp [he])]
  simp only [split_hit (ins := ins) hit]

/-! ### `Set`, `Mod` and `Add` of a new key -/

/-- What they need: cells are made, and the rehash is right at depths below 240. -/
structure InsNew {R : Type} (c : Cfg K) (sd : Seed) (H : K → Nat → BitVec 64) (ins : Ins K V R) (key : K) (v : V) (rNew : R)
    (Q : (Nat → Option (Obj K V)) → Ptr → Prop) : Prop where
  chash : ∀ ckey d fuel, d < 240 → 17 ≤ fuel → ins.chash sd key ckey d fuel = .ok (hdAt H ckey d, d / 16 + 1)
  deep : ∀ ckey d fuel, 240 ≤ d → d < 256 → ins.chash sd key ckey d fuel = .error .diverge
  guard : ins.guard = false
  newSlot : ∀ s, ∃ p s', ins.newSlot s = .ok ((p, rNew), s') ∧ NewCell c s s' key p v
  newSplit : ∀ s, ∃ p s', ins.newSplit s = .ok ((p, rNew), s') ∧ NewCell c s s' key p v
  prop : CellProp Q
  slotQ : ∀ s p s', ins.newSlot s = .ok ((p, rNew), s') → Q s'.mem p
  splitQ : ∀ s p s', ins.newSplit s = .ok ((p, rNew), s') → Q s'.mem p

theorem InsNew.insOk {R : Type} {c : Cfg K} {sd : Seed} {H : K → Nat → BitVec 64} {ins : Ins K V R} {key : K} {v : V} {rNew : R}
    {Q : (Nat → Option (Obj K V)) → Ptr → Prop} (hi : InsNew c sd H ins key v rNew Q) :
    InsOk c sd H { ins with hit := fun _ => pure rNew, chash := idealChash H } key id v v (fun _ => rNew) rNew where
  chash _ _ _ _ _ := rfl
  hit s p w hk := ⟨s, rfl, CellSet.refl hk⟩
  newSlot := hi.newSlot
  newSplit := hi.newSplit

theorem upsert_pnew {R : Type} {c : Cfg K} {sd : Seed} {H : K → Nat → BitVec 64} {ins : Ins K V R}
    {key : K} {f : V → V} {v : V} {rNew : R} {Q : (Nat → Option (Obj K V)) → Ptr → Prop} {g : K × Ptr × V} (L : Laws c sd H)
    (hi : InsNew c sd H ins key v rNew Q)
    (h : Nat) {B n : Nat} (hB : B < 256) (hn : B < n)
    {s : St K V} {fuel0 : Nat} (hf0 : B < fuel0) (hf1 : 17 ≤ fuel0) (t : T K Ptr V) :
    ∀ {d b0 i0 : Nat} {xs0 : List Link} {lk : Link} {F : Nat → Prop} {cur : Cur} {fuel : Nat},
    t.isNode = true → Loc s b0 i0 xs0 lk F → Rep c s.mem t d lk F → Ht B t d → find (nbOf H) key t d = none →
    Parts (nbOf H) B key t d → (slot (nbOf H) key t d ≠ none → lev (nbOf H) key t d ≤ 240) →
    ¬ Shadows (nbOf H) c.encT key t d → B < fuel + d →
    CurOk H key d cur → cur.l = ⟨.blk b0, i0⟩ →
    ∃ p s' lk' F', (search c sd key fuel cur >>= upsertFin c sd h fuel0 key ins) s = .ok (rNew, s') ∧
      Upd c h s s' b0 i0 xs0 lk' F F' t (insP (nbOf H) c.encT n key p v f g t d) d ∧ Q s'.mem p := by
  induction t with
  | empty => intro d b0 i0 xs0 lk F cur fuel h; cases h
  | leaf => intro d b0 i0 xs0 lk F cur fuel h; cases h
  | node st ch ih =>
    intro d b0 i0 xs0 lk F cur fuel _ hl hr hh hfd hsep hlev hsh hf hc hcl
    obtain ⟨b, xs, G, ha, ho, hrep⟩ := hr
    have hd : d ≤ B := hh.1
    obtain ⟨fuel, rfl⟩ : ∃ f, fuel = f + 1 := ⟨fuel - 1, by omega⟩
    have hr16 := nbOf_lt H key d
    rw [find] at hfd
    simp only [insP]
    cases he : ch (nbOf H key d) with
    | empty =>
      rw [bind_ok (search_empty hl ha hc hcl he fuel)]
      simp only [upsertFin]
      exact insertSlot_simQ (ins := { ins with hit := fun _ => pure rNew, chash := idealChash H }) hi.prop hi.slotQ hi.insOk h hl ha ho hrep hc hcl he
    | leaf k p w =>
      rw [bind_ok (search_leaf hl ha hc hcl he fuel)]
      simp only [upsertFin, if_true]
      rw [he, find] at hfd
      have hne : key ≠ k := fun e => by rw [if_pos e] at hfd; cases hfd
      have hsl : slot (nbOf H) key (.node st ch) d = some (k, p, w) := by rw [slot, he]; rfl
      have hlv : lev (nbOf H) key (.node st ch) d = d + 1 := by rw [lev, he]; rfl
      have hlev' := hlev (by rw [hsl]; nofun)
      rw [hlv] at hlev'
      have hns : ¬ (nbOf H key (d + 1) = nbOf H k (d + 1) ∧ (c.encT k).getLsbD (nbOf H key (d + 1)) = true) := by
        rintro ⟨g1, g2⟩
        exact hsh ⟨_, hsl, hne, by rw [hlv]; exact g1, by rw [hlv]; exact g2⟩
      have hocc : occ ch (nbOf H key d) = true := by simp [occ, he, isEmpty]
      have hcr0 := hrep _ hr16
      rw [he] at hcr0
      obtain ⟨q, hk1, hk2, _, _⟩ := hcr0
      rw [conflict_hit (itemRef_ok hl ha (push_ok hc (nbOf H key d)) hcl) (load_ok ha.mem (ha.slot hr16 hocc))
        (by rw [hk1]; exact readKey_ok L (m := s.mem) hk2)
        (by rw [← Bool.not_eq_true]; exact fun e => hne ((L.eq_iff _ _).1 e)) (fun _ => pure rNew)]
      obtain ⟨p', s', lk', F', e1, hu, hq⟩ := conflict_simQ (H' := H) (ins := { ins with hit := fun _ => pure rNew }) (rNew := rNew)
        hi.prop hi.splitQ L hi.insOk h hB hn hl ha ho hrep
        (push_ok hc (nbOf H key d)) hcl he hf0 (fun _ => rfl)
        (fun _ => hi.chash k d fuel0 (by omega) hf1)
        (fun k j _ h1 h2 => L.digest k j h1 h2)
        (fun _ => Or.inl hi.guard)
        (fun hne => by
          have := hsep _ hsl hne
          rw [hlv] at this
          exact this)
        (fun _ heq => by
          cases hb : (c.encT k).getLsbD (nbOf H key (d + 1)) with
          | false => rfl
          | true => exact absurd ⟨heq, hb⟩ hns)
      have hst := ha.tm.st_clear hr16 hocc
      refine ⟨p', s', lk', F', ?_, ?_, hq hne⟩
      · rw [e1, if_neg hne]
      · rw [show st &&& ~~~(1#32 <<< nbOf H key d) = st from hst, insP, if_neg hne, if_neg hns]
        rw [T.ins, if_neg hne] at hu
        exact hu
    | node st' ch' =>
      have hocc : occ ch (nbOf H key d) = true := by simp [occ, he, isEmpty]
      rw [bind_run, search_node hl ha hc hcl he fuel, ← bind_run]
      have hd' := descend_ok L (push_ok hc (nbOf H key d)) (by have := hh.2 _ hr16; rw [he] at this; have := this.1; omega : d + 1 < 256)
        ⟨.blk b, cnt (occ ch) (nbOf H key d)⟩
      obtain ⟨p', s', lk', F', e1, hu, hq⟩ := ih (nbOf H key d) (d := d + 1) (fuel := fuel) (by rw [he]; rfl)
        (hl.child ha ho hr16 hocc) (hrep _ hr16) (hh.2 _ hr16) hfd hsep hlev hsh (by omega) hd'.1 hd'.2.1
      have hu' := Upd.lift hl ha ho hrep hr16 hocc hu (by rw [he]; rfl) (by rw [he]; rfl)
      rw [he] at hu'
      have hst := ha.tm.st_clear hr16 hocc
      rw [show st &&& ~~~(1#32 <<< nbOf H key d) = st from hst]
      exact ⟨p', s', lk, _, e1, hu', hq⟩

theorem upsert_phid {R : Type} {c : Cfg K} {sd : Seed} {H : K → Nat → BitVec 64} {ins : Ins K V R}
    {key : K} {p0 : Ptr} {f : V → V} {v : V} {rNew : R} {Q : (Nat → Option (Obj K V)) → Ptr → Prop} (L : Laws c sd H)
    (hbare : c.store = .bare) (hw : ∀ pm tm, ∃ k, c.encP k = pm ∧ c.encT k = tm)
    (hi : InsNew c sd H ins key v rNew Q)
    (h : Nat) {B n : Nat} (hB : B < 256)
    {s : St K V} {fuel0 : Nat} (hf0 : B < fuel0) (hf1 : 17 ≤ fuel0) (t : T K Ptr V) :
    ∀ {d b0 i0 : Nat} {xs0 : List Link} {lk : Link} {F : Nat → Prop} {cur : Cur} {fuel : Nat},
    t.isNode = true → Loc s b0 i0 xs0 lk F → Rep c s.mem t d lk F → Ht B t d →
    Parts (nbOf H) B key t d → lev (nbOf H) key t d ≤ 240 →
    Shadows (nbOf H) c.encT key t d → B < fuel + d →
    CurOk H key d cur → cur.l = ⟨.blk b0, i0⟩ →
    ∃ ph A w s' lk' F', (search c sd key fuel cur >>= upsertFin c sd h fuel0 key ins) s = .ok (rNew, s') ∧
      Upd c h s (ghost s s' h) b0 i0 xs0 lk' F F' t (insP (nbOf H) c.encT n key p0 v f (ph, .blk A, w) t d) d ∧
      (∀ e, slot (nbOf H) key t d = some e → PhOf c (nbOf H) key e.1 (lev (nbOf H) key t d + 1) ph) ∧
      (s'.roots h).len = (s.roots h).len + 1 ∧ ∃ ys, s'.mem A = some (.links ys) := by
  induction t with
  | empty => intro d b0 i0 xs0 lk F cur fuel h; cases h
  | leaf => intro d b0 i0 xs0 lk F cur fuel h; cases h
  | node st ch ih =>
    intro d b0 i0 xs0 lk F cur fuel _ hl hr hh hsep hlev hsh hf hc hcl
    obtain ⟨b, xs, G, ha, ho, hrep⟩ := hr
    have hd : d ≤ B := hh.1
    obtain ⟨fuel, rfl⟩ : ∃ f, fuel = f + 1 := ⟨fuel - 1, by omega⟩
    have hr16 := nbOf_lt H key d
    simp only [insP]
    cases he : ch (nbOf H key d) with
    | empty =>
      obtain ⟨e, h1, _⟩ := hsh
      rw [slot, he] at h1
      cases h1
    | leaf k p w =>
      rw [bind_ok (search_leaf hl ha hc hcl he fuel)]
      simp only [upsertFin, if_true]
      have hsl : slot (nbOf H) key (.node st ch) d = some (k, p, w) := by rw [slot, he]; rfl
      have hlv : lev (nbOf H) key (.node st ch) d = d + 1 := by rw [lev, he]; rfl
      obtain ⟨e, h1, hne, h2, h3⟩ := hsh
      rw [hsl] at h1
      cases h1
      rw [hlv] at h2 h3 hlev
      have hocc : occ ch (nbOf H key d) = true := by simp [occ, he, isEmpty]
      obtain ⟨ph, A, s', lk', F', e1, hu, hph, hlen, hA⟩ := conflict_hid (ins := ins) (rNew := rNew) L hbare hw hi.newSplit hi.guard h hB hl ha ho hrep
        (push_ok hc (nbOf H key d)) hcl he hf0 hne (hi.chash k d fuel0 (by omega) hf1)
        (by have := hsep _ hsl hne; rw [hlv] at this; exact this) h2 h3
      have hst := ha.tm.st_clear hr16 hocc
      refine ⟨ph, A, w, s', lk', F', e1, ?_, ?_, hlen, hA⟩
      · rw [show st &&& ~~~(1#32 <<< nbOf H key d) = st from hst, insP, if_neg hne, if_pos ⟨h2, h3⟩]
        exact hu
      · intro e h1
        rw [hsl] at h1
        cases h1
        rw [hlv]
        exact hph
    | node st' ch' =>
      have hocc : occ ch (nbOf H key d) = true := by simp [occ, he, isEmpty]
      rw [bind_run, search_node hl ha hc hcl he fuel, ← bind_run]
      have hd' := descend_ok L (push_ok hc (nbOf H key d)) (by have := hh.2 _ hr16; rw [he] at this; have := this.1; omega : d + 1 < 256)
        ⟨.blk b, cnt (occ ch) (nbOf H key d)⟩
      obtain ⟨ph, A, w, s', lk', F', e1, hu, hph, hlen, hA⟩ := ih (nbOf H key d) (d := d + 1) (fuel := fuel) (by rw [he]; rfl)
        (hl.child ha ho hr16 hocc) (hrep _ hr16) (hh.2 _ hr16) hsep hlev hsh (by omega) hd'.1 hd'.2.1
      have hu' := Upd.lift hl ha ho hrep hr16 hocc hu (by rw [he]; rfl) (by rw [he]; rfl)
      rw [he] at hu'
      have hst := ha.tm.st_clear hr16 hocc
      rw [show st &&& ~~~(1#32 <<< nbOf H key d) = st from hst]
      exact ⟨ph, A, w, s', lk, _, e1, hu', hph, hlen, hA⟩

theorem upsert_pdeep {R : Type} {c : Cfg K} {sd : Seed} {H : K → Nat → BitVec 64} {ins : Ins K V R}
    {key : K} {v : V} {rNew : R} {Q : (Nat → Option (Obj K V)) → Ptr → Prop} (L : Laws c sd H)
    (hi : InsNew c sd H ins key v rNew Q)
    (h : Nat) {B : Nat} (hB : B < 256) {s : St K V} {fuel0 : Nat} (t : T K Ptr V) :
    ∀ {d b0 i0 : Nat} {xs0 : List Link} {lk : Link} {F : Nat → Prop} {cur : Cur} {fuel : Nat} {e : K × Ptr × V},
    t.isNode = true → Loc s b0 i0 xs0 lk F → Rep c s.mem t d lk F → Ht B t d →
    slot (nbOf H) key t d = some e → key ≠ e.1 → 240 < lev (nbOf H) key t d → B < fuel + d →
    CurOk H key d cur → cur.l = ⟨.blk b0, i0⟩ →
    (search c sd key fuel cur >>= upsertFin c sd h fuel0 key ins) s = .error .diverge := by
  induction t with
  | empty => intro d b0 i0 xs0 lk F cur fuel e h; cases h
  | leaf => intro d b0 i0 xs0 lk F cur fuel e h; cases h
  | node st ch ih =>
    intro d b0 i0 xs0 lk F cur fuel e _ hl hr hh hsl hne hlev hf hc hcl
    obtain ⟨b, xs, G, ha, ho, hrep⟩ := hr
    have hd : d ≤ B := hh.1
    obtain ⟨fuel, rfl⟩ : ∃ f, fuel = f + 1 := ⟨fuel - 1, by omega⟩
    have hr16 := nbOf_lt H key d
    cases he : ch (nbOf H key d) with
    | empty =>
      rw [slot, he] at hsl
      cases hsl
    | leaf k p w =>
      rw [bind_ok (search_leaf hl ha hc hcl he fuel)]
      simp only [upsertFin, if_true]
      rw [slot, he, slot] at hsl
      cases hsl
      rw [lev, he, lev] at hlev
      have hocc : occ ch (nbOf H key d) = true := by simp [occ, he, isEmpty]
      have hcr0 := hrep _ hr16
      rw [he] at hcr0
      obtain ⟨q, hk1, hk2, _, _⟩ := hcr0
      rw [conflict, bind_ok (itemRef_ok hl ha (push_ok hc (nbOf H key d)) hcl), bind_ok (load_ok ha.mem (ha.slot hr16 hocc)), hk1,
        bind_ok (readKey_ok L (m := s.mem) hk2), if_neg (fun e => hne ((L.eq_iff _ _).1 e))]
      refine bind_err ?_
      have hd' : (cur.push (nbOf H key d)).d = d := hc.d
      rw [hd', hi.deep k d fuel0 (by omega) (by omega)]
      rfl
    | node st' ch' =>
      have hocc : occ ch (nbOf H key d) = true := by simp [occ, he, isEmpty]
      rw [bind_run, search_node hl ha hc hcl he fuel, ← bind_run]
      have hd' := descend_ok L (push_ok hc (nbOf H key d)) (by have := hh.2 _ hr16; rw [he] at this; have := this.1; omega : d + 1 < 256)
        ⟨.blk b, cnt (occ ch) (nbOf H key d)⟩
      exact ih (nbOf H key d) (d := d + 1) (fuel := fuel) (by rw [he]; rfl)
        (hl.child ha ho hr16 hocc) (hrep _ hr16) (hh.2 _ hr16) hsl hne hlev (by omega) hd'.1 hd'.2.1

/-! ### The invariant -/

/-- The container with root `h` holds `t`; `n` keys were hidden.  The keys of `t` satisfy `S`. -/
structure PInv (c : Cfg K) (sd : Seed) (S : K → Prop) (n : Nat) (s : St K V) (h : Nat) (t : T K Ptr V) (F : Nat → Prop) : Prop where
  rep : ∃ lk, Loc s h 0 [lk] lk F ∧ Rep c s.mem t 0 lk F
  seed : (s.roots h).seed = sd
  node : t.isNode = true
  ht : Ht 255 t 0
  keys : ∀ e ∈ leaves t, S e.1
  len : (s.roots h).len = BitVec.ofNat 64 (size t 0 + n)

section
variable {c : Cfg K} {sd : Seed} {H : K → Nat → BitVec 64} {S : K → Prop} {n : Nat} {s : St K V} {h : Nat} {t : T K Ptr V}
  {F : Nat → Prop} {fuel : Nat}

theorem Upd.pinv {s' : St K V} {t' : T K Ptr V}
    {F' : Nat → Prop} {lk lk' : Link} (hi : PInv c sd S n s h t F) (hl : Loc s h 0 [lk] lk F)
    (hu : Upd c h s s' h 0 [lk] lk' F F' t t' 0)
    (hn : t'.isNode = true) (hh : Ht 255 t' 0) (he : ∀ e ∈ leaves t', S e.1) :
    PInv c sd S n s' h t' F' ∧ Chg s s' h F F' := by
  refine ⟨⟨⟨lk', hu.loc hl, hu.rep⟩, by rw [hu.acct.seed, hi.seed], hn, hh, he, ?_⟩,
    ⟨hu.frame, hu.next, hu.foot, hu.acct.other⟩⟩
  have := hu.acct.len
  rw [hi.len, BitVec.ofNat_add, BitVec.add_assoc, BitVec.add_comm (BitVec.ofNat 64 (size t 0)), ← BitVec.ofNat_add,
    Nat.add_comm n] at this
  exact (BitVec.add_left_inj _).1 this

theorem PInv.new (c : Cfg K) (sd : Seed) (S : K → Prop) (s : St K V) :
    ∃ s', newRoot sd s = .ok (some s.next, s') ∧
      PInv c sd S 0 s' s.next (.node 0#32 fun _ => .empty) (fun a => a = s.next + 1) := by
  obtain ⟨s', e1, i1, _⟩ := Inv.new c sd (fun _ _ => 0#64) True s
  refine ⟨s', e1, i1.rep, i1.seed, i1.node, i1.ht, ?_, by rw [Nat.add_zero]; exact i1.len⟩
  intro e he; rw [leaves_node] at he; simp [leaves] at he

theorem PInv.lookup (L : Laws c sd H) (hi : PInv c sd S n s h t F) (hk : c.forget = false) (hf : 256 ≤ fuel) (key : K) :
    Amt.lookup c h fuel key s = .ok ((find (nbOf H) key t 0).map (fun e => e.1), s) := by
  obtain ⟨lk, hl, hr⟩ := hi.rep
  rw [lookup_eq, bind_ok (getRoot_run h s), hi.seed]
  exact lookup_sim L hk key (by omega : 255 < 256) t hi.node hl hr hi.ht (by omega) (start_ok L key h) rfl

theorem PInv.lookup_has (L : Laws c sd H) (hi : PInv c sd S n s h t F) (hf : 256 ≤ fuel) (key : K) :
    ∃ o, Amt.lookup c h fuel key s = .ok (o, s) ∧ o.isSome = (find (nbOf H) key t 0).isSome := by
  obtain ⟨lk, hl, hr⟩ := hi.rep
  rw [lookup_eq, bind_ok (getRoot_run h s), hi.seed]
  obtain ⟨o, e1, e2, _⟩ := lookup_simQ L key (by omega : 255 < 256) t (d := 0) (fuel := fuel) hi.node hl hr hi.ht (by omega) (start_ok L key h) rfl
  exact ⟨o, e1, e2⟩

/-- On a key that is found, `Set`, `Mod` and `Add` only run their hit branch on its cell. -/
theorem PInv.upsert_hitQ {R : Type} {ins : Ins K V R} {key : K} {p : Ptr} {v : V}
    (L : Laws c sd H) (hi : PInv c sd S n s h t F) (hf : 256 ≤ fuel) (hs : find (nbOf H) key t 0 = some (p, v)) :
    ∃ q, Amt.upsert c h fuel key ins s = ins.hit q s ∧ (c.forget = false → q = p) := by
  obtain ⟨lk, hl, hr⟩ := hi.rep
  obtain ⟨cur, b, e1, e2⟩ := search_sim L key (by omega : 255 < 256) t hi.node hl hr hi.ht (by omega : 255 < fuel + 0)
    (start_ok L key h) rfl
  rw [upsert_eq, bind_ok (getRoot_run h s), hi.seed, bind_ok e1]
  rw [find_slot] at hs
  cases hsl : slot (nbOf H) key t 0 with
  | none => rw [hsl] at hs; cases hs
  | some e =>
    rw [hsl] at hs e2
    obtain ⟨rfl, _, _, item, x, _, e3, e4, e5, e6⟩ := e2
    simp only [Option.bind_some] at hs
    by_cases hk : key = e.1
    · rw [if_pos hk] at hs
      simp only [Option.some.injEq] at hs
      simp only [upsertFin, conflict, if_true]
      rw [bind_ok e3, bind_ok e4, bind_ok e5, if_pos ((L.eq_iff _ _).2 hk)]
      exact ⟨_, rfl, fun hf => by rw [e6 hf, hs]⟩
    · rw [if_neg hk] at hs; cases hs

theorem PInv.upsert_hit {R : Type} {ins : Ins K V R} {key : K} {p : Ptr} {v : V}
    (L : Laws c sd H) (hi : PInv c sd S n s h t F) (hk : c.forget = false) (hf : 256 ≤ fuel) (hs : find (nbOf H) key t 0 = some (p, v)) :
    Amt.upsert c h fuel key ins s = ins.hit p s := by
  obtain ⟨q, e1, e2⟩ := hi.upsert_hitQ (ins := ins) L hf hs
  rw [e1, e2 hk]

/-- Any two keys satisfying `S` differ in one of the nibbles 240 to 255. -/
def SepLast (H : K → Nat → BitVec 64) (S : K → Prop) : Prop :=
  ∀ a b, S a → S b → a ≠ b → ∃ j, 240 ≤ j ∧ j ≤ 255 ∧ nbOf H a j ≠ nbOf H b j

theorem isNode_insP {nb : K → Nat → Nat} {sb : K → BitVec 32} {m : Nat} {key : K} {p : Ptr} {v : V} {f : V → V} {g : K × Ptr × V}
    {d : Nat} (hn : t.isNode = true) : (insP nb sb m key p v f g t d).isNode = true := by
  cases t with
  | node st ch => rfl
  | empty => cases hn
  | leaf => cases hn

/-- A new key: it is added; or it is hidden, together with the key in its slot, behind a phantom; or the call
hangs. -/
theorem PInv.upsert_new {R : Type} {ins : Ins K V R} {key : K} {v : V} {rNew : R} {Q : (Nat → Option (Obj K V)) → Ptr → Prop}
    (L : Laws c sd H) (hi : PInv c sd S n s h t F) (hins : InsNew c sd H ins key v rNew Q)
    (hbare : c.store = .bare) (hw : ∀ pm tm, ∃ k, c.encP k = pm ∧ c.encT k = tm)
    (hS : SepLast H S) (hk : S key) (hfd : find (nbOf H) key t 0 = none) (hf : 256 ≤ fuel)
    (hph : ∀ k x d ph, PhOf c (nbOf H) k x d ph → S ph) :
    (∃ p s' F', Amt.upsert c h fuel key ins s = .ok (rNew, s') ∧ ¬ Shadows (nbOf H) c.encT key t 0 ∧ Parts (nbOf H) 255 key t 0 ∧ Q s'.mem p ∧
      PInv c sd S n s' h (insP (nbOf H) c.encT 256 key p v id (key, .nil, v) t 0) F' ∧ Chg s s' h F F') ∨
    (∃ ph A w s' F', Amt.upsert c h fuel key ins s = .ok (rNew, s') ∧ Shadows (nbOf H) c.encT key t 0 ∧ lev (nbOf H) key t 0 ≤ 240 ∧
      (∃ ys, s'.mem A = some (.links ys)) ∧
      (∀ e, slot (nbOf H) key t 0 = some e → PhOf c (nbOf H) key e.1 (lev (nbOf H) key t 0 + 1) ph) ∧
      PInv c sd S (n + 1) s' h (insP (nbOf H) c.encT 256 key .nil v id (ph, .blk A, w) t 0) F' ∧ Chg s s' h F F') ∨
    (∃ e, slot (nbOf H) key t 0 = some e ∧ key ≠ e.1 ∧ 240 < lev (nbOf H) key t 0 ∧
      ∀ fuel, 256 ≤ fuel → Amt.upsert c h fuel key ins s = .error .diverge) := by
  obtain ⟨lk, hl, hr⟩ := hi.rep
  have hrun : ∀ fuel, Amt.upsert c h fuel key ins s = (search c sd key fuel (start c sd key h) >>= upsertFin c sd h fuel key ins) s := by
    intro fuel
    rw [upsert_eq, bind_ok (getRoot_run h s), hi.seed]
  simp only [hrun]
  have hne : ∀ e, slot (nbOf H) key t 0 = some e → key ≠ e.1 := by
    intro e he hk
    rw [find_slot, he, Option.bind_some, if_pos hk] at hfd
    cases hfd
  by_cases hdeep : (∃ e, slot (nbOf H) key t 0 = some e) ∧ 240 < lev (nbOf H) key t 0
  · obtain ⟨⟨e, he⟩, hlev⟩ := hdeep
    exact Or.inr (Or.inr ⟨e, he, hne e he, hlev, fun fuel hf => upsert_pdeep L hins h (by omega : 255 < 256) t hi.node hl hr hi.ht he (hne e he) hlev
      (by omega : 255 < fuel + 0) (start_ok L key h) rfl⟩)
  · have hlev : slot (nbOf H) key t 0 ≠ none → lev (nbOf H) key t 0 ≤ 240 := by
      intro h1
      refine Nat.le_of_not_lt fun h2 => hdeep ⟨?_, h2⟩
      cases h3 : slot (nbOf H) key t 0 with
      | none => exact absurd h3 h1
      | some e => exact ⟨e, rfl⟩
    have hparts : Parts (nbOf H) 255 key t 0 := by
      intro e he hke
      obtain ⟨j, h1, h2, h3⟩ := hS key e.1 hk (hi.keys e (slot_mem (nbOf_lt H) he)) hke
      have := hlev (by rw [he]; nofun)
      exact ⟨j, by omega, h2, h3⟩
    by_cases hsh : Shadows (nbOf H) c.encT key t 0
    · obtain ⟨ph, A, w, s', lk', F', e1, hu, h2, h3, h4⟩ := upsert_phid (p0 := .nil) (f := id) (n := 256) L hbare hw hins h (by omega : 255 < 256)
        (by omega : 255 < fuel) (by omega) t hi.node hl hr hi.ht hparts
        (by obtain ⟨e, he, _⟩ := hsh; exact hlev (by rw [he]; nofun)) hsh (by omega : 255 < fuel + 0) (start_ok L key h) rfl
      obtain ⟨e, he, _⟩ := hsh
      have hi' := Upd.pinv hi hl hu (isNode_insP hi.node) (Ht_insP (nbOf_lt H) hparts hi.ht) (fun e' he' => by
        rcases mem_insP (nbOf_lt H) he' with h5 | h5 | ⟨rfl, _⟩
        · rw [h5]; exact hk
        · exact hi.keys e' h5
        · exact hph _ _ _ _ (h2 e he))
      refine Or.inr (Or.inl ⟨ph, A, w, s', F', e1, ⟨e, he, ‹_›⟩, hlev (by rw [he]; nofun), h4, h2, ?_, ?_⟩)
      · obtain ⟨⟨lk2, hl2, hr2⟩, h6, h7, h8, h9, h10⟩ := hi'.1
        refine ⟨⟨lk2, ?_, hr2⟩, ?_, h7, h8, h9, ?_⟩
        · exact ⟨hl2.mem, hl2.get, hl2.lt, hl2.nF, hl2.bound⟩
        · simpa [ghost] using h6
        · have : (s.roots h).len = BitVec.ofNat 64 (size (insP (nbOf H) c.encT 256 key .nil v id (ph, .blk A, w) t 0) 0 + n) := by
            simpa [ghost] using h10
          rw [h3, this, ← Nat.add_assoc, BitVec.ofNat_add _ 1]
          rfl
      · have h5 := hi'.2
        exact ⟨h5.frame, h5.next, h5.foot, fun a ha => by have := h5.roots a ha; simpa [ghost, ha] using this⟩
    · obtain ⟨p, s', lk', F', e1, hu, hq⟩ := upsert_pnew (f := id) (g := (key, .nil, v)) L hins h (by omega : 255 < 256)
        (by omega : 255 < 256) (by omega : 255 < fuel) (by omega) t hi.node hl hr hi.ht hfd hparts hlev hsh (by omega : 255 < fuel + 0)
        (start_ok L key h) rfl
      refine Or.inl ⟨p, s', F', e1, hsh, hparts, hq, Upd.pinv hi hl hu (isNode_insP hi.node) (Ht_insP (nbOf_lt H) hparts hi.ht) (fun e' he' => ?_)⟩
      rcases mem_insP (nbOf_lt H) he' with h5 | h5 | ⟨_, h5⟩
      · rw [h5]; exact hk
      · exact hi.keys e' h5
      · exact absurd h5 hsh

/-- `Del` removes the entry of a key that is found, and does nothing otherwise. -/
theorem PInv.delete (L : Laws c sd H) (hi : PInv c sd S n s h t F) {skip : Bool → Bool} (hsk : ∀ b, skip b = !b)
    (key : K) (hf : 256 ≤ fuel) :
    match find (nbOf H) key t 0 with
    | none => Amt.delete c h fuel skip key s = .ok ((), s)
    | some _ => ∃ s' F', Amt.delete c h fuel skip key s = .ok ((), s') ∧
        PInv c sd S n s' h (delRoot (nbOf H) key t) F' ∧ Chg s s' h F F' := by
  obtain ⟨lk, hl, hr⟩ := hi.rep
  have hnb := nbOf_lt H
  have hnode := hi.node
  cases ht : t with
  | empty => rw [ht] at hnode; cases hnode
  | leaf => rw [ht] at hnode; cases hnode
  | node st ch =>
  subst ht
  have hrun : ∀ (s : St K V), (s.roots h).seed = sd → Amt.delete c h fuel skip key s
      = (search c sd key fuel (start c sd key h) >>= deleteFin c h skip key) s := by
    intro s hs; rw [delete_eq, bind_ok (getRoot_run h s), hs]
  rw [hrun s hi.seed]
  have hsim := delete_sim L skip key (h := h) (by omega : 255 < 256) (.node st ch) rfl hl hr hi.ht
    (by omega : 255 < fuel + 0) (start_ok L key h) rfl rfl
  have hfs := find_slot (nb := nbOf H) key (.node st ch) 0
  cases hs : slot (nbOf H) key (.node st ch) 0 with
  | none => rw [hs] at hsim hfs; rw [hfs]; exact hsim
  | some e =>
    rw [hs] at hsim hfs
    rw [Option.bind_some] at hfs
    simp only [hsk] at hsim
    by_cases hke : key = e.1
    · rw [if_pos hke] at hfs
      rw [if_neg (by simp [hke])] at hsim
      rw [hfs]
      obtain ⟨s', lk', F', hout⟩ := hsim
      have hcut : cut (nbOf H) key (ch (nbOf H key 0)) (0 + 1) = del (nbOf H) key (ch (nbOf H key 0)) 1 :=
        cut_eq_del' (p := e.2.1) (v := e.2.2) (by rw [hke]; rw [hke] at hs; exact hs)
      have hmk : mkAt st 0 (upd ch (nbOf H key 0) (cut (nbOf H) key (ch (nbOf H key 0)) (0 + 1)))
          = delRoot (nbOf H) key (.node st ch) := by rw [hcut]; rfl
      rw [hmk] at hout
      refine ⟨s', F', hout.node rfl, Upd.pinv hi hl hout.upd rfl ?_ ?_⟩
      · rw [delRoot]
        exact Ht_upd hi.ht (Ht_del hnb (hi.ht.2 _ (hnb key 0)))
      · intro e' he'
        rw [delRoot] at he'
        obtain ⟨i, hi16, he''⟩ := mem_leaves_node.1 he'
        by_cases hii : i = nbOf H key 0
        · subst hii; rw [upd_same] at he''
          exact hi.keys e' (mem_leaves_node.2 ⟨_, hi16, mem_del hnb he''⟩)
        · rw [upd_other _ _ hii] at he''
          exact hi.keys e' (mem_leaves_node.2 ⟨_, hi16, he''⟩)
    · rw [if_neg hke] at hfs
      rw [if_pos (by simp [hke])] at hsim
      rw [hfs]; exact hsim

theorem PInv.scan {U : Type} {visit : U → Link → Amt.M K V (U × Bool)} {g : U → K → V → U × V × Bool}
    (hi : PInv c sd S n s h t F) (hv : VisitOk c visit g) (hf : 256 ≤ fuel) (u : U) :
    ∃ s' F', Amt.scan visit fuel u ⟨.blk h, 0⟩ s = .ok (((scanT g t u).1, (scanT g t u).2.2), s') ∧
      PInv c sd S n s' h (scanT g t u).2.1 F' ∧ Chg s s' h F F' := by
  obtain ⟨lk, hl, hr⟩ := hi.rep
  obtain ⟨s', F', e1, hu⟩ := scan_sim hv h t (u := u) (fuel := fuel) hi.node hl hr hi.ht (by omega)
  have hve := scanT_veq g t u
  exact ⟨s', F', e1, Upd.pinv hi hl hu (by rw [hve.isNode]; exact hi.node) (hve.Ht hi.ht) (fun e he => by
      obtain ⟨v, hv⟩ := hve.mem_key he
      exact hi.keys (e.1, e.2.1, v) hv)⟩


end

end Amt
