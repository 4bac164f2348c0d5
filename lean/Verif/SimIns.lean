/- `Set`, `Mod` and `Add` simulate insertion into the pure trie. -/
import Verif.Sim

set_option linter.unusedVariables false

namespace Amt
open T

variable {K V : Type}

/-- A freshly made cell. -/
structure NewCell (c : Cfg K) (s s' : St K V) (key : K) (p : Ptr) (v : V) : Prop where
  kv : KvAt c s'.mem key p v
  frame : ∀ a, a < s.next → s'.mem a = s.mem a
  next : s.next ≤ s'.next
  fresh : ∀ a, p = .blk a → s.next ≤ a ∧ a < s'.next
  roots : s'.roots = s.roots

/-- A property of the cell of a pointer. -/
def CellProp (Q : (Nat → Option (Obj K V)) → Ptr → Prop) : Prop :=
  ∀ m m' p, (∀ a, p = .blk a → m' a = m a) → Q m p → Q m' p

/-- The effect of an access to the cell `p` of a key: its value becomes `v`. -/
structure CellSet (c : Cfg K) (s s' : St K V) (key : K) (p : Ptr) (v : V) : Prop where
  kv : KvAt c s'.mem key p v
  frame : ∀ a, p ≠ .blk a → s'.mem a = s.mem a
  next : s'.next = s.next
  roots : s'.roots = s.roots
  bare : c.store = .bare → s'.mem = s.mem

/-- The insertion hooks do to cells what `f`, `vSlot` and `vSplit` say, and return `gHit` / `rNew`. -/
structure InsOk {R : Type} (c : Cfg K) (sd : Seed) (H : K → Nat → BitVec 64) (ins : Ins K V R) (key : K)
    (f : V → V) (vSlot vSplit : V) (gHit : V → R) (rNew : R) : Prop where
  chash : ∀ ckey d fuel, d < 256 → 17 ≤ fuel →
    ins.chash sd key ckey d fuel = .ok (hdAt H ckey d, d / 16 + 1)
  hit : ∀ s p v, KvAt c s.mem key p v →
    ∃ s', ins.hit p s = .ok (gHit v, s') ∧ CellSet c s s' key p (f v)
  newSlot : ∀ s, ∃ p s', ins.newSlot s = .ok ((p, rNew), s') ∧ NewCell c s s' key p vSlot
  newSplit : ∀ s, ∃ p s', ins.newSplit s = .ok ((p, rNew), s') ∧ NewCell c s s' key p vSplit

/-! ### A new key in a free slot -/

/-- The branch after a new key was placed into slot `r`. -/
theorem Rep.insert {c : Cfg K} {m m' : Nat → Option (Obj K V)} {st : BitVec 32} {ch : Nat → T K Ptr V} {d : Nat}
    {lk lk' : Link} {b b' : Nat} {xs zs : List Link} {F : Nat → Prop} {G : Nat → Nat → Prop}
    {r : Nat} {key : K} {p : Ptr} {v : V}
    (ha : Arr m st ch d lk b xs) (ho : Own F b G)
    (hr : ∀ i, i < 16 → Rep c m (ch i) (d + 1) (xs.getD (cnt (occ ch) i) {}) (G i))
    (hr16 : r < 16) (hemp : ch r = .empty)
    (hkv : KvAt c m' key p v)
    (hpG : ∀ a i, p = .blk a → i < 16 → ¬ G i a) (hpb : p ≠ .blk b')
    (hb' : ∀ i, i < 16 → ¬ G i b')
    (hfr : ∀ i a, i < 16 → G i a → m' a = m a)
    (hm' : m' b' = some (.links zs))
    (hlen : zs.length = capOf d (cnt (occ ch) 16 + 1))
    (hzs : ∀ j, j ≤ cnt (occ ch) 16 → zs[j]? =
      if j < cnt (occ ch) r then xs[j]? else if j = cnt (occ ch) r then some (mkLink c key p)
      else xs[j - 1]?)
    (hptr : lk'.ptr = .blk b') (hpm : lk'.pmap = lk.pmap ||| bitOf r) (htm : lk'.tmap = lk.tmap ||| bitOf r) :
    Rep c m' (.node (st &&& ~~~bitOf r) (upd ch r (.leaf key p v))) d lk'
      (fun a => a = b' ∨ p = .blk a ∨ ∃ i, i < 16 ∧ G i a) := by
  have hocr : occ ch r = false := by simp [occ, hemp, isEmpty]
  have hcnt := cnt_set (f := occ ch) (g := occ (upd ch r (.leaf key p v))) hocr
    (by simp [occ, isEmpty]) (fun j hj => occ_upd_other hj)
  have hGr : ∀ a, ¬ G r a := by have := hr r hr16; rw [hemp] at this; exact this
  refine ⟨b', zs, fun i a => if i = r then p = .blk a else G i a, ?_, ?_, ?_⟩
  · refine ⟨hptr, hm', ?_, ?_, ?_⟩
    · rw [hlen, hcnt 16, if_pos hr16]
    · rw [hpm]; exact ha.pm.or_bit hr16 (by simp [occ, isEmpty]) (fun j hj => occ_upd_other hj)
    · rw [htm]; exact ha.tm.leaf hr16 rfl
  · refine ⟨fun a => ?_, fun i hi => ?_, fun i j a hi hj h1 h2 => ?_⟩
    · constructor
      · rintro (h | h | ⟨i, hi, h⟩)
        · exact Or.inl h
        · exact Or.inr ⟨r, hr16, by simpa using h⟩
        · have : i ≠ r := fun e => hGr a (e ▸ h)
          exact Or.inr ⟨i, hi, by simpa [this] using h⟩
      · rintro (h | ⟨i, hi, h⟩)
        · exact Or.inl h
        · by_cases hne : i = r
          · rw [if_pos hne] at h; exact Or.inr (Or.inl h)
          · rw [if_neg hne] at h; exact Or.inr (Or.inr ⟨i, hi, h⟩)
    · by_cases hne : i = r
      · simpa [hne] using hpb
      · simpa [hne] using hb' i hi
    · by_cases h3 : i = r <;> by_cases h4 : j = r
      · rw [h3, h4]
      · rw [if_pos h3] at h1; rw [if_neg h4] at h2; exact absurd h2 (hpG a j h1 hj)
      · rw [if_neg h3] at h1; rw [if_pos h4] at h2; exact absurd h1 (hpG a i h2 hi)
      · rw [if_neg h3] at h1; rw [if_neg h4] at h2; exact ho.disj i j a hi hj h1 h2
  · intro i hi
    rw [hcnt i]
    by_cases hne : i = r
    · subst hne
      have h1 := hzs (cnt (occ ch) i) (cnt_mono _ (by omega))
      rw [if_neg (by omega), if_pos rfl] at h1
      rw [upd_same, if_neg (by omega : ¬ i < i)]
      show Rep c m' _ _ (zs.getD (cnt (occ ch) i) {}) _
      rw [getD_of_getElem? h1]
      simp only [if_true]
      exact Rep.leaf_mk rfl hkv fun a => Iff.rfl
    · rw [upd_other _ _ hne]
      simp only [if_neg hne]
      have h0 := hr i hi
      by_cases hoi : occ ch i = true
      · have h16 := cnt_lt (occ ch) hi hoi
        have : zs.getD (cnt (occ ch) i + (if r < i then 1 else 0)) {} = xs.getD (cnt (occ ch) i) {} := by
          by_cases hri : r < i
          · have hmono := cnt_mono (occ ch) (Nat.le_of_lt hri)
            have h1 := hzs (cnt (occ ch) i + 1) (by omega)
            rw [if_neg (by omega), if_neg (by omega)] at h1
            rw [if_pos hri, List.getD_eq_getElem?_getD, h1, List.getD_eq_getElem?_getD]
            rfl
          · have hlt := cnt_lt (occ ch) (by omega : i < r) hoi
            have h1 := hzs (cnt (occ ch) i) (by omega)
            rw [if_pos hlt] at h1
            rw [if_neg hri, List.getD_eq_getElem?_getD, Nat.add_zero, h1, List.getD_eq_getElem?_getD]
        rw [this]
        exact h0.frame (fun a hg => hfr i a hi hg)
      · have he : ch i = .empty := isEmpty_iff.1 (by simpa [occ] using hoi)
        rw [he] at h0 ⊢
        exact h0

theorem acct_insert {h : Nat} {s s' : St K V} {st st' : BitVec 32} {ch : Nat → T K Ptr V} {r d : Nat} {key : K} {p : Ptr} {v : V}
    (hr : r < 16) (hemp : ch r = .empty)
    (hs : s'.roots = fun a => if a = h then
      { s.roots a with len := (s.roots a).len + 1, dep := (s.roots a).dep + BitVec.ofNat 64 d }
      else s.roots a) :
    Acct h s s' (.node st ch) (.node st' (upd ch r (.leaf key p v))) d := by
  apply Acct.lift hr
  rw [hemp]
  refine ⟨fun a ha => by rw [hs]; simp [ha], by rw [hs]; simp, by rw [hs]; simp [size, tsum], ?_⟩
  rw [hs]; simp [dsum, tsum]

theorem insertSlot_simQ {R : Type} {c : Cfg K} {sd : Seed} {H : K → Nat → BitVec 64} {ins : Ins K V R}
    {key : K} {f : V → V} {vSlot vSplit : V} {gHit : V → R} {rNew : R}
    {Q : (Nat → Option (Obj K V)) → Ptr → Prop} (hQ : CellProp Q) (hq : ∀ s p s', ins.newSlot s = .ok ((p, rNew), s') → Q s'.mem p)
    (hi : InsOk c sd H ins key f vSlot vSplit gHit rNew) (h : Nat)
    {s : St K V} {b0 i0 : Nat} {xs0 : List Link} {lk : Link} {F : Nat → Prop} {cur : Cur}
    {st : BitVec 32} {ch : Nat → T K Ptr V} {d b : Nat} {xs : List Link} {G : Nat → Nat → Prop}
    (hl : Loc s b0 i0 xs0 lk F) (ha : Arr s.mem st ch d lk b xs) (ho : Own F b G)
    (hrep : ∀ i, i < 16 → Rep c s.mem (ch i) (d + 1) (xs.getD (cnt (occ ch) i) {}) (G i))
    (hc : CurOk H key d cur) (hcl : cur.l = ⟨.blk b0, i0⟩) (hemp : ch (nbOf H key d) = .empty) :
    ∃ p s' lk' F', insertSlot c h key ins cur s = .ok (rNew, s') ∧
      Upd c h s s' b0 i0 xs0 lk' F F' (.node st ch)
        (.node (st &&& ~~~bitOf (nbOf H key d)) (upd ch (nbOf H key d) (.leaf key p vSlot))) d ∧ Q s'.mem p := by
  have hr16 := nbOf_lt H key d
  generalize hr : nbOf H key d = r at *
  have hcount : cnt (occ ch) 16 + 1 ≤ 16 := by
    have := cnt_set (f := occ ch) (g := occ (upd ch r (.leaf key Ptr.nil vSlot)))
      (by simp [occ, hemp, isEmpty]) (by simp [occ, isEmpty]) (fun j hj => occ_upd_other hj) 16
    rw [if_pos hr16] at this
    rw [← this]; exact cnt_le16 _
  have hidx : cnt (occ ch) r ≤ cnt (occ ch) 16 := cnt_mono _ (by omega)
  have hbF : F b := (ho.foot b).2 (Or.inl rfl)
  have hbb0 : b ≠ b0 := fun e => hl.nF (e ▸ hbF)
  have hblt := hl.bound b hbF
  have hGF : ∀ i a, i < 16 → G i a → F a := fun i a hi hg => (ho.foot a).2 (Or.inr ⟨i, hi, hg⟩)
  have hGlt : ∀ i a, i < 16 → G i a → a < s.next := fun i a hi hg => hl.bound a (hGF i a hi hg)
  have hGb0 : ∀ i a, i < 16 → G i a → a ≠ b0 := fun i a hi hg e => hl.nF (e ▸ hGF i a hi hg)
  have hGb : ∀ i a, i < 16 → G i a → a ≠ b := fun i a hi hg e => ho.nob i hi (e ▸ hg)
  have hb0lt := hl.lt
  obtain ⟨p, s1, e1, hn⟩ := hi.newSlot s
  have hm0 : s1.mem b0 = some (.links xs0) := by rw [hn.frame b0 hl.lt, hl.mem]
  have hmb : s1.mem b = some (.links xs) := by rw [hn.frame b hblt, ha.mem]
  have hi0 : i0 < xs0.length := by
    rcases Nat.lt_or_ge i0 xs0.length with h' | h'
    · exact h'
    · have := hl.get; rw [List.getElem?_eq_none h'] at this; cases this
  have hpG : ∀ a i, p = .blk a → i < 16 → ¬ G i a := by
    intro a i hp hi hg
    have := hn.fresh a hp; have := hGlt i a hi hg; omega
  have hcur : radixOf cur.hd = r := by rw [hc.radix, hr]
  have hclen := ha.cnt_le_len
  rw [insertSlot, hcur, hcl, bind_ok (load_ok hl.mem hl.get)]
  simp only
  rw [bind_ok e1]
  simp only
  rw [bind_ok (load_ok hm0 hl.get)]
  simp only [ha.pm.rankOf (Nat.le_of_lt hr16), ha.pm.popcount, hc.d]
  by_cases hcase : (cnt (occ ch) 16 ≠ 0 ∧ cnt (occ ch) 16 % 4 ≠ 0) ∨ d = 0
  · rw [if_pos hcase]
    have hlen : xs.length = capOf d (cnt (occ ch) 16 + 1) := by
      rw [ha.len]; unfold capOf
      split
      · rfl
      · omega
    have hlt : cnt (occ ch) 16 < xs.length := by
      have := le_capOf (d := d) hcount; omega
    rw [ha.ptr]
    obtain ⟨ys, e2, hyl, hys⟩ := shiftUp_ok (idx := cnt (occ ch) r) (cnt (occ ch) 16) xs s1 hmb hlt
    rw [bind_ok e2, bind_ok (store_ok (xs := ys) (by simp) (by omega)), put_put]
    rw [bind_ok (modLink_ok (xs := xs0) (x := lk) (by simp [Ne.symm hbb0, hm0]) hl.get),
      bind_ok (modRoot_run ..)]
    refine ⟨p, _, { ptr := lk.ptr, pmap := lk.pmap ||| bitOf r, tmap := lk.tmap ||| bitOf r },
      (fun a => a = b ∨ p = .blk a ∨ ∃ i, i < 16 ∧ G i a), rfl, ?_, hQ _ _ _ (fun a ha' => by
        have := hn.fresh a ha'
        simp [show a ≠ b0 by omega, show a ≠ b by omega]) (hq _ _ _ e1)⟩
    refine ⟨by simp, ?_, ?_, ?_, ?_, ?_⟩
    · intro a h1 h2 h3
      have h4 : a ≠ b := fun e => h3 (e ▸ hbF)
      simp [h2, h4, hn.frame a h1]
    · simp [hn.next]
    rotate_left
    · refine Rep.insert (m := s.mem) (b' := b) (zs := ys.set (cnt (occ ch) r) (mkLink c key p))
        ha ho hrep hr16 hemp ?_ hpG ?_ ho.nob ?_ (by simp [hbb0]) (by rw [List.length_set, hyl, hlen])
        ?_ ha.ptr rfl rfl
      · refine hn.kv.frame (fun a hp => ?_)
        have := hn.fresh a hp
        simp [show a ≠ b0 by omega, show a ≠ b by omega]
      · intro hp; have := hn.fresh b hp; omega
      · intro i a hi' hg
        simp [hGb0 i a hi' hg, hGb i a hi' hg, hn.frame a (hGlt i a hi' hg)]
      · intro j hj
        rw [List.getElem?_set]
        by_cases h1 : j = cnt (occ ch) r
        · subst h1; simp; omega
        · rw [if_neg (fun e => h1 e.symm), hys j]
          by_cases h2 : j < cnt (occ ch) r
          · rw [if_pos h2, if_neg (by omega)]
          · rw [if_neg h2, if_neg h1, if_pos (by omega)]
    · exact acct_insert hr16 hemp (by funext a; simp [hn.roots, St.root])
    · rintro a (h1 | h1 | ⟨i, hi', hg⟩)
      · exact Or.inl (h1 ▸ hbF)
      · exact Or.inr (by simpa using hn.fresh a h1)
      · exact Or.inl (hGF i a hi' hg)
  · rw [if_neg hcase]
    have hd0 : d ≠ 0 := fun e => hcase (Or.inr e)
    have hnn := hn.next
    rw [bind_ok (newLinkArray_run _ (by omega) hcount s1)]
    rw [bind_ok (modLink_ok (xs := xs0) (x := lk)
      (by simp [show b0 ≠ s1.next by omega, hm0]) hl.get)]
    rw [ha.ptr]
    have hcap : 4 * ((cnt (occ ch) 16 + 1 + 3) / 4) = capOf d (cnt (occ ch) 16 + 1) := by
      unfold capOf; rw [if_neg hd0]
    have hcl16 := le_capOf (d := d) hcount
    rw [hcap]
    obtain ⟨ys, e2, hyl, hys⟩ := copyUp_ok (K := K) (V := V) (b := s1.next) (b' := b) (doff := 0) (soff := 0)
      (xs := xs) (by omega) (cnt (occ ch) r) 0 (List.replicate (capOf d (cnt (occ ch) 16 + 1)) {})
      ((s1.push (.links (List.replicate (capOf d (cnt (occ ch) 16 + 1)) {}))).put b0
        (.links (xs0.set i0 { ptr := .blk s1.next, pmap := lk.pmap, tmap := lk.tmap })))
      (by simp [show s1.next ≠ b0 by omega])
      (by simp [hbb0, show b ≠ s1.next by omega, hmb])
      (by rw [List.length_replicate]; omega) (by omega)
    rw [bind_ok e2]
    rw [bind_ok (store_ok (xs := ys) (by simp) (by rw [hyl, List.length_replicate]; omega)), put_put]
    obtain ⟨zs, e3, hzl, hzs⟩ := copyUp_ok (K := K) (V := V) (b := s1.next) (b' := b) (doff := 1) (soff := 0)
      (xs := xs) (by omega) (cnt (occ ch) 16 - cnt (occ ch) r) (cnt (occ ch) r)
      (ys.set (cnt (occ ch) r) (mkLink c key p))
      (((s1.push (.links (List.replicate (capOf d (cnt (occ ch) 16 + 1)) {}))).put b0
        (.links (xs0.set i0 { ptr := .blk s1.next, pmap := lk.pmap, tmap := lk.tmap }))).put s1.next
          (.links (ys.set (cnt (occ ch) r) (mkLink c key p))))
      (by simp)
      (by simp [hbb0, show b ≠ s1.next by omega, hmb])
      (by rw [List.length_set, hyl, List.length_replicate]; omega) (by omega)
    rw [bind_ok e3, put_put]
    rw [bind_ok (modLink_ok (xs := xs0.set i0 { ptr := .blk s1.next, pmap := lk.pmap, tmap := lk.tmap })
      (x := { ptr := .blk s1.next, pmap := lk.pmap, tmap := lk.tmap })
      (by simp [show b0 ≠ s1.next by omega]) (by simp [hi0])), bind_ok (modRoot_run ..)]
    refine ⟨p, _, { ptr := .blk s1.next, pmap := lk.pmap ||| bitOf r, tmap := lk.tmap ||| bitOf r },
      (fun a => a = s1.next ∨ p = .blk a ∨ ∃ i, i < 16 ∧ G i a), rfl, ?_, hQ _ _ _ (fun a ha' => by
        have := hn.fresh a ha'
        simp [show a ≠ b0 by omega, show a ≠ s1.next by omega]) (hq _ _ _ e1)⟩
    refine ⟨by simp [List.set_set], ?_, ?_, ?_, ?_, ?_⟩
    · intro a h1 h2 h3
      simp [h2, show a ≠ s1.next by omega, hn.frame a h1]
    · simp; omega
    rotate_left
    · refine Rep.insert (m := s.mem) (b' := s1.next) (zs := zs)
        ha ho hrep hr16 hemp ?_ hpG ?_ ?_ ?_ (by simp [show s1.next ≠ b0 by omega])
        (by rw [hzl, List.length_set, hyl, List.length_replicate])
        ?_ rfl rfl rfl
      · refine hn.kv.frame (fun a hp => ?_)
        have := hn.fresh a hp
        simp [show a ≠ b0 by omega, show a ≠ s1.next by omega]
      · intro hp; have := hn.fresh s1.next hp; omega
      · intro i hi' hg; have := hGlt i _ hi' hg; omega
      · intro i a hi' hg
        have := hGlt i a hi' hg
        simp [hGb0 i a hi' hg, show a ≠ s1.next by omega, hn.frame a this]
      · intro j hj
        rw [hzs j, List.getElem?_set, hys j]
        by_cases h1 : j < cnt (occ ch) r
        · rw [if_neg (by omega), if_neg (by omega), if_pos (by omega), if_pos h1]; rfl
        · by_cases h2 : j = cnt (occ ch) r
          · subst h2
            rw [if_neg (by omega), if_pos rfl, if_pos (by rw [hyl, List.length_replicate]; omega),
              if_neg (by omega), if_pos rfl]
          · rw [if_pos (by omega), if_neg h1, if_neg h2]; rfl
    · exact acct_insert hr16 hemp (by funext a; simp [hn.roots, St.root])
    · rintro a (h1 | h1 | ⟨i, hi', hg⟩)
      · right; simp; omega
      · right; have := hn.fresh a h1; simp; omega
      · exact Or.inl (hGF i a hi' hg)

theorem insertSlot_sim {R : Type} {c : Cfg K} {sd : Seed} {H : K → Nat → BitVec 64} {ins : Ins K V R}
    {key : K} {f : V → V} {vSlot vSplit : V} {gHit : V → R} {rNew : R}
    (hi : InsOk c sd H ins key f vSlot vSplit gHit rNew) (h : Nat)
    {s : St K V} {b0 i0 : Nat} {xs0 : List Link} {lk : Link} {F : Nat → Prop} {cur : Cur}
    {st : BitVec 32} {ch : Nat → T K Ptr V} {d b : Nat} {xs : List Link} {G : Nat → Nat → Prop}
    (hl : Loc s b0 i0 xs0 lk F) (ha : Arr s.mem st ch d lk b xs) (ho : Own F b G)
    (hrep : ∀ i, i < 16 → Rep c s.mem (ch i) (d + 1) (xs.getD (cnt (occ ch) i) {}) (G i))
    (hc : CurOk H key d cur) (hcl : cur.l = ⟨.blk b0, i0⟩) (hemp : ch (nbOf H key d) = .empty) :
    ∃ p s' lk' F', insertSlot c h key ins cur s = .ok (rNew, s') ∧
      Upd c h s s' b0 i0 xs0 lk' F F' (.node st ch)
        (.node (st &&& ~~~bitOf (nbOf H key d)) (upd ch (nbOf H key d) (.leaf key p vSlot))) d := by
  obtain ⟨p, s', lk', F', e, hu, _⟩ := insertSlot_simQ (Q := fun _ _ => True) (fun _ _ _ _ h => h) (fun _ _ _ _ => trivial)
    hi h hl ha ho hrep hc hcl hemp
  exact ⟨p, s', lk', F', e, hu⟩

end Amt
