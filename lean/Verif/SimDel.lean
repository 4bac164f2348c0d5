/- `Del` simulates removal from the pure trie. -/
import Verif.SimSplit

set_option linter.unusedVariables false

namespace Amt
open T

variable {K V : Type}

/-! ### Removing whatever sits in a key's slot -/

section
variable {P : Type} (nb : K → Nat → Nat)

/-- The entry found by following the nibbles of `key`, whatever its key is. -/
def T.slot (key : K) : T K P V → Nat → Option (K × P × V)
  | .empty, _ => none
  | .leaf k p v, _ => some (k, p, v)
  | .node st ch, d => slot key (ch (nb key d)) (d + 1)

/-- Remove that entry (below the root). -/
def T.cut (key : K) : T K P V → Nat → T K P V
  | .empty, _ => .empty
  | .leaf _ _ _, _ => .empty
  | .node st ch, d => mk st (upd ch (nb key d) (cut key (ch (nb key d)) (d + 1)))

variable {nb}

theorem T.slot_mem (hnb : ∀ k d, nb k d < 16) {key : K} {t : T K P V} {d : Nat} {e : K × P × V}
    (h : slot nb key t d = some e) : e ∈ leaves t := by
  induction t generalizing d with
  | empty => cases h
  | leaf k p v => simp only [slot, Option.some.injEq] at h; simp [leaves, h]
  | node st ch ih => exact mem_leaves_node.2 ⟨_, hnb key d, ih _ h⟩

theorem T.find_slot [DecidableEq K] (key : K) (t : T K P V) (d : Nat) :
    find nb key t d = (slot nb key t d).bind (fun e => if key = e.1 then some e.2 else none) := by
  induction t generalizing d with
  | empty => rfl
  | leaf k p v => simp [find, slot]
  | node st ch ih => exact ih _ _

theorem T.cut_eq_del [DecidableEq K] (hnb : ∀ k d, nb k d < 16) {key : K} {t : T K P V} {d : Nat} {k : K} {p : P}
    {v : V} (hw : WF nb t d) (h : slot nb key t d = some (k, p, v)) : cut nb key t d = del nb k t d := by
  induction t generalizing d with
  | empty => cases h
  | leaf k' p' v' =>
    simp only [slot, Option.some.injEq, Prod.mk.injEq] at h
    simp [cut, del, h.1]
  | node st ch ih =>
    have hm := slot_mem hnb (t := ch (nb key d)) (d := d + 1) h
    have hk : nb k d = nb key d := (hw.2 _ (hnb key d)).1 _ hm
    rw [cut, del, hk, ih _ (hw.2 _ (hnb key d)).2 h]

end

/-! ### A branch without one of its items -/

theorem Rep.remove {c : Cfg K} {m m' : Nat → Option (Obj K V)} {st : BitVec 32} {ch : Nat → T K Ptr V} {d : Nat}
    {lk lk' : Link} {b b' : Nat} {xs zs : List Link} {F : Nat → Prop} {G : Nat → Nat → Prop} {r : Nat}
    (ha : Arr m st ch d lk b xs) (ho : Own F b G)
    (hr : ∀ i, i < 16 → Rep c m (ch i) (d + 1) (xs.getD (cnt (occ ch) i) {}) (G i))
    (hr16 : r < 16) (hocc : occ ch r = true)
    (hb' : ∀ i, i < 16 → i ≠ r → ¬ G i b')
    (hfr : ∀ i a, i < 16 → i ≠ r → G i a → m' a = m a)
    (hm' : m' b' = some (.links zs))
    (hlen : zs.length = capOf d (cnt (occ ch) 16 - 1))
    (hzs : ∀ j, j < cnt (occ ch) 16 - 1 → zs[j]? =
      if j < cnt (occ ch) r then xs[j]? else xs[j + 1]?)
    (hptr : lk'.ptr = .blk b') (hpm : lk'.pmap = lk.pmap &&& ~~~bitOf r)
    (htm : lk'.tmap = lk.tmap &&& ~~~bitOf r) :
    Rep c m' (.node st (upd ch r .empty)) d lk' (fun a => a = b' ∨ ∃ i, i < 16 ∧ i ≠ r ∧ G i a) := by
  have hcnt := cnt_set (f := occ (upd ch r .empty)) (g := occ ch) (i := r) (by simp [occ, isEmpty]) hocc
    (fun j hj => (occ_upd_other hj).symm)
  refine ⟨b', zs, fun i a => i ≠ r ∧ G i a, ?_, ?_, ?_⟩
  · refine ⟨hptr, hm', ?_, ?_, ?_⟩
    · rw [hlen, hcnt 16, if_pos hr16]; rfl
    · rw [hpm]; exact ha.pm.andNot_bit hr16 (by simp [occ, isEmpty]) (fun j hj => occ_upd_other hj)
    · rw [htm]; exact ha.tm.unleaf hr16 hocc rfl
  · refine ⟨fun a => Iff.rfl, fun i hi h => hb' i hi h.1 h.2, fun i j a hi hj h1 h2 => ?_⟩
    exact ho.disj i j a hi hj h1.2 h2.2
  · intro i hi
    by_cases hne : i = r
    · subst hne
      rw [upd_same]
      intro a h; exact h.1 rfl
    · rw [upd_other _ _ hne]
      have h0 := hr i hi
      have hfoot : ∀ a, (i ≠ r ∧ G i a) ↔ G i a := fun a => ⟨fun h => h.2, fun h => ⟨hne, h⟩⟩
      refine Rep.congr_foot ?_ hfoot
      by_cases hoi : occ ch i = true
      · have h16 := cnt_lt (occ ch) hi hoi
        have hci := hcnt i
        have : zs.getD (cnt (occ (upd ch r .empty)) i) {} = xs.getD (cnt (occ ch) i) {} := by
          by_cases hri : r < i
          · have hlt := cnt_lt (occ ch) hri hocc
            rw [if_pos hri] at hci
            have h1 := hzs (cnt (occ (upd ch r .empty)) i) (by omega)
            rw [if_neg (by omega), ← hci] at h1
            rw [List.getD_eq_getElem?_getD, h1, List.getD_eq_getElem?_getD]
          · have hlt := cnt_lt (occ ch) (by omega : i < r) hoi
            have hr16' := cnt_lt (occ ch) hr16 hocc
            rw [if_neg hri, Nat.add_zero] at hci
            have h1 := hzs (cnt (occ (upd ch r .empty)) i) (by omega)
            rw [if_pos (by omega), ← hci] at h1
            rw [← hci, List.getD_eq_getElem?_getD, h1, List.getD_eq_getElem?_getD]
        rw [this]
        exact h0.frame (fun a hg => hfr i a hi hne hg)
      · have he : ch i = .empty := isEmpty_iff.1 (by simpa [occ] using hoi)
        rw [he] at h0 ⊢
        exact h0

/-! ### The two loops on the way up -/

/-- The rest of `unlink` once a branch at depth `d + 1` became empty. -/
def popA (h d : Nat) (path : List (Nat × Option Ref)) : M K V Unit := do
  let (radix, l') ← pathAt path d
  let lk ← load l'
  let idx' := rankOf lk.pmap radix
  modLink l' fun y => { y with pmap := y.pmap &&& ~~~bitOf radix, tmap := y.tmap &&& ~~~bitOf radix }
  let lk' ← load l'
  unlink h d (pathClear path d) l' idx' (popcount lk'.pmap)

/-- The rest of `collapse` once a branch at depth `d + 1` was replaced by its only key. -/
def popC (h d : Nat) (path : List (Nat × Option Ref)) : M K V Unit := do
  let (radix, l') ← pathAt path d
  modLink l' fun y => { y with tmap := y.tmap ||| bitOf radix }
  let lk' ← load l'
  collapse h d (pathClear path d) l' (popcount lk'.pmap)

theorem unlink_zero (h d : Nat) (path : List (Nat × Option Ref)) (l : Ref) (idx : Nat) :
    (unlink h (d + 1) path l idx 0 : M K V Unit)
      = (do modLink l fun y => { y with ptr := .nil }
            popA h d path) := by
  rw [unlink, if_pos rfl]; rfl

theorem unlink_ne (h d : Nat) (path : List (Nat × Option Ref)) (l : Ref) (idx count : Nat)
    (hc : count ≠ 0 ∨ d = 0) :
    (unlink h d path l idx count : M K V Unit)
      = (do shiftBack d l idx count
            collapse h d path l count) := by
  cases d with
  | zero => rw [unlink]
  | succ d =>
    rw [unlink, if_neg]
    rcases hc with h' | h'
    · exact h'
    · cases h'

theorem collapse_succ (h d : Nat) (path : List (Nat × Option Ref)) (l : Ref) (count : Nat) :
    (collapse h (d + 1) path l count : M K V Unit)
      = (do let lk ← load l
            if count = 1 ∧ lk.pmap = lk.tmap then do
              let x ← load ⟨lk.ptr, 0⟩
              store l x
              modRoot h fun m => { m with dep := m.dep - 1 }
              popC h d path
            else pure ()) := by
  rw [collapse]; rfl

/-- How a removal inside a branch ends: the branch `t` became `t'`; depending on what `t'` is, the program
is done, or goes on in the parent branch with the rest of the path. -/
structure Out (c : Cfg K) (h : Nat) (res : Except Fault (Unit × St K V)) (s : St K V) (b0 i0 : Nat)
    (xs0 : List Link) (F : Nat → Prop) (t t' : T K Ptr V) (d : Nat) (P : List (Nat × Option Ref))
    (s' : St K V) (lk' : Link) (F' : Nat → Prop) : Prop where
  upd : Upd c h s s' b0 i0 xs0 lk' F F' t t' d
  node : t'.isNode = true → res = .ok ((), s')
  leaf : t'.isLeaf = true → ∃ Q e, Q.take d = P ∧ d = e + 1 ∧ res = popC h e Q s'
  empty : t'.isEmpty = true → ∃ Q e, Q.take d = P ∧ d = e + 1 ∧ res = popA h e Q s'

/-- `mk` below the root, nothing at the root. -/
def mkAt (st : BitVec 32) (d : Nat) (ch : Nat → T K Ptr V) : T K Ptr V := if d = 0 then .node st ch else mk st ch

theorem cnt_filter (f : Nat → Bool) (n : Nat) : cnt f n = ((List.range n).filter f).length := by
  unfold cnt; rw [List.countP_eq_length_filter]

theorem mk_single {ch : Nat → T K Ptr V} (hc : cnt (occ ch) 16 = 1)
    (hl : ∀ i, i < 16 → occ ch i = lf ch i) :
    ∃ i, i < 16 ∧ occ ch i = true ∧ cnt (occ ch) i = 0 ∧ mk 0#32 ch = ch i ∧ (ch i).isLeaf = true := by
  rw [cnt_filter] at hc
  obtain ⟨i, hi⟩ := List.length_eq_one_iff.1 hc
  have hm : i ∈ (List.range 16).filter (occ ch) := by rw [hi]; simp
  rw [List.mem_filter, List.mem_range] at hm
  have hlf : (ch i).isLeaf = true := by
    have := hl i hm.1; rw [hm.2] at this; exact this.symm
  refine ⟨i, hm.1, hm.2, ?_, ?_, hlf⟩
  · rw [cnt_eq_zero]
    intro j hj
    cases ho : occ ch j with
    | false => rfl
    | true =>
      have : j ∈ (List.range 16).filter (occ ch) := by
        rw [List.mem_filter, List.mem_range]; exact ⟨by omega, ho⟩
      rw [hi] at this
      simp at this; omega
  · have hi' : (List.range 16).filter (fun i => !(ch i).isEmpty) = [i] := hi
    rw [mk, hi']
    simp [hlf]

theorem mk_other {st : BitVec 32} {ch : Nat → T K Ptr V} (h0 : cnt (occ ch) 16 ≠ 0)
    (h : ¬ (cnt (occ ch) 16 = 1 ∧ (∀ i, i < 16 → occ ch i = lf ch i) ∧ st = 0#32)) : mk st ch = .node st ch := by
  rw [cnt_filter] at h0 h
  have e : (List.range 16).filter (occ ch) = (List.range 16).filter (fun i => !(ch i).isEmpty) := rfl
  rw [e] at h0 h
  rw [mk]
  split
  · rename_i hx; rw [hx] at h0; simp at h0
  · rename_i i hx
    split
    · rename_i hlf
      exfalso; apply h
      refine ⟨by rw [hx]; rfl, fun j hj => ?_, hlf.2⟩
      by_cases hji : j = i
      · subst hji
        have : j ∈ (List.range 16).filter (fun i => !(ch i).isEmpty) := by rw [hx]; simp
        have := (List.mem_filter.1 this).2
        simp only [occ, lf, hlf.1, this]
      · have hn : j ∉ (List.range 16).filter (fun i => !(ch i).isEmpty) := by rw [hx]; simp [hji]
        have ho : (!(ch j).isEmpty) = false := by
          cases ho : (!(ch j).isEmpty) with
          | false => rfl
          | true => exact absurd (List.mem_filter.2 ⟨List.mem_range.2 hj, ho⟩) hn
        have hee : ch j = .empty := isEmpty_iff.1 (by simpa using ho)
        simp [occ, lf, hee, isEmpty, isLeaf]
    · rfl
  · rfl

theorem mk_none {st : BitVec 32} {ch : Nat → T K Ptr V} (h0 : cnt (occ ch) 16 = 0) : mk st ch = .empty := by
  rw [cnt_filter] at h0
  have hx : (List.range 16).filter (fun i => !(ch i).isEmpty) = [] := List.length_eq_zero_iff.1 h0
  rw [mk, hx]

theorem dsum_single {st : BitVec 32} {ch : Nat → T K Ptr V} {i d : Nat} (hi : i < 16) (hc : ∀ j, j < 16 → j ≠ i → ch j = .empty)
    (g : Nat → Nat) : tsum g (.node st ch) d = tsum g (ch i) (d + 1) := by
  obtain ⟨C, h⟩ := tsum_upd g ch hi d
  have h1 := h st (ch i); rw [upd_self] at h1
  have h2 := h st .empty
  have : tsum g (.node st (upd ch i .empty)) d = 0 := by
    rw [tsum_node]
    apply List.sum_eq_zero_iff_forall_eq_nat.2
    intro x hx
    obtain ⟨j, hj, rfl⟩ := List.mem_map.1 hx
    by_cases hji : j = i
    · subst hji; simp [tsum]
    · rw [upd_other _ _ hji, hc j (List.mem_range.1 hj) hji]; rfl
  simp only [tsum] at h2 this h1 ⊢
  omega

theorem collapse_sim {c : Cfg K} {h : Nat} {s s' : St K V} {b0 i0 : Nat} {xs0 : List Link} {lk lk' : Link}
    {F F' : Nat → Prop} {t : T K Ptr V} {st : BitVec 32} {ch : Nat → T K Ptr V} {d : Nat} {P Q : List (Nat × Option Ref)}
    (hl : Loc s b0 i0 xs0 lk F) (hu : Upd c h s s' b0 i0 xs0 lk' F F' t (.node st ch) d)
    (hc : cnt (occ ch) 16 ≠ 0 ∨ d = 0) (hQ : Q.take d = P) :
    ∃ s'' lk'' F'', Out c h (collapse h d Q ⟨.blk b0, i0⟩ (cnt (occ ch) 16) s') s b0 i0 xs0 F t (mkAt st d ch) d P
      s'' lk'' F'' := by
  cases d with
  | zero =>
    refine ⟨s', lk', F', ⟨hu, fun _ => rfl, ?_, ?_⟩⟩
    · intro h'; simp [mkAt, isLeaf] at h'
    · intro h'; simp [mkAt, isEmpty] at h'
  | succ d =>
    have hc' : cnt (occ ch) 16 ≠ 0 := by
      rcases hc with h' | h'
      · exact h'
      · cases h'
    have hmk : mkAt st (d + 1) ch = mk st ch := by simp [mkAt]
    rw [hmk]
    have hi0 : i0 < xs0.length := by
      rcases Nat.lt_or_ge i0 xs0.length with h' | h'
      · exact h'
      · have := hl.get; rw [List.getElem?_eq_none h'] at this; cases this
    obtain ⟨b, xs, G, ha, ho, hrep⟩ := hu.rep
    rw [collapse_succ, bind_ok (load_ok (x := lk') hu.link (by simp [hi0]))]
    by_cases hcase : cnt (occ ch) 16 = 1 ∧ lk'.pmap = lk'.tmap
    · rw [if_pos hcase]
      obtain ⟨hbits, rfl⟩ := (ha.tm.eq_pm ha.pm).1 hcase.2
      obtain ⟨i, hi, hocc, hci, hmki, hlf⟩ := mk_single hcase.1 hbits
      have hothers : ∀ j, j < 16 → j ≠ i → ch j = .empty := by
        intro j hj hji
        cases ho' : occ ch j with
        | false => exact isEmpty_iff.1 (by simpa [occ] using ho')
        | true =>
          exfalso
          rcases Nat.lt_or_ge j i with h1 | h1
          · have := cnt_lt (occ ch) h1 ho'; omega
          · have h2 := cnt_lt (occ ch) (by omega : i < j) hocc
            have h3 := cnt_lt (occ ch) hj ho'
            have := hcase.1; omega
      rw [hmki]
      have hbF' : F' b := (ho.foot b).2 (Or.inl rfl)
      have hbb0 : b ≠ b0 := by
        intro e
        rcases hu.foot b hbF' with h1 | h1
        · exact hl.nF (e ▸ h1)
        · have := hl.lt; omega
      have hri := hrep i hi
      cases hchi : ch i with
      | empty => rw [hchi] at hlf; cases hlf
      | node _ _ => rw [hchi] at hlf; cases hlf
      | leaf k p v =>
      rw [hchi] at hri
      have hslot := ha.slot hi hocc
      rw [hci] at hslot hri
      obtain ⟨q, h1, h2, h3, hq⟩ := hri
      rw [ha.ptr, bind_ok (load_ok ha.mem hslot), bind_ok (store_ok hu.link (by simp [hi0])),
        bind_ok (modRoot_run ..), List.set_set]
      refine ⟨St.root (s'.put b0 (.links (xs0.set i0 (xs.getD 0 {})))) h (fun m => { m with dep := m.dep - 1 }),
        xs.getD 0 {}, G i, ⟨?_, ?_, ?_, ?_⟩⟩
      · have hGF' : ∀ a, G i a → F' a := fun a hg => (ho.foot a).2 (Or.inr ⟨i, hi, hg⟩)
        refine ⟨by simp, ?_, hu.next, fun a hg => hu.foot a (hGF' a hg), ?_, ?_⟩
        · intro a g1 g2 g3
          simp only [root_mem, put_mem, if_neg g2]
          exact hu.frame a g1 g2 g3
        · rw [h1]
          refine ⟨q, rfl, h2.frame (fun a ha' => ?_), h3, hq⟩
          have hg := (h3 a).2 ha'
          have : a ≠ b0 := by
            intro e
            rcases hu.foot a (hGF' a hg) with q | q
            · exact hl.nF (e ▸ q)
            · have := hl.lt; omega
          simp only [root_mem, put_mem, if_neg this]
        · have hac := hu.acct
          have hsz := dsum_single (st := 0#32) (d := d + 1) hi hothers (fun _ => 1)
          have hds := dsum_single (st := 0#32) (d := d + 1) hi hothers (fun l => l - 1)
          rw [hchi] at hsz hds
          refine ⟨fun a hah => ?_, ?_, ?_, ?_⟩
          · simp only [root_roots, put_roots, if_neg hah]; exact hac.other a hah
          · simp only [root_roots, put_roots, if_true]; exact hac.seed
          · simp only [root_roots, put_roots, if_true]
            have := hac.len
            unfold size at this ⊢
            rw [hsz] at this; exact this
          · simp only [root_roots, put_roots, if_true]
            have := hac.dep
            unfold dsum at this ⊢
            rw [hds] at this
            simp only [tsum] at this ⊢
            rw [show d + 1 + 1 - 1 = (d + 1 - 1) + 1 by omega, BitVec.ofNat_add, ← BitVec.add_assoc] at this
            have e1 : (s'.roots h).dep - 1 + BitVec.ofNat 64 (tsum (fun l => l - 1) t (d + 1))
              = (s'.roots h).dep + BitVec.ofNat 64 (tsum (fun l => l - 1) t (d + 1)) - 1 := by
              rw [BitVec.sub_eq_add_neg, BitVec.sub_eq_add_neg, BitVec.add_assoc, BitVec.add_assoc,
                BitVec.add_comm (-1 : BitVec 64)]
            rw [e1, this]
            exact BitVec.add_sub_cancel _ _
      · intro h'; cases h'
      · intro _; exact ⟨Q, d, hQ, rfl, rfl⟩
      · intro h'; cases h'
    · rw [if_neg hcase]
      have : mk st ch = .node st ch := by
        apply mk_other hc'
        rintro ⟨g1, g2⟩
        exact hcase ⟨g1, (ha.tm.eq_pm ha.pm).2 g2⟩
      rw [this]
      refine ⟨s', lk', F', hu, fun _ => rfl, ?_, ?_⟩
      · intro h'; cases h'
      · intro h'; cases h'

/-! ### Unlinking -/

/-- The item in slot `r` of the branch `ch` has been dropped from the bitmaps, but the array still has a
place for it. -/
structure Cut (c : Cfg K) (h : Nat) (s s' : St K V) (b0 i0 : Nat) (xs0 : List Link) (lk : Link) (st : BitVec 32)
    (ch : Nat → T K Ptr V) (d b : Nat) (xs : List Link) (G : Nat → Nat → Prop) (r : Nat)
    (xs1 : List Link) : Prop where
  link : s'.mem b0 = some (.links (xs0.set i0
    { ptr := lk.ptr, pmap := lk.pmap &&& ~~~bitOf r, tmap := lk.tmap &&& ~~~bitOf r }))
  arr : s'.mem b = some (.links xs1)
  len : xs1.length = xs.length
  same : ∀ j, j ≠ cnt (occ ch) r → xs1[j]? = xs[j]?
  frame : ∀ a, a < s.next → a ≠ b0 → a ≠ b → ¬ G r a → s'.mem a = s.mem a
  next : s.next ≤ s'.next
  acct : Acct h s s' (.node st ch) (.node st (upd ch r .empty)) d

theorem unlink_sim {c : Cfg K} {h : Nat} {s s' : St K V} {b0 i0 : Nat} {xs0 : List Link} {lk : Link}
    {F : Nat → Prop} {st : BitVec 32} {ch : Nat → T K Ptr V} {d b : Nat} {xs xs1 : List Link} {G : Nat → Nat → Prop} {r : Nat}
    {P Q : List (Nat × Option Ref)}
    (hl : Loc s b0 i0 xs0 lk F) (ha : Arr s.mem st ch d lk b xs) (ho : Own F b G)
    (hrep : ∀ i, i < 16 → Rep c s.mem (ch i) (d + 1) (xs.getD (cnt (occ ch) i) {}) (G i))
    (hr16 : r < 16) (hocc : occ ch r = true)
    (hcut : Cut c h s s' b0 i0 xs0 lk st ch d b xs G r xs1) (hQ : Q.take d = P) :
    ∃ s'' lk'' F'', Out c h (unlink h d Q ⟨.blk b0, i0⟩ (cnt (occ ch) r) (cnt (occ (upd ch r .empty)) 16) s')
      s b0 i0 xs0 F (.node st ch) (mkAt st d (upd ch r .empty)) d P s'' lk'' F'' := by
  have hi0 : i0 < xs0.length := by
    rcases Nat.lt_or_ge i0 xs0.length with h' | h'
    · exact h'
    · have := hl.get; rw [List.getElem?_eq_none h'] at this; cases this
  have hcnt := cnt_set (f := occ (upd ch r .empty)) (g := occ ch) (i := r) (by simp [occ, isEmpty]) hocc
    (fun j hj => (occ_upd_other hj).symm) 16
  rw [if_pos hr16] at hcnt
  have hc16 := cnt_le16 ch
  have hclen := ha.cnt_le_len
  have hidx := cnt_lt (occ ch) hr16 hocc
  have hbF : F b := (ho.foot b).2 (Or.inl rfl)
  have hbb0 : b ≠ b0 := fun e => hl.nF (e ▸ hbF)
  have hblt := hl.bound b hbF
  have hGF : ∀ i a, i < 16 → G i a → F a := fun i a hi hg => (ho.foot a).2 (Or.inr ⟨i, hi, hg⟩)
  have hGlt : ∀ i a, i < 16 → G i a → a < s.next := fun i a hi hg => hl.bound a (hGF i a hi hg)
  have hGb0 : ∀ i a, i < 16 → G i a → a ≠ b0 := fun i a hi hg e => hl.nF (e ▸ hGF i a hi hg)
  have hGb : ∀ i a, i < 16 → G i a → a ≠ b := fun i a hi hg e => ho.nob i hi (e ▸ hg)
  have hb0lt := hl.lt
  have hnn := hcut.next
  have hGfr : ∀ i a, i < 16 → i ≠ r → G i a → s'.mem a = s.mem a := fun i a hi hne hg =>
    hcut.frame a (hGlt i a hi hg) (hGb0 i a hi hg) (hGb i a hi hg) (fun hg' => hne (ho.disj i r a hi hr16 hg hg'))
  have hfrF : ∀ a, a < s.next → a ≠ b0 → ¬ F a → s'.mem a = s.mem a := fun a h1 h2 h3 =>
    hcut.frame a h1 h2 (fun e => h3 (e ▸ hbF)) (fun hg => h3 (hGF r a hr16 hg))
  by_cases hz : cnt (occ (upd ch r .empty)) 16 ≠ 0 ∨ d = 0
  · rw [unlink_ne _ _ _ _ _ _ hz]
    -- the shifted branch
    have hshift : ∃ s2 lk2 F2, shiftBack d ⟨.blk b0, i0⟩ (cnt (occ ch) r) (cnt (occ (upd ch r .empty)) 16) s'
        = .ok ((), s2) ∧ Upd c h s s2 b0 i0 xs0 lk2 F F2 (.node st ch) (.node st (upd ch r .empty)) d := by
      rw [shiftBack, bind_ok (load_ok (x := { ptr := lk.ptr, pmap := lk.pmap &&& ~~~bitOf r, tmap := lk.tmap &&& ~~~bitOf r })
        hcut.link (by simp [hi0]))]
      by_cases hcase : cnt (occ (upd ch r .empty)) 16 % 4 = 0 ∧ d ≠ 0
      · rw [if_pos hcase]
        have hpos : cnt (occ (upd ch r .empty)) 16 ≠ 0 := by
          rcases hz with h' | h'
          · exact h'
          · exact absurd h' hcase.2
        rw [bind_ok (newLinkArray_run _ (by omega) (by omega) s')]
        rw [bind_ok (modLink_ok (xs := xs0.set i0 { ptr := lk.ptr, pmap := lk.pmap &&& ~~~bitOf r, tmap := lk.tmap &&& ~~~bitOf r })
          (x := { ptr := lk.ptr, pmap := lk.pmap &&& ~~~bitOf r, tmap := lk.tmap &&& ~~~bitOf r })
          (by simp [show b0 ≠ s'.next by omega, hcut.link]) (by simp [hi0]))]
        simp only [List.set_set, ha.ptr]
        generalize hN : 4 * ((cnt (occ (upd ch r .empty)) 16 + 3) / 4) = N
        have hN2 : N = cnt (occ (upd ch r .empty)) 16 := by omega
        generalize hs2 : (s'.push (.links (List.replicate N {}))).put b0
          (.links (xs0.set i0 { ptr := .blk s'.next, pmap := lk.pmap &&& ~~~bitOf r, tmap := lk.tmap &&& ~~~bitOf r })) = s2
        have hs2n : s2.next = s'.next + 1 := by rw [← hs2]; simp
        have hs2r : s2.roots = s'.roots := by rw [← hs2]; simp
        have hs2a : s2.mem s'.next = some (.links (List.replicate N {})) := by
          rw [← hs2]; simp [show s'.next ≠ b0 by omega]
        have hs2b : s2.mem b = some (.links xs1) := by
          rw [← hs2]; simp [hbb0, show b ≠ s'.next by omega, hcut.arr]
        have hs2b0 : s2.mem b0 = some (.links (xs0.set i0
          { ptr := .blk s'.next, pmap := lk.pmap &&& ~~~bitOf r, tmap := lk.tmap &&& ~~~bitOf r })) := by
          rw [← hs2]; simp
        have hs2f : ∀ a, a ≠ b0 → a ≠ s'.next → s2.mem a = s'.mem a := by
          intro a h1 h2; rw [← hs2]; simp [h1, h2]
        have hl1 := hcut.len
        obtain ⟨ys, e2, hyl, hys⟩ := copyUp_ok (K := K) (V := V) (b := s'.next) (b' := b) (doff := 0) (soff := 0)
          (xs := xs1) (by omega) (cnt (occ ch) r) 0 (List.replicate N {}) s2 hs2a hs2b
          (by rw [List.length_replicate]; omega) (by omega)
        rw [bind_ok e2]
        obtain ⟨zs, e3, hzl, hzs⟩ := copyUp_ok (K := K) (V := V) (b := s'.next) (b' := b) (doff := 0) (soff := 1)
          (xs := xs1) (by omega) (cnt (occ (upd ch r .empty)) 16 - cnt (occ ch) r) (cnt (occ ch) r) ys
          (s2.put s'.next (.links ys)) (by simp) (by simp [show b ≠ s'.next by omega, hs2b])
          (by rw [hyl, List.length_replicate]; omega) (by omega)
        rw [e3, put_put]
        refine ⟨_, { ptr := .blk s'.next, pmap := lk.pmap &&& ~~~bitOf r, tmap := lk.tmap &&& ~~~bitOf r },
          (fun a => a = s'.next ∨ ∃ i, i < 16 ∧ i ≠ r ∧ G i a), rfl, ?_⟩
        refine ⟨?_, ?_, ?_, ?_, Rep.remove (m := s.mem) (b' := s'.next) (zs := zs) ha ho hrep hr16 hocc
          ?_ ?_ (by simp) ?_ ?_ rfl rfl rfl, ?_⟩
        · rw [put_mem, if_neg (by omega), hs2b0]
        · intro a h1 h2 h3
          rw [put_mem, if_neg (by omega), hs2f a h2 (by omega), hfrF a h1 h2 h3]
        · rw [put_next, hs2n]; omega
        · rintro a (h1 | ⟨i, hi, _, hg⟩)
          · right; rw [put_next, hs2n]; omega
          · exact Or.inl (hGF i a hi hg)
        · intro i hi _ hg; have := hGlt i _ hi hg; omega
        · intro i a hi hne hg
          have := hGlt i a hi hg
          rw [put_mem, if_neg (by omega), hs2f a (hGb0 i a hi hg) (by omega), hGfr i a hi hne hg]
        · rw [hzl, hyl, List.length_replicate]; unfold capOf; rw [if_neg hcase.2]; omega
        · intro j hj
          rw [hzs j, hys j]
          by_cases h1 : j < cnt (occ ch) r
          · rw [if_neg (by omega), if_pos (by omega), if_pos h1]
            exact hcut.same j (by omega)
          · rw [if_pos (by omega), if_neg h1]
            exact hcut.same (j + 1) (by omega)
        · have hac := hcut.acct
          exact ⟨fun a h' => by rw [put_roots, hs2r]; exact hac.other a h', by rw [put_roots, hs2r]; exact hac.seed,
            by rw [put_roots, hs2r]; exact hac.len, by rw [put_roots, hs2r]; exact hac.dep⟩
      · rw [if_neg hcase]
        simp only [ha.ptr]
        have hl1 := hcut.len
        obtain ⟨zs, e3, hzl, hzs⟩ := copyDown_ok (K := K) (V := V) (b := b)
          (cnt (occ (upd ch r .empty)) 16 - cnt (occ ch) r) (cnt (occ ch) r) xs1 s' hcut.arr (by omega)
        rw [e3]
        refine ⟨_, { ptr := .blk b, pmap := lk.pmap &&& ~~~bitOf r, tmap := lk.tmap &&& ~~~bitOf r },
          (fun a => a = b ∨ ∃ i, i < 16 ∧ i ≠ r ∧ G i a), rfl, ?_⟩
        refine ⟨?_, ?_, ?_, ?_, Rep.remove (m := s.mem) (b' := b) (zs := zs) ha ho hrep hr16 hocc
          ?_ ?_ (by simp) ?_ ?_ rfl rfl rfl, ?_⟩
        · rw [put_mem, if_neg (Ne.symm hbb0), hcut.link, ha.ptr]
        · intro a h1 h2 h3
          have h4 : a ≠ b := fun e => h3 (e ▸ hbF)
          rw [put_mem, if_neg h4, hfrF a h1 h2 h3]
        · exact hnn
        · rintro a (h1 | ⟨i, hi, _, hg⟩)
          · exact Or.inl (h1 ▸ hbF)
          · exact Or.inl (hGF i a hi hg)
        · intro i hi _ hg; exact ho.nob i hi hg
        · intro i a hi hne hg
          rw [put_mem, if_neg (hGb i a hi hg), hGfr i a hi hne hg]
        · rw [hzl, hl1, ha.len]; unfold capOf
          split
          · rfl
          · omega
        · intro j hj
          rw [hzs j]
          by_cases h1 : j < cnt (occ ch) r
          · rw [if_neg (by omega), if_pos h1]
            exact hcut.same j (by omega)
          · rw [if_pos (by omega), if_neg h1]
            exact hcut.same (j + 1) (by omega)
        · have hac := hcut.acct
          exact ⟨fun a h' => by rw [put_roots]; exact hac.other a h', by rw [put_roots]; exact hac.seed,
            by rw [put_roots]; exact hac.len, by rw [put_roots]; exact hac.dep⟩
    obtain ⟨s2, lk2, F2, e1, hu⟩ := hshift
    rw [bind_ok e1]
    exact collapse_sim hl hu hz hQ
  · have hz1 : cnt (occ (upd ch r .empty)) 16 = 0 := by
      cases h' : cnt (occ (upd ch r .empty)) 16 with
      | zero => rfl
      | succ _ => exact absurd (Or.inl (by omega)) hz
    have hz2 : d ≠ 0 := fun e => hz (Or.inr e)
    obtain ⟨e, rfl⟩ : ∃ e, d = e + 1 := ⟨d - 1, by omega⟩
    have hmk : mkAt st (e + 1) (upd ch r .empty) = .empty := by simp [mkAt, mk_none hz1]
    rw [hz1, hmk, unlink_zero, bind_ok (modLink_ok (x := { ptr := lk.ptr, pmap := lk.pmap &&& ~~~bitOf r, tmap := lk.tmap &&& ~~~bitOf r })
      hcut.link (by simp [hi0]))]
    have hall : ∀ j, j < 16 → upd ch r .empty j = .empty := by
      intro j hj
      have := cnt_eq_zero.1 hz1 j hj
      exact isEmpty_iff.1 (by simpa [occ] using this)
    have hts : ∀ g, tsum g (.node st (upd ch r .empty)) (e + 1) = 0 := by
      intro g
      rw [dsum_single (i := 0) (by omega) (fun j hj _ => hall j hj), hall 0 (by omega)]; rfl
    rw [List.set_set]
    refine ⟨s'.put b0 (.links (xs0.set i0 { ptr := .nil, pmap := lk.pmap &&& ~~~bitOf r, tmap := lk.tmap &&& ~~~bitOf r })),
      { ptr := .nil, pmap := lk.pmap &&& ~~~bitOf r, tmap := lk.tmap &&& ~~~bitOf r },
      (fun _ => False), ⟨⟨by simp, ?_, hnn, fun a h' => h'.elim, fun a h' => h', ?_⟩, ?_, ?_, ?_⟩⟩
    · intro a h1 h2 h3
      rw [put_mem, if_neg h2]; exact hfrF a h1 h2 h3
    · have hac := hcut.acct
      refine ⟨hac.other, hac.seed, ?_, ?_⟩
      · have := hac.len
        unfold size at this ⊢
        rw [hts] at this; exact this
      · have := hac.dep
        unfold dsum at this ⊢
        rw [hts] at this; exact this
    · intro h'; cases h'
    · intro h'; cases h'
    · intro _; exact ⟨Q, e, hQ, rfl, rfl⟩

/-! ### The whole deletion -/

theorem take_pathClear (path : List (Nat × Option Ref)) (d : Nat) :
    (pathClear path d).take d = path.take d := by
  apply List.ext_getElem?
  intro j
  rw [List.getElem?_take, List.getElem?_take]
  split
  · rename_i hj
    unfold pathClear
    rw [List.getElem?_modify]
    have : d ≠ j := by omega
    simp [this]
  · rfl

theorem pathAt_ok {Q P : List (Nat × Option Ref)} {d r : Nat} {l : Ref} (hP : P.length = d)
    (hQ : Q.take (d + 1) = P ++ [(r, some l)]) (s : St K V) : pathAt Q d s = .ok ((r, l), s) := by
  have h1 : Q[d]? = some (r, some l) := by
    have h2 : (Q.take (d + 1))[d]? = Q[d]? := by rw [List.getElem?_take]; simp
    rw [← h2, hQ, List.getElem?_append_right (by omega)]
    simp [hP]
  unfold pathAt
  rw [h1]; rfl

theorem take_of_take_succ {Q P : List (Nat × Option Ref)} {d : Nat} {x : Nat × Option Ref} (hP : P.length = d)
    (hQ : Q.take (d + 1) = P ++ [x]) : Q.take d = P := by
  have := congrArg (List.take d) hQ
  rw [List.take_take, Nat.min_eq_left (by omega)] at this
  rw [this, List.take_append_of_le_length (by omega), List.take_of_length_le (by omega)]

theorem mk_node {st : BitVec 32} {ch : Nat → T K Ptr V} {i : Nat} (hi : i < 16) (h : (ch i).isNode = true) : mk st ch = .node st ch := by
  have hocc : occ ch i = true := by
    unfold occ
    cases hh : ch i with
    | node _ _ => rfl
    | empty => rw [hh] at h; cases h
    | leaf _ _ _ => rw [hh] at h; cases h
  apply mk_other
  · have := cnt_lt (occ ch) hi hocc; omega
  · rintro ⟨_, h2, _⟩
    have := h2 i hi
    rw [hocc] at this
    unfold lf at this
    cases hh : ch i with
    | node _ _ => rw [hh] at this; cases this
    | empty => rw [hh] at h; cases h
    | leaf _ _ _ => rw [hh] at h; cases h

theorem TmIs.leaf' {x st : BitVec 32} {ch : Nat → T K Ptr V} (h : TmIs x st ch) {r : Nat} (hr : r < 16) {t' : T K Ptr V}
    (hocc : occ ch r = true) (hlf : t'.isLeaf = true) : TmIs (x ||| bitOf r) st (upd ch r t') := by
  have := h.leaf hr hlf
  rwa [h.st_clear hr hocc] at this

/-- What `delete` does after the search loop. -/
def deleteFin (c : Cfg K) (h : Nat) (skip : Bool → Bool) (key : K) : Cur × Bool → M K V Unit
  | (cur, hit) => if hit then remove c h skip key cur else pure ()

theorem delete_eq (c : Cfg K) (h fuel : Nat) (skip : Bool → Bool) (key : K) :
    (delete c h fuel skip key : M K V Unit)
      = (do let r ← getRoot h
            let x ← search c r.seed key fuel (start c r.seed key h)
            deleteFin c h skip key x) := rfl

theorem bv_sub_add (a x : BitVec 64) : a - x + x = a := by
  rw [BitVec.sub_eq_add_neg, BitVec.add_assoc, BitVec.add_comm (-x), ← BitVec.sub_eq_add_neg, BitVec.sub_self,
    BitVec.add_zero]

variable [DecidableEq K]

/-- The leaf in the slot of the searched key is dropped from the bitmaps. -/
theorem remove_leaf {c : Cfg K} {sd : Seed} {H : K → Nat → BitVec 64} (L : Laws c sd H) (skip : Bool → Bool)
    (key : K) {h : Nat} {s : St K V} {st : BitVec 32} {ch : Nat → T K Ptr V}
    {d b0 i0 b : Nat} {xs0 xs : List Link} {lk : Link} {F : Nat → Prop} {G : Nat → Nat → Prop} {cur : Cur}
    (hl : Loc s b0 i0 xs0 lk F) (ha : Arr s.mem st ch d lk b xs) (ho : Own F b G)
    (hrep : ∀ i, i < 16 → Rep c s.mem (ch i) (d + 1) (xs.getD (cnt (occ ch) i) {}) (G i))
    (hc : CurOk H key d cur) (hcl : cur.l = ⟨.blk b0, i0⟩) {k : K} {p : Ptr} {v : V}
    (he : ch (nbOf H key d) = .leaf k p v) {P : List (Nat × Option Ref)} (hP : cur.path.take d = P) :
    if skip (decide (key = k)) then remove c h skip key cur s = .ok ((), s) else
    ∃ s' lk' F', Out c h (remove c h skip key cur s) s b0 i0 xs0 F (.node st ch)
      (mkAt st d (upd ch (nbOf H key d) .empty)) d P s' lk' F' := by
  have hr16 := nbOf_lt H key d
  have hocc : occ ch (nbOf H key d) = true := by simp [occ, he, isEmpty]
  have hcr := hrep _ hr16
  rw [he] at hcr
  obtain ⟨q, h1, h2, h3, hq⟩ := hcr
  have heq : c.eq key k = decide (key = k) := by
    by_cases hk : key = k
    · rw [(L.eq_iff _ _).2 hk]; simp [hk]
    · have : ¬ c.eq key k = true := fun h => hk ((L.eq_iff _ _).1 h)
      simp [hk, this]
  have hbF : F b := (ho.foot b).2 (Or.inl rfl)
  have hbb0 : b ≠ b0 := fun e => hl.nF (e ▸ hbF)
  have hi0 : i0 < xs0.length := by
    rcases Nat.lt_or_ge i0 xs0.length with h' | h'
    · exact h'
    · have := hl.get; rw [List.getElem?_eq_none h'] at this; cases this
  have hrun : remove c h skip key cur s = if skip (decide (key = k)) then .ok ((), s) else
      unlink h d (pathClear cur.path d) ⟨.blk b0, i0⟩ (cnt (occ ch) (nbOf H key d))
        (cnt (occ (upd ch (nbOf H key d) .empty)) 16)
        (St.root (s.put b0 (.links (xs0.set i0 ⟨lk.ptr, lk.pmap &&& ~~~bitOf (nbOf H key d),
          lk.tmap &&& ~~~bitOf (nbOf H key d)⟩))) h
          (fun m => { m with len := m.len - 1, dep := m.dep - BitVec.ofNat 64 d })) := by
    rw [remove, bind_ok (itemRef_ok hl ha hc hcl), bind_ok (load_ok ha.mem (ha.slot hr16 hocc)), h1,
      bind_ok (readKey_ok L (m := s.mem) h2), heq]
    split
    · rfl
    · rw [hcl, bind_ok (load_ok hl.mem hl.get)]
      simp only [hc.radix, hc.d]
      rw [bind_ok (modLink_ok hl.mem hl.get), bind_ok (modRoot_run ..),
        bind_ok (load_ok (xs := xs0.set i0 ⟨lk.ptr, lk.pmap &&& ~~~bitOf (nbOf H key d),
          lk.tmap &&& ~~~bitOf (nbOf H key d)⟩) (x := ⟨lk.ptr, lk.pmap &&& ~~~bitOf (nbOf H key d),
          lk.tmap &&& ~~~bitOf (nbOf H key d)⟩) (by simp) (by simp [hi0]))]
      rw [ha.pm.rankOf (Nat.le_of_lt hr16)]
      have hpm : BitsAre (lk.pmap &&& ~~~bitOf (nbOf H key d)) (occ (upd ch (nbOf H key d) .empty)) :=
        ha.pm.andNot_bit hr16 (by simp [occ, isEmpty]) (fun j hj => occ_upd_other hj)
      simp only [hpm.popcount]
  rw [hrun]
  split
  · rfl
  · refine unlink_sim hl ha ho hrep hr16 hocc (xs1 := xs) ?_ (by rw [take_pathClear]; exact hP)
    refine ⟨by simp, ?_, rfl, fun _ _ => rfl, ?_, Nat.le_refl _, ?_⟩
    · simp only [root_mem, put_mem, if_neg hbb0]; exact ha.mem
    · intro a g1 g2 g3 g4
      simp only [root_mem, put_mem, if_neg g2]
    · apply Acct.lift hr16
      rw [he]
      refine ⟨fun a hah => ?_, ?_, ?_, ?_⟩
      · simp only [root_roots, put_roots, if_neg hah]
      · simp only [root_roots, put_roots, if_true]
      · simp only [root_roots, put_roots, if_true, size, tsum]
        rw [show (BitVec.ofNat 64 1) = (1 : BitVec 64) from rfl, bv_sub_add, BitVec.add_zero]
      · simp only [root_roots, put_roots, if_true, dsum, tsum]
        rw [show d + 1 - 1 = d by omega, bv_sub_add, BitVec.add_zero]

theorem delete_sim {c : Cfg K} {sd : Seed} {H : K → Nat → BitVec 64} (L : Laws c sd H) (skip : Bool → Bool)
    (key : K) {h : Nat} {s : St K V} {B : Nat} (hB : B < 256) (t : T K Ptr V) :
    ∀ {st : BitVec 32} {ch : Nat → T K Ptr V} {d b0 i0 : Nat} {xs0 : List Link} {lk : Link} {F : Nat → Prop} {cur : Cur}
      {fuel : Nat},
    t = .node st ch → Loc s b0 i0 xs0 lk F → Rep c s.mem t d lk F → Ht B t d → B < fuel + d →
    CurOk H key d cur → cur.l = ⟨.blk b0, i0⟩ → cur.path.length = d →
    match slot (nbOf H) key t d with
    | none => (search c sd key fuel cur >>= deleteFin c h skip key) s = .ok ((), s)
    | some e =>
      if skip (decide (key = e.1)) then
        (search c sd key fuel cur >>= deleteFin c h skip key) s = .ok ((), s)
      else ∃ s' lk' F', Out c h ((search c sd key fuel cur >>= deleteFin c h skip key) s) s b0 i0 xs0 F t
        (mkAt st d (upd ch (nbOf H key d) (cut (nbOf H) key (ch (nbOf H key d)) (d + 1)))) d cur.path s' lk' F' := by
  induction t with
  | empty => intro st ch d b0 i0 xs0 lk F cur fuel h; cases h
  | leaf => intro st ch d b0 i0 xs0 lk F cur fuel h; cases h
  | node st ch ih =>
    intro st1 ch1 d b0 i0 xs0 lk F cur fuel he1 hl hr hh hf hc hcl hpl
    cases he1
    obtain ⟨b, xs, G, ha, ho, hrep⟩ := hr
    have hd : d ≤ B := hh.1
    obtain ⟨fuel, rfl⟩ : ∃ f, fuel = f + 1 := ⟨fuel - 1, by omega⟩
    have hr16 := nbOf_lt H key d
    have hbF : F b := (ho.foot b).2 (Or.inl rfl)
    have hbb0 : b ≠ b0 := fun e => hl.nF (e ▸ hbF)
    have hi0 : i0 < xs0.length := by
      rcases Nat.lt_or_ge i0 xs0.length with h' | h'
      · exact h'
      · have := hl.get; rw [List.getElem?_eq_none h'] at this; cases this
    rw [slot]
    cases he : ch (nbOf H key d) with
    | empty =>
      simp only [slot]
      rw [bind_ok (search_empty hl ha hc hcl he fuel)]
      rfl
    | leaf k p v =>
      simp only [slot]
      rw [bind_ok (search_leaf hl ha hc hcl he fuel)]
      simp only [deleteFin, if_true, cut]
      exact remove_leaf L skip key hl ha ho hrep (push_ok hc _) hcl he
        (by simp only [Cur.push]; rw [List.take_append_of_le_length (by omega), List.take_of_length_le (by omega)])
    | node st' ch' =>
      have hocc : occ ch (nbOf H key d) = true := by simp [occ, he, isEmpty]
      have hrun : (search c sd key (fuel + 1) cur >>= deleteFin c h skip key) s
          = (search c sd key fuel (descend c sd key (cur.push (nbOf H key d))
            ⟨.blk b, cnt (occ ch) (nbOf H key d)⟩) >>= deleteFin c h skip key) s := by
        rw [bind_run, search_node hl ha hc hcl he fuel, ← bind_run]
      rw [hrun]
      have hd' := descend_ok L (push_ok hc (nbOf H key d)) (by have := hh.2 _ hr16; rw [he] at this; have := this.1; omega : d + 1 < 256)
        ⟨.blk b, cnt (occ ch) (nbOf H key d)⟩
      generalize hcur' : descend c sd key (cur.push (nbOf H key d)) ⟨.blk b, cnt (occ ch) (nbOf H key d)⟩ = cur' at hd' ⊢
      have hpath : cur'.path = cur.path ++ [(nbOf H key d, some ⟨.blk b0, i0⟩)] := by
        rw [hd'.2.2]; simp only [Cur.push, hcl]
      have hI := ih (nbOf H key d) (st := st') (ch := ch') (d := d + 1) (fuel := fuel) he
        (hl.child ha ho hr16 hocc) (hrep _ hr16) (hh.2 _ hr16) (by omega) hd'.1 hd'.2.1
        (by rw [hpath]; simp [hpl])
      rw [he] at hI
      generalize (search c sd key fuel cur' >>= deleteFin c h skip key) s = res at hI ⊢
      have hcutE : mkAt st' (d + 1) (upd ch' (nbOf H key (d + 1)) (cut (nbOf H) key (ch' (nbOf H key (d + 1))) (d + 1 + 1)))
          = cut (nbOf H) key (.node st' ch') (d + 1) := by
        rw [cut]; simp [mkAt]
      rw [hcutE] at hI
      cases hsl : slot (nbOf H) key (.node st' ch') (d + 1) with
      | none => rw [hsl] at hI; exact hI
      | some e =>
      rw [hsl] at hI
      simp only at hI ⊢
      by_cases hsk : skip (decide (key = e.1)) = true
      · rw [if_pos hsk] at hI ⊢; exact hI
      · rw [if_neg hsk] at hI ⊢
        obtain ⟨s', lkc, G', hout⟩ := hI
        generalize cut (nbOf H) key (.node st' ch') (d + 1) = tc at hout ⊢
        have hu := hout.upd
        have hu' : Upd c h s s' b (cnt (occ ch) (nbOf H key d)) xs lkc (G (nbOf H key d)) G'
          (ch (nbOf H key d)) tc (d + 1) := by rw [he]; exact hu
        have hmem0 : s'.mem b0 = some (.links xs0) := by
          rw [hu.frame b0 hl.lt (Ne.symm hbb0) (fun hg => hl.nF ((ho.foot _).2 (Or.inr ⟨_, hr16, hg⟩))), hl.mem]
        cases tc with
        | node st2 ch2 =>
          have hup := Upd.lift hl ha ho hrep hr16 hocc hu' rfl (by rw [he]; rfl)
          have hmk : mkAt st d (upd ch (nbOf H key d) (.node st2 ch2)) = .node st (upd ch (nbOf H key d) (.node st2 ch2)) := by
            unfold mkAt
            split
            · rfl
            · exact mk_node hr16 (by rw [upd_same]; rfl)
          rw [hmk]
          exact ⟨s', lk, _, hup, fun _ => hout.node rfl, (fun h' => nomatch h'), (fun h' => nomatch h')⟩
        | leaf k2 p2 v2 =>
          obtain ⟨Q, e', hQ, hde, hres⟩ := hout.leaf rfl
          obtain rfl : d = e' := by omega
          rw [hpath] at hQ
          rw [hres, popC, bind_ok (pathAt_ok hpl hQ s')]
          simp only
          rw [bind_ok (modLink_ok hmem0 hl.get),
            bind_ok (load_ok (x := ⟨lk.ptr, lk.pmap, lk.tmap ||| bitOf (nbOf H key d)⟩)
              (by simp; rfl) (by simp [hi0]))]
          have hoc : occ (upd ch (nbOf H key d) (.leaf k2 p2 v2)) = occ ch := occ_upd (by rw [he]; rfl)
          have hcnt : popcount lk.pmap = cnt (occ (upd ch (nbOf H key d) (.leaf k2 p2 v2))) 16 := by
            rw [ha.pm.popcount, hoc]
          simp only [hcnt]
          have hup := Upd.lift' (lk' := ⟨lk.ptr, lk.pmap, lk.tmap ||| bitOf (nbOf H key d)⟩)
            hl ha ho hrep hr16 hocc hu' rfl rfl rfl
            (ha.tm.leaf' hr16 hocc rfl) rfl
          refine collapse_sim hl hup (Or.inl ?_) ?_
          · rw [hoc]; have := cnt_lt (occ ch) hr16 hocc; omega
          · rw [take_pathClear]; exact take_of_take_succ hpl hQ
        | empty =>
          obtain ⟨Q, e', hQ, hde, hres⟩ := hout.empty rfl
          obtain rfl : d = e' := by omega
          rw [hpath] at hQ
          rw [hres, popA, bind_ok (pathAt_ok hpl hQ s')]
          simp only
          rw [bind_ok (load_ok hmem0 hl.get), bind_ok (modLink_ok hmem0 hl.get),
            bind_ok (load_ok (x := ⟨lk.ptr, lk.pmap &&& ~~~bitOf (nbOf H key d), lk.tmap &&& ~~~bitOf (nbOf H key d)⟩)
              (by simp; rfl) (by simp [hi0]))]
          have hpm : BitsAre (lk.pmap &&& ~~~bitOf (nbOf H key d)) (occ (upd ch (nbOf H key d) .empty)) :=
            ha.pm.andNot_bit hr16 (by simp [occ, isEmpty]) (fun j hj => occ_upd_other hj)
          simp only [hpm.popcount, ha.pm.rankOf (Nat.le_of_lt hr16)]
          refine unlink_sim hl ha ho hrep hr16 hocc (xs1 := xs.set (cnt (occ ch) (nbOf H key d)) lkc) ?_ ?_
          · refine ⟨by simp, ?_, by simp, ?_, ?_, hu.next, ?_⟩
            · rw [put_mem, if_neg hbb0]; exact hu.link
            · intro j hj; rw [List.getElem?_set, if_neg (Ne.symm hj)]
            · intro a g1 g2 g3 g4
              rw [put_mem, if_neg g2]
              exact hu.frame a g1 g3 g4
            · have := Acct.lift (st := st) (st' := st) (ch := ch) (d := d) hr16 hu'.acct
              exact ⟨this.other, this.seed, this.len, this.dep⟩
          · rw [take_pathClear]; exact take_of_take_succ hpl hQ

end Amt
