/- The invariant of a container and what each program does to it. -/
import Verif.SimDel
import Verif.SimScan

set_option linter.unusedVariables false
set_option linter.unusedSectionVars false

namespace Amt
open T

variable {K V : Type}

/-- The heap holds a well-formed container with root `h`, representing `t` and owning the addresses `F`
(besides `h` itself).  If `cl`, no stored key has an encoding that leaves wrong type bits behind, and then the
trie is canonical. -/
structure Inv (c : Cfg K) (sd : Seed) (H : K → Nat → BitVec 64) (cl : Prop) (s : St K V) (h : Nat) (t : T K Ptr V)
    (F : Nat → Prop) : Prop where
  rep : ∃ lk, Loc s h 0 [lk] lk F ∧ Rep c s.mem t 0 lk F
  seed : (s.roots h).seed = sd
  node : t.isNode = true
  wf : WF (nbOf H) t 0
  ht : Ht 255 t 0
  canon : cl → CanonRoot t
  clean : cl → ∀ e ∈ leaves t, c.encT e.1 = 0#32
  len : (s.roots h).len = BitVec.ofNat 64 (size t 0)
  dep : (s.roots h).dep = BitVec.ofNat 64 (dsum t 0)

/-- Nothing outside the container changed. -/
structure Chg (s s' : St K V) (h : Nat) (F F' : Nat → Prop) : Prop where
  frame : ∀ a, a < s.next → a ≠ h → ¬ F a → s'.mem a = s.mem a
  next : s.next ≤ s'.next
  foot : ∀ a, F' a → F a ∨ (s.next ≤ a ∧ a < s'.next)
  roots : ∀ a, a ≠ h → s'.roots a = s.roots a

theorem Chg.refl (s : St K V) (h : Nat) (F : Nat → Prop) : Chg s s h F F :=
  ⟨fun _ _ _ _ => rfl, Nat.le_refl _, fun _ h => Or.inl h, fun _ _ => rfl⟩

theorem Chg.trans {s s' s'' : St K V} {h : Nat} {F F' F'' : Nat → Prop} (h1 : Chg s s' h F F')
    (h2 : Chg s' s'' h F' F'') : Chg s s'' h F F'' := by
  have n1 := h1.next
  have n2 := h2.next
  refine ⟨fun a g1 g2 g3 => ?_, by omega, fun a ha => ?_, fun a ha => by rw [h2.roots a ha, h1.roots a ha]⟩
  · rw [h2.frame a (by omega) g2, h1.frame a g1 g2 g3]
    intro hF
    rcases h1.foot a hF with q | q
    · exact g3 q
    · omega
  · rcases h2.foot a ha with q | q
    · rcases h1.foot a q with q' | q'
      · exact Or.inl q'
      · right; omega
    · right; omega

/-- Every stored key other than `key` differs from it in one of the first 256 nibbles. -/
abbrev SepK (H : K → Nat → BitVec 64) (key : K) (t : T K Ptr V) : Prop := SepFrom (nbOf H) 255 key t

theorem Upd.inv {c : Cfg K} {sd : Seed} {H : K → Nat → BitVec 64} {cl : Prop} {s s' : St K V} {h : Nat} {t t' : T K Ptr V}
    {F F' : Nat → Prop} {lk lk' : Link} (hi : Inv c sd H cl s h t F) (hl : Loc s h 0 [lk] lk F)
    (hu : Upd c h s s' h 0 [lk] lk' F F' t t' 0)
    (hn : t'.isNode = true) (hw : WF (nbOf H) t' 0) (hh : Ht 255 t' 0) (hc : cl → CanonRoot t')
    (he : cl → ∀ e ∈ leaves t', c.encT e.1 = 0#32) :
    Inv c sd H cl s' h t' F' ∧ Chg s s' h F F' := by
  refine ⟨⟨⟨lk', hu.loc hl, hu.rep⟩, by rw [hu.acct.seed, hi.seed], hn, hw, hh, hc, he, ?_, ?_⟩,
    ⟨hu.frame, hu.next, hu.foot, hu.acct.other⟩⟩
  · have := hu.acct.len
    rw [hi.len, BitVec.add_comm (BitVec.ofNat 64 (size t 0))] at this
    exact (BitVec.add_left_inj _).1 this
  · have := hu.acct.dep
    rw [hi.dep, BitVec.add_comm (BitVec.ofNat 64 (dsum t 0))] at this
    exact (BitVec.add_left_inj _).1 this

/-- `newRoot` makes an empty container out of fresh memory. -/
theorem Inv.new (c : Cfg K) (sd : Seed) (H : K → Nat → BitVec 64) (cl : Prop) (s : St K V) :
    ∃ s', newRoot sd s = .ok (some s.next, s') ∧
      Inv c sd H cl s' s.next (.node 0#32 fun _ => .empty) (fun a => a = s.next + 1) ∧
      (∀ a, a < s.next → s'.mem a = s.mem a) ∧ s'.next = s.next + 2 ∧
      (∀ a, a ≠ s.next → s'.roots a = s.roots a) := by
  have hz : size (.node 0#32 fun _ => (.empty : T K Ptr V)) 0 = 0 := by
    unfold size; rw [tsum_node]; simp only [tsum]; decide
  have hd0 : dsum (.node 0#32 fun _ => (.empty : T K Ptr V)) 0 = 0 := by
    unfold dsum; rw [tsum_node]; simp only [tsum]; decide
  refine ⟨_, rfl, ?_, ?_, rfl, ?_⟩
  · refine ⟨⟨{ ptr := .blk (s.next + 1) }, ⟨by simp, by simp, by simp, by omega, by intro a ha; simp; omega⟩, ?_⟩, by simp, rfl,
      ⟨fun _ _ => rfl, fun _ _ => ⟨(fun e he => absurd he (by simp [leaves])), trivial⟩⟩, ⟨by omega, fun _ _ => trivial⟩,
      fun _ => ⟨rfl, fun i hi => trivial⟩, fun _ e he => absurd he (by rw [leaves_node]; simp [leaves]), ?_, ?_⟩
    · refine ⟨s.next + 1, List.replicate 16 {}, fun _ _ => False, ⟨rfl, by simp, by simp [capOf], ?_, ?_⟩,
        ⟨by simp, by simp, by simp⟩, fun i hi => by simp [Rep]⟩
      · exact BitsAre.zero
      · exact ⟨fun i => by simp [lf, isLeaf], fun i _ h => by simp at h⟩
    · rw [hz]; simp
    · rw [hd0]; simp
  · intro a ha
    simp only
    rw [if_neg (by omega), if_neg (by omega)]
  · intro a ha
    simp only
    rw [if_neg ha]

variable [DecidableEq K]

section
variable {c : Cfg K} {sd : Seed} {H : K → Nat → BitVec 64} {cl : Prop} {s : St K V} {h : Nat} {t : T K Ptr V}
  {F : Nat → Prop} {fuel : Nat}

theorem Inv.lookup (L : Laws c sd H) (hi : Inv c sd H cl s h t F) (hk : c.forget = false) (hf : 256 ≤ fuel) (key : K) :
    lookup c h fuel key s = .ok ((find (nbOf H) key t 0).map (fun e => e.1), s) := by
  obtain ⟨lk, hl, hr⟩ := hi.rep
  rw [lookup_eq, bind_ok (getRoot_run h s), hi.seed]
  exact lookup_sim L hk key (by omega : 255 < 256) t hi.node hl hr hi.ht (by omega) (start_ok L key h) rfl

theorem Inv.lookup_has (L : Laws c sd H) (hi : Inv c sd H cl s h t F) (hf : 256 ≤ fuel) (key : K) :
    ∃ o, Amt.lookup c h fuel key s = .ok (o, s) ∧ o.isSome = (find (nbOf H) key t 0).isSome := by
  obtain ⟨lk, hl, hr⟩ := hi.rep
  rw [lookup_eq, bind_ok (getRoot_run h s), hi.seed]
  obtain ⟨o, e1, e2, _⟩ := lookup_simQ L key (by omega : 255 < 256) t (d := 0) (fuel := fuel) hi.node hl hr hi.ht (by omega) (start_ok L key h) rfl
  exact ⟨o, e1, e2⟩

/-- It is enough that a new key can be told apart from the stored ones. -/
theorem Inv.sepK (hi : Inv c sd H cl s h t F) {key : K} (hs : find (nbOf H) key t 0 = none → SepK H key t) :
    SepK H key t := by
  cases hfd : find (nbOf H) key t 0 with
  | none => exact hs hfd
  | some e => exact SepFrom.of_mem hi.wf hi.ht ((find_eq_some (nbOf_lt H) hi.wf (p := e.1) (v := e.2)).1 hfd)

theorem Inv.upsert {R : Type} {ins : Ins K V R} {key : K} {f : V → V} {vSlot vSplit : V} {gHit : V → R} {rNew : R}
    (L : Laws c sd H) (hi : Inv c sd H cl s h t F) (hins : InsOk c sd H ins key f vSlot vSplit gHit rNew)
    (hs : SepK H key t) (hsf : find (nbOf H) key t 0 = none → SafeFor (nbOf H) c.encT key t)
    (hcl : find (nbOf H) key t 0 = none → cl → c.encT key = 0#32) (hf : 256 ≤ fuel) :
    ∃ p s' F', upsert c h fuel key ins s
        = .ok ((match find (nbOf H) key t 0 with | some e => gHit e.2 | none => rNew), s') ∧
      Inv c sd H cl s' h (T.ins (nbOf H) c.encT 256 key p vSlot vSplit f t 0) F' ∧ Chg s s' h F F' := by
  obtain ⟨lk, hl, hr⟩ := hi.rep
  have hnb := nbOf_lt H
  have hpre : Pre (nbOf H) key t 0 := fun e he j hj => by omega
  obtain ⟨p, s', lk', F', e1, hu⟩ := upsert_sim L hins h (by omega : 255 < 256) (by omega : 255 < 256)
    (by omega : 255 < fuel) (by omega) t hi.node hl hr hi.ht hi.wf hpre hs hsf (by omega : 255 < fuel + 0)
    (start_ok L key h) rfl
  refine ⟨p, s', F', ?_, ?_⟩
  · rw [upsert_eq, bind_ok (getRoot_run h s), hi.seed]
    exact e1
  · refine Upd.inv hi hl hu ?_ (WF_ins hnb hi.wf) (Ht_ins hnb hs hpre hi.wf hi.ht)
      (fun h => CanonRoot_ins hnb (by omega : 255 < 256) hs hpre hi.wf (hi.clean h) (hi.canon h)) (fun h e he => ?_)
    · have := hi.node
      cases t with
      | node st ch => rfl
      | empty => cases this
      | leaf => cases this
    · rcases mem_ins hnb he with h1 | h1
      · rw [h1]
        cases hfd : find (nbOf H) key t 0 with
        | none => exact hcl hfd h
        | some e' => exact hi.clean h _ ((find_eq_some hnb hi.wf (p := e'.1) (v := e'.2)).1 hfd)
      · exact hi.clean h e h1

theorem slot_eq_find_none {key : K} (hwf : WF (nbOf H) t 0) :
    (∀ e, slot (nbOf H) key t 0 = some e → e.1 ≠ key) ↔ find (nbOf H) key t 0 = none := by
  rw [find_slot]
  cases hs : slot (nbOf H) key t 0 with
  | none => simp
  | some e =>
    simp only [Option.some.injEq, Option.bind_some]
    constructor
    · intro h'; rw [if_neg]; exact fun e' => h' e rfl e'.symm
    · intro h' e' he; subst he
      intro e2; rw [if_pos e2.symm] at h'; cases h'

/-- `Del` with an arbitrary skip condition: it removes whatever sits in the key's slot, unless skipped. -/
theorem Inv.delete (L : Laws c sd H) (hi : Inv c sd H cl s h t F) (skip : Bool → Bool) (key : K) (hf : 256 ≤ fuel) :
    match slot (nbOf H) key t 0 with
    | none => delete c h fuel skip key s = .ok ((), s)
    | some e =>
      if skip (decide (key = e.1)) then delete c h fuel skip key s = .ok ((), s)
      else ∃ s' F', delete c h fuel skip key s = .ok ((), s') ∧ Inv c sd H cl s' h (delRoot (nbOf H) e.1 t) F' ∧
        Chg s s' h F F' := by
  obtain ⟨lk, hl, hr⟩ := hi.rep
  have hnb := nbOf_lt H
  have hnode := hi.node
  cases ht : t with
  | empty => rw [ht] at hnode; cases hnode
  | leaf => rw [ht] at hnode; cases hnode
  | node st ch =>
  subst ht
  have hrun : ∀ (s : St K V), (s.roots h).seed = sd → delete c h fuel skip key s
      = (search c sd key fuel (start c sd key h) >>= deleteFin c h skip key) s := by
    intro s hs; rw [delete_eq, bind_ok (getRoot_run h s), hs]
  rw [hrun s hi.seed]
  have hsim := delete_sim L skip key (h := h) (by omega : 255 < 256) (.node st ch) rfl hl hr hi.ht
    (by omega : 255 < fuel + 0) (start_ok L key h) rfl rfl
  cases hs : slot (nbOf H) key (.node st ch) 0 with
  | none => rw [hs] at hsim; exact hsim
  | some e =>
    rw [hs] at hsim
    simp only at hsim ⊢
    by_cases hsk : skip (decide (key = e.1)) = true
    · rw [if_pos hsk] at hsim ⊢; exact hsim
    · rw [if_neg hsk] at hsim ⊢
      obtain ⟨s', lk', F', hout⟩ := hsim
      have hwr := (hi.wf.2 _ (hnb key 0)).2
      have hmem := slot_mem hnb (t := ch (nbOf H key 0)) (d := 0 + 1) hs
      have hnb0 : nbOf H e.1 0 = nbOf H key 0 := (hi.wf.2 _ (hnb key 0)).1 e hmem
      have hdr : delRoot (nbOf H) e.1 (.node st ch)
          = .node st (upd ch (nbOf H key 0) (cut (nbOf H) key (ch (nbOf H key 0)) (0 + 1))) := by
        rw [delRoot, hnb0, cut_eq_del hnb (p := e.2.1) (v := e.2.2) hwr (by exact hs)]
      have hmk : mkAt st 0 (upd ch (nbOf H key 0) (cut (nbOf H) key (ch (nbOf H key 0)) (0 + 1)))
          = delRoot (nbOf H) e.1 (.node st ch) := by rw [hdr]; rfl
      rw [hmk] at hout
      refine ⟨s', F', ?_, Upd.inv hi hl hout.upd (by rw [hdr]; rfl) ?_ ?_ ?_ ?_⟩
      · exact hout.node (by rw [hdr]; rfl)
      · rw [delRoot]
        apply WF_upd hi.wf (hnb e.1 0)
        · intro e' he'
          exact (hi.wf.2 _ (hnb e.1 0)).1 e' (mem_del hnb he')
        · exact WF_del hnb (hi.wf.2 _ (hnb e.1 0)).2
      · rw [delRoot]
        exact Ht_upd hi.ht (Ht_del hnb (hi.ht.2 _ (hnb e.1 0)))
      · intro h
        rw [delRoot]
        refine ⟨(hi.canon h).1, fun i hi16 => ?_⟩
        by_cases hii : i = nbOf H e.1 0
        · subst hii; rw [upd_same]; exact Canon_del hnb ((hi.canon h).2 _ hi16)
        · rw [upd_other _ _ hii]; exact (hi.canon h).2 i hi16
      · intro h e' he'
        rw [delRoot] at he'
        obtain ⟨i, hi16, he''⟩ := mem_leaves_node.1 he'
        by_cases hii : i = nbOf H e.1 0
        · subst hii; rw [upd_same] at he''
          exact hi.clean h e' (mem_leaves_node.2 ⟨_, hi16, mem_del hnb he''⟩)
        · rw [upd_other _ _ hii] at he''
          exact hi.clean h e' (mem_leaves_node.2 ⟨_, hi16, he''⟩)

theorem Inv.scan {U : Type} {visit : U → Link → M K V (U × Bool)} {g : U → K → V → U × V × Bool}
    (hi : Inv c sd H cl s h t F) (hv : VisitOk c visit g) (hf : 256 ≤ fuel) (u : U) :
    ∃ s' F', scan visit fuel u ⟨.blk h, 0⟩ s = .ok (((scanT g t u).1, (scanT g t u).2.2), s') ∧
      Inv c sd H cl s' h (scanT g t u).2.1 F' ∧ Chg s s' h F F' := by
  obtain ⟨lk, hl, hr⟩ := hi.rep
  obtain ⟨s', F', e1, hu⟩ := scan_sim hv h t (u := u) (fuel := fuel) hi.node hl hr hi.ht (by omega)
  have hve := scanT_veq g t u
  exact ⟨s', F', e1, Upd.inv hi hl hu (by rw [hve.isNode]; exact hi.node) (hve.WF hi.wf) (hve.Ht hi.ht)
    (fun h => hve.CanonRoot (hi.canon h)) (fun h e he => by
      obtain ⟨v, hv⟩ := hve.mem_key he
      exact hi.clean h (e.1, e.2.1, v) hv)⟩

end

end Amt
