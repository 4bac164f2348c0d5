/-
How many times `Set` and `Add` access the memory, and how many objects they allocate (C87).
-/
import Verif.CostIns
import Verif.PropsCost

set_option linter.unusedVariables false
set_option linter.unusedSectionVars false

namespace Amt.Par
open Amt Spec

/-! ### Programs that always end -/

section
variable {K V α β R : Type}

/-- The program does not run out of rounds, in any memory. -/
def NoDiv (x : M K V α) : Prop := ∀ s, x s ≠ .error .diverge

theorem NoDiv.pure (a : α) : NoDiv (K := K) (V := V) (pure a) := fun s h => by cases h

theorem NoDiv.bind {x : M K V α} {f : α → M K V β} (h1 : NoDiv x) (h2 : ∀ a, NoDiv (f a)) : NoDiv (x >>= f) := by
  intro s
  rw [bind_run]
  cases e : x s with
  | error e' => intro h; cases h; exact h1 s e
  | ok r => exact h2 r.1 r.2

theorem NoDiv.ite {p : Prop} [Decidable p] {x y : M K V α} (h1 : p → NoDiv x) (h2 : ¬ p → NoDiv y) : NoDiv (if p then x else y) := by
  split
  · exact h1 ‹_›
  · exact h2 ‹_›

theorem NoDiv.load (r : Ref) : NoDiv (Amt.load (K := K) (V := V) r) := by
  intro s h
  unfold Amt.load at h
  repeat' split at h
  all_goals cases h

theorem NoDiv.store (r : Ref) (x : Link) : NoDiv (Amt.store (K := K) (V := V) r x) := by
  intro s h
  unfold Amt.store at h
  repeat' split at h
  all_goals cases h

theorem NoDiv.modLink (r : Ref) (f : Link → Link) : NoDiv (Amt.modLink (K := K) (V := V) r f) :=
  NoDiv.bind (NoDiv.load r) fun x => NoDiv.store r _

theorem NoDiv.modRoot (h : Nat) (f : Meta → Meta) : NoDiv (Amt.modRoot (K := K) (V := V) h f) := fun s h => by cases h

theorem NoDiv.alloc (o : Obj K V) : NoDiv (Amt.alloc o) := fun s h => by cases h

theorem NoDiv.newLinkArray (n : Nat) : NoDiv (Amt.newLinkArray (K := K) (V := V) n) := by
  unfold Amt.newLinkArray
  exact NoDiv.ite (fun _ => NoDiv.alloc _) fun _ => NoDiv.ite (fun _ => NoDiv.alloc _) fun _ => NoDiv.ite (fun _ => NoDiv.alloc _) fun _ => NoDiv.alloc _

/-- The split loop ends in the round in which the nibbles of the keys differ, if not before. -/
theorem split_ends {c : Cfg K} {sd : Seed} {H : K → Nat → BitVec 64} (L : Laws c sd H) {key ckey : K} {ins : Ins K V R}
    (hn : NoDiv ins.newSplit) (h : Nat) (cptr : Ptr) {j : Nat} (hj : j ≤ 255) (hne : nbOf H key j ≠ nbOf H ckey j) :
    ∀ (fuel : Nat) (item : Ref) (d : Nat), d < j → j ≤ d + fuel →
      NoDiv (split c sd h key ckey cptr ins fuel item d (hdAt H key d) (hdAt H ckey d) (d / 16 + 1) (d / 16 + 1)) := by
  intro fuel
  induction fuel with
  | zero => intro item d h1 h2; omega
  | succ fuel ih =>
    intro item d h1 h2
    have hm : (d + 1) % 256 = d + 1 := by omega
    have hw : (if (d + 1) % 16 ≠ 0 then d / 16 + 1 else d / 16 + 1 + 1) = (d + 1) / 16 + 1 := by split <;> omega
    rw [split]
    simp only [hm, next_hd L key (by omega : d + 1 < 256), next_hd L ckey (by omega : d + 1 < 256), hw]
    refine NoDiv.bind (NoDiv.modLink _ _) fun _ => NoDiv.ite (fun _ => ?_) fun he => ?_
    · refine NoDiv.bind (NoDiv.modLink _ _) fun _ => NoDiv.bind (NoDiv.newLinkArray _) fun _ => NoDiv.bind (NoDiv.modLink _ _) fun _ =>
        NoDiv.bind hn fun _ => NoDiv.bind (NoDiv.load _) fun _ => ?_
      refine NoDiv.ite (fun _ => ?_) fun _ => ?_
      all_goals
        exact NoDiv.bind (NoDiv.modLink _ _) fun _ => NoDiv.bind (NoDiv.modLink _ _) fun _ => NoDiv.bind (NoDiv.modRoot _ _) fun _ => NoDiv.pure _
    · refine NoDiv.bind (NoDiv.newLinkArray _) fun _ => NoDiv.bind (NoDiv.modLink _ _) fun _ => ?_
      by_cases hd : d + 1 = j
      · subst hd
        have h3 := nbOf_lt H key (d + 1)
        have h4 := nbOf_lt H ckey (d + 1)
        exact absurd (fun hb => hne ((bitOf_inj (by omega) (by omega)).1 hb)) he
      · exact ih _ (d + 1) (by omega) (by omega)

end

section
variable {K V R : Type} [DecidableEq K] {c : Cfg K} {sd : Seed} {H : K → Nat → BitVec 64} {cl : Prop} {s : St K V} {h : Nat} {t : Amt.T K Ptr V}
  {F : Nat → Prop}

/-- A call that inserts or overwrites ends after as many rounds of its loops as its search takes, if the keys differ by then. -/
theorem upsert_ends (L : Laws c sd H) (hi : Amt.Inv c sd H cl s h t F) {key : K} {ins : Ins K V R} {fuel r : Nat} (hf : 256 ≤ fuel)
    {o : R × St K V} (hok : upsert c h fuel key ins s = .ok o) (hr : Amt.T.rounds (nbOf H) key t 0 ≤ r)
    (hsep : ∀ e, Amt.T.slot (nbOf H) key t 0 = some e → e.1 ≠ key → ∃ j, j < r ∧ j ≤ 255 ∧ nbOf H key j ≠ nbOf H e.1 j)
    (hch : ∀ e, Amt.T.slot (nbOf H) key t 0 = some e → e.1 ≠ key → ∀ d, d + 1 = Amt.T.lev (nbOf H) key t 0 → d + 2 ≤ r →
      ins.chash sd key e.1 d r = .ok (hdAt H e.1 d, d / 16 + 1))
    (h1 : NoDiv ins.newSplit) (h2 : NoDiv ins.newSlot) : upsert c h r key ins s ≠ .error .diverge := by
  have hrl := hi.rounds_le key
  obtain ⟨lk, hl, hrp⟩ := hi.rep
  obtain ⟨cur, b, e1, e2⟩ := search_sim (fuel := fuel) L key (by omega : 255 < 256) t hi.node hl hrp hi.ht (by omega : 255 < fuel + 0)
    (start_ok L key h) rfl
  have hu : upsert c h r key ins s = upsertFin c sd h r key ins (cur, b) s := by
    have h3 := (hi.seek L key (upsertFin c sd h r key ins) (n := r) (n' := fuel) (by omega)).2 hr
    rw [bind_ok (getRoot_run h s), bind_ok (getRoot_run h s), hi.seed] at h3
    rw [upsert_eq, bind_ok (getRoot_run h s), hi.seed, h3, bind_ok e1]
  rw [hu]
  rw [upsert_eq, bind_ok (getRoot_run h s), hi.seed, bind_ok e1] at hok
  cases hs : Amt.T.slot (nbOf H) key t 0 with
  | none =>
    rw [hs] at e2
    subst e2
    simp only [upsertFin, Bool.false_eq_true, if_false] at hok ⊢
    rw [hok]
    exact fun e => by cases e
  | some e =>
    rw [hs] at e2
    obtain ⟨rfl, e3, ⟨e4, _⟩, item, x, _, e5, e6, e7, _⟩ := e2
    simp only [upsertFin, if_true, conflict] at hok ⊢
    rw [bind_ok e5, bind_ok e6, bind_ok e7] at hok ⊢
    by_cases hk : key = e.1
    · rw [if_pos ((L.eq_iff _ _).2 hk)] at hok ⊢
      rw [hok]
      exact fun e => by cases e
    · rw [if_neg (fun h => hk ((L.eq_iff _ _).1 h))]
      obtain ⟨j, j1, j2, j3⟩ := hsep e hs (Ne.symm hk)
      have hag := slot_agree hi.node hi.wf hs
      have hdj : cur.d < j := by
        rw [← e3] at hag
        rcases Nat.lt_or_ge cur.d j with h | h
        · exact h
        · exact absurd (by have := hag j (by omega); simpa only [nbOf_eq_nibble] using this) j3
      rw [hch e hs (Ne.symm hk) cur.d e3 (by omega)]
      rw [e4.hd, e4.w]
      refine (NoDiv.ite (fun _ => ?_) fun _ => ?_) s
      · exact NoDiv.bind h2 fun _ => NoDiv.bind (NoDiv.modLink _ _) fun _ => NoDiv.pure _
      · exact NoDiv.bind (NoDiv.modLink _ _) fun _ => NoDiv.bind (NoDiv.modRoot _ _) fun _ => split_ends L h1 h _ j2 j3 r item cur.d hdj (by omega)

end

/-! ### The rehash of the displaced key with few rounds -/

section
variable {K V : Type}

theorem byteChash_few (sum : Maphash) (kb : K → List UInt8) (sd : Seed) (key ckey : K) {d f f' : Nat} (h : d / 16 + 2 ≤ f) (h' : d / 16 + 2 ≤ f') :
    byteChash sum kb sd key ckey d f = byteChash sum kb sd key ckey d f' := by
  rcases Nat.lt_or_ge d 240 with hd | hd
  · have h1 := chwLoop_ok hd (d / 16 + 1) f 0 rfl (by omega)
    have h2 := chwLoop_ok hd (d / 16 + 1) f' 0 rfl (by omega)
    rw [Nat.mul_zero] at h1 h2
    unfold byteChash
    rw [h1, h2]
  · unfold byteChash
    rw [chwLoop_diverge hd f 0 0 (by omega) rfl, chwLoop_diverge hd f' 0 0 (by omega) rfl]

variable [Inhabited V] {G : MapTree K V} {C : Go.MapCode K V} {I : MapImpl K V} {GS : SetTree K} {CS : Go.SetCode K} {IS : SetImpl K}

theorem MapAll.set_few (h : MapAll G C I) (sd : Seed) (key : K) (v : V) (ckey : K) {d f f' : Nat} (h1 : d / 16 + 2 ≤ f) (h2 : d / 16 + 2 ≤ f') :
    (I.setI key v).chash sd key ckey d f = (I.setI key v).chash sd key ckey d f' := by
  cases h with
  | string sum => exact byteChash_few sum id sd key ckey h1 h2
  | bytes sum => exact byteChash_few sum id sd key ckey h1 h2
  | arr sum kb => exact byteChash_few sum kb sd key ckey h1 h2
  | int sum => exact byteChash_few sum intbytes sd key ckey h1 h2
  | generic J => rfl

theorem SetAll.add_few (h : SetAll GS CS IS) (sd : Seed) (key : K) (ckey : K) {d f f' : Nat} (h1 : d / 16 + 2 ≤ f) (h2 : d / 16 + 2 ≤ f') :
    (IS.addI key).chash sd key ckey d f = (IS.addI key).chash sd key ckey d f' := by
  cases h with
  | string sum => exact byteChash_few sum id sd key ckey h1 h2
  | bytes sum => exact byteChash_few sum id sd key ckey h1 h2
  | arr sum kb => exact byteChash_few sum kb sd key ckey h1 h2
  | int sum => exact byteChash_few sum intbytes sd key ckey h1 h2
  | generic J => rfl

theorem NoDiv.newKv (c : Cfg K) (key : K) (v : V) : NoDiv (newKv c key v) := by
  unfold Amt.newKv
  split
  all_goals first | exact NoDiv.alloc _ | exact NoDiv.pure _

theorem MapAll.set_new (h : MapAll G C I) (key : K) (v : V) : NoDiv (I.setI key v).newSplit ∧ NoDiv (I.setI key v).newSlot := by
  cases h
  all_goals exact ⟨NoDiv.bind (NoDiv.newKv _ _ _) fun _ => NoDiv.pure _, NoDiv.bind (NoDiv.newKv _ _ _) fun _ => NoDiv.pure _⟩

theorem SetAll.add_new (h : SetAll GS CS IS) (key : K) : NoDiv (IS.addI key).newSplit ∧ NoDiv (IS.addI key).newSlot := by
  cases h
  all_goals exact ⟨NoDiv.bind (NoDiv.newKv _ _ _) fun _ => NoDiv.pure _, NoDiv.bind (NoDiv.newKv _ _ _) fun _ => NoDiv.pure _⟩

theorem MapAll.set_costs (h : MapAll G C I) (n a : Nat) (k : K) (v : V) :
    Costs Price.access 900 21 (fun r => Go.upsertL I.cfg a r k (I.setI k v) (newKv I.cfg k v) ()) (Go.budget n) (G.Set n (some a) k v) (C.Set n (some a) k v) ∧
    Costs Price.alloc 2 1 (fun r => Go.upsertL I.cfg a r k (I.setI k v) (newKv I.cfg k v) ()) (Go.budget n) (G.Set n (some a) k v) (C.Set n (some a) k v) := by
  cases h with
  | string sum => exact Go.StringMap.Set_costs sum n a k v
  | bytes sum => exact Go.BytesMap.Set_costs sum n a k v
  | arr sum kb => exact Go.ArrMap.Set_costs sum kb n a k v
  | int sum => exact Go.IntMap.Set_costs sum n a k v
  | generic J => exact Go.Map.Set_costs J n a k v

theorem SetAll.add_costs (h : SetAll GS CS IS) (n a : Nat) (k : K) :
    Costs Price.access 900 21 (fun r => Go.upsertL IS.cfg a r k (IS.addI k) (newKv IS.cfg k ()) ()) (Go.budget n) (GS.Add n (some a) k) (CS.Add n (some a) k) ∧
    Costs Price.alloc 2 1 (fun r => Go.upsertL IS.cfg a r k (IS.addI k) (newKv IS.cfg k ()) ()) (Go.budget n) (GS.Add n (some a) k) (CS.Add n (some a) k) := by
  cases h with
  | string sum => exact Go.StringSet.Add_costs sum n a k
  | bytes sum => exact Go.BytesSet.Add_costs sum n a k
  | arr sum kb => exact Go.ArrSet.Add_costs sum kb n a k
  | int sum => exact Go.IntSet.Add_costs sum n a k
  | generic J => exact Go.Set.Add_costs J n a k

end

/-! ### The levels before and after -/

section
variable {K : Type} [DecidableEq K] {H : K → Nat → BitVec 64}

theorem levels_mono {ks ks' : List K} (hn : ks.Nodup) (hs : ∀ x ∈ ks, x ∈ ks') (k : K) : levels H ks k ≤ levels H ks' k := by
  unfold levels
  refine Nat.add_le_add_left ?_ 1
  rw [← List.countP_eq_length_filter, ← List.countP_eq_length_filter]
  refine List.countP_mono_left fun j _ hj => ?_
  simp only [decide_eq_true_eq] at hj ⊢
  refine Nat.le_trans hj ?_
  refine List.Nodup.length_le_of_subset (List.Pairwise.filter _ hn) fun x hx => ?_
  obtain ⟨h1, h2⟩ := List.mem_filter.1 hx
  exact List.mem_filter.2 ⟨hs x h1, h2⟩

/-- A stored key differs from any other stored key that it can be told apart from in a nibble of a level on its path. -/
theorem levels_apart {ks : List K} (hn : ks.Nodup) {k x : K} (hk : k ∈ ks) (hx : x ∈ ks) (hne : x ≠ k) (ha : Apart H k x) :
    ∃ j, j < levels H ks k ∧ j ≤ 255 ∧ nbOf H k j ≠ nbOf H x j := by
  obtain ⟨i, hi, hni⟩ := ha
  have hlt : sharedLen H k x ≤ i := by
    rcases Nat.lt_or_ge i (sharedLen H k x) with h | h
    · exact absurd ((le_sharedLen.1 h).2 i (Nat.lt_succ_self i)) hni
    · exact h
  have hle := le_depthIn (H := H) hx hne
  refine ⟨sharedLen H k x, ?_, by omega, fun he => ?_⟩
  · rw [levels_stored hn hk]
    omega
  · have : sharedLen H k x + 1 ≤ sharedLen H k x := le_sharedLen.2 ⟨by omega, fun j hj => by
      rcases Nat.lt_or_ge j (sharedLen H k x) with h | h
      · exact (le_sharedLen.1 h).2 j (Nat.lt_succ_self j)
      · have : j = sharedLen H k x := by omega
        subst this
        simpa only [nbOf_eq_nibble] using he⟩
    omega

end

/-! ### The bounds -/

section
variable {K V : Type} [Inhabited V] [DecidableEq K] {G : MapTree K V} {C : Go.MapCode K V} {I : MapImpl K V} {GS : SetTree K} {CS : Go.SetCode K} {IS : SetImpl K}

/-- What ends with a cell made early ends with a cell made late, in the translation. -/
theorem upsertL_ends {R : Type} {c : Cfg K} {a r : Nat} {k : K} {ins : Ins K V R} {cell : M K V Ptr} {x : R} (hm : ins.Mono) {s : St K V}
    (h : Go.upsertT c a r k ins cell x s ≠ .error .diverge) : Go.upsertL c a r k ins cell x s ≠ .error .diverge := by
  have h1 : Ext (Go.upsertT c a r k ins cell x) (Go.upsertL c a r k ins cell x) :=
    Ext.bind (Ext.refl _) fun m => Ext.bind (Go.search_walk c _ _ _ _) fun y => Ext.ite (conflict_ext c _ _ _ hm (Nat.le_refl _) _) (Ext.refl _)
  rcases h1 s with h2 | h2
  · exact absurd h2 h
  · rw [h2]; exact h

theorem OutR.ends {α β : Type} {φ : Ren} {h k : Nat} {s : St K V} {RA : Ren → α → β → Prop} {x : Except Fault (α × St K V)} {y : Except Fault (β × St K V)}
    (hr : OutR φ h k s RA x y) (hx : x ≠ .error .diverge) : y ≠ .error .diverge := by
  rintro rfl
  cases x with
  | error e => cases hr; exact hx rfl
  | ok r => exact hr.elim

theorem ends_first {α β : Type} {x : M K V α} {f : α → M K V β} {s : St K V} (h : (x >>= f) s ≠ .error .diverge) : x s ≠ .error .diverge :=
  fun e => h (bind_err e)

/-- C87.  After any history, `Set` of a key that is stored, or that the history could continue with, accesses words of memory at most 900
times, and at most 21 times for each level that a search for the key visits afterwards (C37); and it allocates at most 2 objects, and one
more for each level. -/
theorem C87_map {sd : Seed} {H : K → Nat → BitVec 64} {P : Bool → List K → K → Prop} {lossy : V → V} {ex : Prop} {n : Nat}
    (hA : MapAll G C I) (hc : MapContainer I sd H P lossy ex) (hex : ex) {ops : List (MOp K V)} (h : EachNew P [] ops) (hn : 256 ≤ n)
    {s : St K V} (hs : Go.Tidy s) :
    ∃ m os s₁, C.session n sd ops s = .ok ((m, os), s₁) ∧ ∀ k v, (k ∉ keysAfter [] ops → P false (keysAfter [] ops) k) →
      (G.Set n m k v).cost Price.access s₁ ≤ 900 + 21 * levels H (keysAfter [] (ops ++ [.set k v])) k ∧
      (G.Set n m k v).cost Price.alloc s₁ ≤ 2 + levels H (keysAfter [] (ops ++ [.set k v])) k := by
  obtain ⟨os, s₁, t, F, m, e1, i1, e3, e4⟩ := hc.session h hn St.init
  obtain ⟨okS, okM, ok⟩ := hc.ok
  have hG := hA.code.mirrors
  obtain ⟨s₂, φ, f1, f2, f3, f4⟩ := reach_map hG hs e1
  refine ⟨_, os, s₂, f1, fun k v hkP => ?_⟩
  have hk : ∀ x, x ∈ keysAfter [] ops ↔ x ∈ (Amt.T.leaves t).map (fun e => e.1) := fun x => by
    rw [← absT_keys, ← (FMap.keys_perm e4).mem_iff]
    exact (e3.keysAfter x).symm
  have hk' : ∀ x, x ∈ keysAfter [] ops ↔ x ∈ (absT t).keys := fun x => by rw [absT_keys]; exact hk x
  have hP : k ∉ (absT t).keys → P false (absT t).keys k := fun hn => ok.congr _ _ _ _ hk' (hkP fun h => hn ((hk' k).1 h))
  have hnd := nodup_keysAfter (V := V) (ks := []) (by simp) ops
  have hnd' := nodup_keysAfter (V := V) (ks := []) (by simp) (ops ++ [.set k v])
  have hin : ∀ x, x = k ∨ x ∈ keysAfter [] ops → x ∈ keysAfter [] (ops ++ [.set k v]) := by
    intro x hx
    have : keysAfter [] (ops ++ [.set k v]) = MOp.after (keysAfter [] ops) (.set k v) := by simp [keysAfter, List.foldl_append]
    rw [this, MOp.after]
    split
    · rcases hx with rfl | hx
      · assumption
      · exact hx
    · exact List.mem_cons.2 hx
  have hmono := levels_mono (H := H) hnd (fun x hx => hin x (Or.inr hx)) k
  have h256 := levels_le_256 H (keysAfter [] (ops ++ [.set k v])) k
  have hdiff : ∀ x ∈ keysAfter [] ops, x ≠ k → Apart H k x → ∃ j, j < levels H (keysAfter [] (ops ++ [.set k v])) k ∧ j ≤ 255 ∧ nbOf H k j ≠ nbOf H x j :=
    fun x hx hne ha => levels_apart hnd' (hin k (Or.inl rfl)) (hin x (Or.inr hx)) hne ha
  have hrnd : Amt.T.rounds (nbOf H) k t 0 ≤ levels H (keysAfter [] (ops ++ [.set k v])) k := by rw [i1.rounds_levels hex hnd hk k]; exact hmono
  clear hmono
  generalize levels H (keysAfter [] (ops ++ [.set k v])) k = r at hdiff hrnd h256 ⊢
  have hfar : ∀ e, Amt.T.slot (nbOf H) k t 0 = some e → e.1 ≠ k → k ∉ (absT t).keys := by
    intro e he hne hm
    have hfs := Amt.T.find_slot (nb := nbOf H) k t 0
    rw [he, Option.bind_some, if_neg (Ne.symm hne)] at hfs
    exact (find_none_iff i1 k).1 hfs hm
  have hrun : I.exec r (some (St.init : St K V).next) (.set k v) s₁ ≠ .error .diverge := by
    obtain ⟨o, s₃, _, _, g1, _⟩ := map_step ok i1 hn (.set k v) (fun x hx hn => by
      obtain rfl := List.mem_singleton.1 hx
      exact hP hn)
    obtain ⟨o', g2⟩ := ran g1
    have g3 : upsert I.cfg (St.init : St K V).next n k (I.setI k v) s₁ = .ok o' := g2
    have g4 := upsert_ends ok.laws i1 (r := r) hn g3 hrnd
      (fun e he hne => by
        have hex : e.1 ∈ (absT t).keys := leaf_keys (Amt.T.slot_mem (nbOf_lt H) he)
        exact hdiff e.1 ((hk' _).2 hex) hne (ok.apart _ _ _ (hP (hfar e he hne)) _ hex))
      (fun e he hne d hd hd2 => by
        have hcol : CollidesAt H (absT t).keys k e.1 d := by
          have := slot_collidesAt i1.node i1.wf (i1.canon hex) he
          rw [← hd] at this
          rw [absT_keys]
          exact this
        rw [hA.set_few sd k v e.1 (f' := 17) (by omega) (by have := hcol.lt (ok.apart _ _ _ (hP (hfar e he hne))); omega)]
        exact ok.setC k v e.1 d 17 (Nat.le_refl _) (ok.coll _ _ (hP (hfar e he hne)) _ _ hcol))
      (hA.set_new k v).1 (hA.set_new k v).2
    intro g5
    have g6 : (upsert I.cfg (St.init : St K V).next r k (I.setI k v) >>= fun _ => pure MOut.unit) s₁ = .error .diverge := g5
    rw [bind_run] at g6
    cases g7 : upsert I.cfg (St.init : St K V).next r k (I.setI k v) s₁ with
    | error e => rw [g7] at g6; cases g6; exact g4 g7
    | ok o => rw [g7] at g6; cases g6
  have hL := upsertL_ends (hG.mono.1 k v) (ends_first (OutR.ends (Go.lateExec_same hG (St.init : St K V).next s.next r φ (.set k v) s₁ s₂ f4) hrun))
  obtain ⟨c1, c2⟩ := hA.set_costs n s.next k v
  have a1 := c1 s₂ _ f2 (Nat.le_trans h256 (by show 256 ≤ n + 300; omega)) hL
  have a2 := c2 s₂ _ f2 (Nat.le_trans h256 (by show 256 ≤ n + 300; omega)) hL
  exact ⟨a1, by rw [Nat.one_mul] at a2; exact a2⟩

/-- C87 for sets: `Add`. -/
theorem C87_set {sd : Seed} {H : K → Nat → BitVec 64} {P : List K → K → Prop} {inv : Bool} {ex : Prop} {n : Nat}
    (hA : SetAll GS CS IS) (hc : SetContainer IS sd H P inv ex) (hex : ex) {ops : List (SOp K)} (h : SEachNew H inv P [] ops) (hn : 256 ≤ n)
    {s : St K Unit} (hs : Go.Tidy s) :
    ∃ m os s₁, CS.session n sd ops s = .ok ((m, os), s₁) ∧ ∀ k, (k ∉ elemsAfterX H inv [] ops → P (elemsAfterX H inv [] ops) k) →
      (GS.Add n m k).cost Price.access s₁ ≤ 900 + 21 * levels H (elemsAfterX H inv [] (ops ++ [.add k])) k ∧
      (GS.Add n m k).cost Price.alloc s₁ ≤ 2 + levels H (elemsAfterX H inv [] (ops ++ [.add k])) k := by
  obtain ⟨os, s₁, t, F, m, e1, i1, e3, e4⟩ := hc.session h hn St.init
  obtain ⟨okA, ok⟩ := hc.ok
  have hG := hA.code.mirrors
  obtain ⟨s₂, φ, f1, f2, f3, f4⟩ := reach_set hG hs e1
  refine ⟨_, os, s₂, f1, fun k hkP => ?_⟩
  have hk : ∀ x, x ∈ elemsAfterX H inv [] ops ↔ x ∈ (Amt.T.leaves t).map (fun e => e.1) := fun x => by
    rw [← e3.elemsAfterX x, e4.mem_iff]; rfl
  have hk' : ∀ x, x ∈ elemsAfterX H inv [] ops ↔ x ∈ absS t := hk
  have hP : k ∉ absS t → P (absS t) k := fun hn => ok.congr _ _ _ hk' (hkP fun h => hn ((hk' k).1 h))
  have hnd := nodup_elemsAfterX (H := H) inv (ks := []) (by simp) ops
  have hnd' := nodup_elemsAfterX (H := H) inv (ks := []) (by simp) (ops ++ [.add k])
  have hin : ∀ x, x = k ∨ x ∈ elemsAfterX H inv [] ops → x ∈ elemsAfterX H inv [] (ops ++ [.add k]) := by
    intro x hx
    have : elemsAfterX H inv [] (ops ++ [.add k]) = SOp.after (elemsAfterX H inv [] ops) (.add k) := by simp [elemsAfterX, List.foldl_append, SOp.afterX]
    rw [this, SOp.after]
    split
    · rcases hx with rfl | hx
      · assumption
      · exact hx
    · exact List.mem_cons.2 hx
  have hmono := levels_mono (H := H) hnd (fun x hx => hin x (Or.inr hx)) k
  have h256 := levels_le_256 H (elemsAfterX H inv [] (ops ++ [.add k])) k
  have hdiff : ∀ x ∈ elemsAfterX H inv [] ops, x ≠ k → Apart H k x → ∃ j, j < levels H (elemsAfterX H inv [] (ops ++ [.add k])) k ∧ j ≤ 255 ∧ nbOf H k j ≠ nbOf H x j :=
    fun x hx hne ha => levels_apart hnd' (hin k (Or.inl rfl)) (hin x (Or.inr hx)) hne ha
  have hrnd : Amt.T.rounds (nbOf H) k t 0 ≤ levels H (elemsAfterX H inv [] (ops ++ [.add k])) k := by rw [i1.rounds_levels hex hnd hk k]; exact hmono
  clear hmono
  generalize levels H (elemsAfterX H inv [] (ops ++ [.add k])) k = r at hdiff hrnd h256 ⊢
  have hfar : ∀ e, Amt.T.slot (nbOf H) k t 0 = some e → e.1 ≠ k → k ∉ absS t := by
    intro e he hne hm
    have hfs := Amt.T.find_slot (nb := nbOf H) k t 0
    rw [he, Option.bind_some, if_neg (Ne.symm hne)] at hfs
    rw [absS_eq] at hm
    exact (find_none_iff i1 k).1 hfs hm
  have hrun : IS.exec r (some (St.init : St K Unit).next) (.add k) s₁ ≠ .error .diverge := by
    obtain ⟨o, s₃, _, _, g1, _⟩ := set_step ok i1 hn (.add k) (fun x hx hn => by
      obtain rfl := List.mem_singleton.1 hx
      exact hP hn)
    obtain ⟨o', g2⟩ := ran g1
    have g3 : upsert IS.cfg (St.init : St K Unit).next n k (IS.addI k) s₁ = .ok o' := g2
    have g4 := upsert_ends ok.laws i1 (r := r) hn g3 hrnd
      (fun e he hne => by
        have hex : e.1 ∈ absS t := List.mem_map_of_mem (Amt.T.slot_mem (nbOf_lt H) he)
        exact hdiff e.1 ((hk' _).2 hex) hne (ok.apart _ _ (hP (hfar e he hne)) _ hex))
      (fun e he hne d hd hd2 => by
        have hcol : CollidesAt H (absS t) k e.1 d := by
          have := slot_collidesAt i1.node i1.wf (i1.canon hex) he
          rw [← hd] at this
          exact this
        rw [hA.add_few sd k e.1 (f' := 17) (by omega) (by have := hcol.lt (ok.apart _ _ (hP (hfar e he hne))); omega)]
        exact ok.addC k e.1 d 17 (Nat.le_refl _) (ok.coll _ _ (hP (hfar e he hne)) _ _ hcol))
      (hA.add_new k).1 (hA.add_new k).2
    intro g5
    have g6 : (upsert IS.cfg (St.init : St K Unit).next r k (IS.addI k) >>= fun _ => pure SOut.unit) s₁ = .error .diverge := g5
    rw [bind_run] at g6
    cases g7 : upsert IS.cfg (St.init : St K Unit).next r k (IS.addI k) s₁ with
    | error e => rw [g7] at g6; cases g6; exact g4 g7
    | ok o => rw [g7] at g6; cases g6
  have hL := upsertL_ends (hG.mono k) (ends_first (OutR.ends (Go.lateExecS_same hG (St.init : St K Unit).next s.next r φ (.add k) s₁ s₂ f4) hrun))
  obtain ⟨c1, c2⟩ := hA.add_costs n s.next k
  have a1 := c1 s₂ _ f2 (Nat.le_trans h256 (by show 256 ≤ n + 300; omega)) hL
  have a2 := c2 s₂ _ f2 (Nat.le_trans h256 (by show 256 ≤ n + 300; omega)) hL
  exact ⟨a1, by rw [Nat.one_mul] at a2; exact a2⟩

end

/-! ### Instances -/

example := C87_map (MapAll.string (V := Nat) toyHash) (MapContainer.string (V := Nat) toyHash 0#64) trivial exOps_str (Nat.le_refl 256) Go.init_tidy
example := C87_set (SetAll.string toyHash) (SetContainer.string toyHash 0#64) trivial exOpsS_str (Nat.le_refl 256) Go.init_tidy

/-- A new key that may follow, and that collides with two stored ones. -/
example : strKey 0x31 ∉ keysAfter [] (exOps strKey) ∧ ByteFits (byteStream toyHash 0#64 id) (keysAfter [] (exOps strKey)) (strKey 0x31) ∧
    levels (byteStream toyHash 0#64 id) (keysAfter [] (exOps strKey ++ [.set (strKey 0x31) 5])) (strKey 0x31) = 2 := by decide +kernel

end Amt.Par
