/-
How many times `Mod` accesses the memory, and how many objects it allocates (C87).
-/
import Verif.CostMod
import Verif.PropsCostIns

set_option linter.unusedVariables false
set_option linter.unusedSectionVars false

namespace Amt.Par
open Amt Spec

section
variable {K V : Type} [Inhabited V] {G : MapTree K V} {C : Go.MapCode K V} {I : MapImpl K V}

/-- The function of a history reads the value and writes it. -/
theorem modCb_access (f : V → Bool → V) (a : List (V × Bool)) (b : Ptr) (c : Bool) : (modCb (K := K) f a b c).Pays Price.access 2 fun _ => 0 := by
  unfold modCb
  repeat' pay_step
  all_goals first | exact Nat.zero_le _ | (dsimp only [Price.access]; omega)

theorem modCb_alloc (f : V → Bool → V) (a : List (V × Bool)) (b : Ptr) (c : Bool) : (modCb (K := K) f a b c).Pays Price.alloc 0 fun _ => 0 := by
  unfold modCb
  repeat' pay_step
  all_goals exact Nat.le_refl _

theorem MapAll.mod_few (h : MapAll G C I) (sd : Seed) (key : K) (f : V → Bool → V) (ckey : K) {d n n' : Nat} (h1 : d / 16 + 2 ≤ n) (h2 : d / 16 + 2 ≤ n') :
    (I.modI key f).chash sd key ckey d n = (I.modI key f).chash sd key ckey d n' := by
  cases h with
  | string sum => exact byteChash_few sum id sd key ckey h1 h2
  | bytes sum => exact byteChash_few sum id sd key ckey h1 h2
  | arr sum kb => exact byteChash_few sum kb sd key ckey h1 h2
  | int sum => exact byteChash_few sum intbytes sd key ckey h1 h2
  | generic J => rfl

theorem MapAll.mod_new (h : MapAll G C I) (key : K) (f : V → Bool → V) : NoDiv (I.modI key f).newSplit ∧ NoDiv (I.modI key f).newSlot := by
  cases h
  all_goals exact ⟨NoDiv.bind (NoDiv.newKv _ _ _) fun _ => NoDiv.pure _, NoDiv.bind (NoDiv.newKv _ _ _) fun _ => NoDiv.pure _⟩

theorem MapAll.mod_costs (h : MapAll G C I) (n a : Nat) (k : K) (f : V → Bool → V) :
    Costs Price.access 902 21 (fun r => Go.upsertX I.cfg a r k (I.modI k f)) (Go.budget n) (G.Mod n (some a) k (modCb f) []) (C.Mod n (some a) k (Go.modCb f) []) ∧
    Costs Price.alloc 2 1 (fun r => Go.upsertX I.cfg a r k (I.modI k f)) (Go.budget n) (G.Mod n (some a) k (modCb f) []) (C.Mod n (some a) k (Go.modCb f) []) := by
  cases h with
  | string sum =>
    have := Go.StringMap.Mod_costs sum n a k _ _ _ (modCb_den f) (modCb_access f) (modCb_alloc f) (Go.Makes.modCb (show Store.boxed ≠ .bare by decide) k f).neat
    rw [Go.modG_modCb (show Store.boxed ≠ .bare by decide)] at this
    exact this
  | bytes sum =>
    have := Go.BytesMap.Mod_costs sum n a k _ _ _ (modCb_den f) (modCb_access f) (modCb_alloc f) (Go.Makes.modCb (show Store.boxed ≠ .bare by decide) k f).neat
    rw [Go.modG_modCb (show Store.boxed ≠ .bare by decide)] at this
    exact this
  | arr sum kb =>
    have := Go.ArrMap.Mod_costs sum kb n a k _ _ _ (modCb_den f) (modCb_access f) (modCb_alloc f) (Go.Makes.modCb (show Store.boxed ≠ .bare by decide) k f).neat
    rw [Go.modG_modCb (show Store.boxed ≠ .bare by decide)] at this
    exact this
  | int sum =>
    have := Go.IntMap.Mod_costs sum n a k _ _ _ (modCb_den f) (modCb_access f) (modCb_alloc f) (Go.Makes.modCb (show Store.inline ≠ .bare by decide) k f).neat
    rw [Go.modG_modCb (show Store.inline ≠ .bare by decide)] at this
    exact this
  | generic J =>
    have := Go.Map.Mod_costs J n a k _ _ _ (modCb_den f) (modCb_access f) (modCb_alloc f) (Go.Makes.modCb (show Store.boxed ≠ .bare by decide) k f).neat
    rw [Go.modG_modCb (show Store.boxed ≠ .bare by decide)] at this
    exact this

end

section
variable {K V : Type} [Inhabited V] [DecidableEq K] {G : MapTree K V} {C : Go.MapCode K V} {I : MapImpl K V}

theorem upsertX_ends {R : Type} {c : Cfg K} {a r : Nat} {k : K} {ins : Ins K V R} {s : St K V}
    (h : upsert c a r k ins s ≠ .error .diverge) : Go.upsertX c a r k ins s ≠ .error .diverge := by
  rcases Go.upsert_upsertX c a r k ins s with h2 | h2
  · exact absurd h2 h
  · rw [h2]; exact h

/-- C87 for `Mod`: with a function that reads the value once and writes it once, and so makes two accesses, the bounds of `Set` and two
accesses more. -/
theorem C87_mod {sd : Seed} {H : K → Nat → BitVec 64} {P : Bool → List K → K → Prop} {lossy : V → V} {ex : Prop} {n : Nat}
    (hA : MapAll G C I) (hc : MapContainer I sd H P lossy ex) (hex : ex) {ops : List (MOp K V)} (h : EachNew P [] ops) (hn : 256 ≤ n)
    {s : St K V} (hs : Go.Tidy s) :
    ∃ m os s₁, C.session n sd ops s = .ok ((m, os), s₁) ∧ ∀ k f, (k ∉ keysAfter [] ops → P true (keysAfter [] ops) k) →
      (G.Mod n m k (modCb f) []).cost Price.access s₁ ≤ 902 + 21 * levels H (keysAfter [] (ops ++ [.mod k f])) k ∧
      (G.Mod n m k (modCb f) []).cost Price.alloc s₁ ≤ 2 + levels H (keysAfter [] (ops ++ [.mod k f])) k := by
  obtain ⟨os, s₁, t, F, m, e1, i1, e3, e4⟩ := hc.session h hn St.init
  obtain ⟨okS, okM, ok⟩ := hc.ok
  have hG := hA.code.mirrors
  obtain ⟨s₂, φ, f1, f2, f3, f4⟩ := reach_map hG hs e1
  refine ⟨_, os, s₂, f1, fun k f hkP => ?_⟩
  have hk : ∀ x, x ∈ keysAfter [] ops ↔ x ∈ (Amt.T.leaves t).map (fun e => e.1) := fun x => by
    rw [← absT_keys, ← (FMap.keys_perm e4).mem_iff]
    exact (e3.keysAfter x).symm
  have hk' : ∀ x, x ∈ keysAfter [] ops ↔ x ∈ (absT t).keys := fun x => by rw [absT_keys]; exact hk x
  have hP : k ∉ (absT t).keys → P true (absT t).keys k := fun hn => ok.congr _ _ _ _ hk' (hkP fun h => hn ((hk' k).1 h))
  have hnd := nodup_keysAfter (V := V) (ks := []) (by simp) ops
  have hnd' := nodup_keysAfter (V := V) (ks := []) (by simp) (ops ++ [.mod k f])
  have hin : ∀ x, x = k ∨ x ∈ keysAfter [] ops → x ∈ keysAfter [] (ops ++ [.mod k f]) := by
    intro x hx
    have : keysAfter [] (ops ++ [.mod k f]) = MOp.after (keysAfter [] ops) (.mod k f) := by simp [keysAfter, List.foldl_append]
    rw [this, MOp.after]
    split
    · rcases hx with rfl | hx
      · assumption
      · exact hx
    · exact List.mem_cons.2 hx
  have hmono := levels_mono (H := H) hnd (fun x hx => hin x (Or.inr hx)) k
  have h256 := levels_le_256 H (keysAfter [] (ops ++ [.mod k f])) k
  have hdiff : ∀ x ∈ keysAfter [] ops, x ≠ k → Apart H k x → ∃ j, j < levels H (keysAfter [] (ops ++ [.mod k f])) k ∧ j ≤ 255 ∧ nbOf H k j ≠ nbOf H x j :=
    fun x hx hne ha => levels_apart hnd' (hin k (Or.inl rfl)) (hin x (Or.inr hx)) hne ha
  have hrnd : Amt.T.rounds (nbOf H) k t 0 ≤ levels H (keysAfter [] (ops ++ [.mod k f])) k := by rw [i1.rounds_levels hex hnd hk k]; exact hmono
  clear hmono
  generalize levels H (keysAfter [] (ops ++ [.mod k f])) k = r at hdiff hrnd h256 ⊢
  have hfar : ∀ e, Amt.T.slot (nbOf H) k t 0 = some e → e.1 ≠ k → k ∉ (absT t).keys := by
    intro e he hne hm
    have hfs := Amt.T.find_slot (nb := nbOf H) k t 0
    rw [he, Option.bind_some, if_neg (Ne.symm hne)] at hfs
    exact (find_none_iff i1 k).1 hfs hm
  have hrun : I.exec r (some (St.init : St K V).next) (.mod k f) s₁ ≠ .error .diverge := by
    obtain ⟨o, s₃, _, _, g1, _⟩ := map_step ok i1 hn (.mod k f) (fun x hx hn => by
      obtain rfl := List.mem_singleton.1 hx
      exact hP hn)
    obtain ⟨o', g2⟩ := ran g1
    have g3 : upsert I.cfg (St.init : St K V).next n k (I.modI k f) s₁ = .ok o' := g2
    have g4 := upsert_ends ok.laws i1 (r := r) hn g3 hrnd
      (fun e he hne => by
        have hex : e.1 ∈ (absT t).keys := leaf_keys (Amt.T.slot_mem (nbOf_lt H) he)
        exact hdiff e.1 ((hk' _).2 hex) hne (ok.apart _ _ _ (hP (hfar e he hne)) _ hex))
      (fun e he hne d hd hd2 => by
        have hcol : CollidesAt H (absT t).keys k e.1 d := by
          have := slot_collidesAt i1.node i1.wf (i1.canon hex) he
          rw [← hd] at this
          rw [absT_keys]
          exact this
        rw [hA.mod_few sd k f e.1 (n' := 17) (by omega) (by have := hcol.lt (ok.apart _ _ _ (hP (hfar e he hne))); omega)]
        exact ok.modC k f e.1 d 17 (Nat.le_refl _) (ok.collM _ _ (hP (hfar e he hne)) _ _ hcol))
      (hA.mod_new k f).1 (hA.mod_new k f).2
    intro g5
    have g6 : (upsert I.cfg (St.init : St K V).next r k (I.modI k f) >>= fun l => pure (MOut.calls l)) s₁ = .error .diverge := g5
    rw [bind_run] at g6
    cases g7 : upsert I.cfg (St.init : St K V).next r k (I.modI k f) s₁ with
    | error e => rw [g7] at g6; cases g6; exact g4 g7
    | ok o => rw [g7] at g6; cases g6
  have hL := upsertX_ends (ends_first (OutR.ends (Go.lateExec_same hG (St.init : St K V).next s.next r φ (.mod k f) s₁ s₂ f4) hrun))
  obtain ⟨c1, c2⟩ := hA.mod_costs n s.next k f
  have a1 := c1 s₂ _ f2 (Nat.le_trans h256 (by show 256 ≤ n + 300; omega)) hL
  have a2 := c2 s₂ _ f2 (Nat.le_trans h256 (by show 256 ≤ n + 300; omega)) hL
  exact ⟨a1, by rw [Nat.one_mul] at a2; exact a2⟩

end

example := C87_mod (MapAll.string (V := Nat) toyHash) (MapContainer.string (V := Nat) toyHash 0#64) trivial exOps_str (Nat.le_refl 256) Go.init_tidy
example := C87_mod (MapAll.bytes (V := Nat) toyHash) (MapContainer.bytes (V := Nat) toyHash 0#64) trivial exOps_str (Nat.le_refl 256) Go.init_tidy

/-- A new key for `Mod` that may follow. -/
example : strKey 0x31 ∉ keysAfter [] (exOps strKey) ∧ ByteFits (byteStream toyHash 0#64 id) (keysAfter [] (exOps strKey)) (strKey 0x31) ∧
    levels (byteStream toyHash 0#64 id) (keysAfter [] (exOps strKey ++ [.mod (strKey 0x31) fun v _ => v + 1])) (strKey 0x31) = 2 := by decide +kernel

end Amt.Par
