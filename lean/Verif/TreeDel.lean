/-
Collisions, deletion and histories keep the objects of a container in one place each.  Used only in proofs.
-/
import Verif.TreeOps

set_option linter.unusedVariables false
set_option linter.unusedSectionVars false

namespace Amt.Tree
open Go (ok_bind load_inv store_inv store_run load_put modLink_inv grow run_bind run_load_state put newLinkArray_inv)

section
variable {K V R : Type} {x y : Link} {s t u : St K V} {h : Nat} {p : List (Nat × Ref)} {r : Ref} {C D F G : Nat → Prop}

/-! ### Collisions -/

/-- Two links and then nothing. -/
theorem Kids.two {m : Nat → Option (Obj K V)} {xs : List Link} {z₀ z₁ : Link} (h0 : Own m z₀ F) (h1 : Own m z₁ G) (hd : ∀ a, F a → G a → False)
    (hx0 : xs[0]? = some z₀) (hx1 : xs[1]? = some z₁) (hx : ∀ j z, 2 ≤ j → xs[j]? = some z → z.ptr = .nil) (n : Nat) : Kids m xs n fun a => F a ∨ G a := by
  refine ⟨fun j => if j = 0 then F else if j = 1 then G else fun _ => False, fun j z hj hz => ?_, fun j a hh => ?_, fun j k a hj hk => ?_⟩
  · by_cases j0 : j = 0
    · subst j0; rw [hx0] at hz; cases hz; exact h0
    · by_cases j1 : j = 1
      · subst j1; rw [hx1] at hz; cases hz; exact h1
      · exact .nil (hx j z (by omega) hz)
  · dsimp only at hh
    split at hh
    · exact .inl hh
    · split at hh
      · exact .inr hh
      · exact hh.elim
  · dsimp only at hj hk
    split at hj <;> split at hk
    · omega
    · split at hk
      · exact (hd a hj hk).elim
      · exact hk.elim
    · split at hj
      · exact (hd a hk hj).elim
      · exact hj.elim
    · split at hj
      · split at hk
        · omega
        · exact hk.elim
      · exact hj.elim

theorem rank_one {n : Nat} (hn : n < 16) : rankOf (bitOf n) n = 0 := rank_single n hn

/-- Two stores in an array of zero links. -/
theorem two_stores {b k : Nat} {z₀ z₁ : Link} {w w' : Unit} (hm : s.mem b = some (.links (List.replicate k {})))
    (e : Go.run (store ⟨.blk b, 0⟩ z₀) s = .ok (w, t)) (e' : Go.run (store ⟨.blk b, 1⟩ z₁) t = .ok (w', u)) :
    u.next = s.next ∧ (∀ a, a ≠ b → u.mem a = s.mem a) ∧ ∃ ys, u.mem b = some (.links ys) ∧ ys[0]? = some z₀ ∧ ys[1]? = some z₁ ∧
      ∀ j z, 2 ≤ j → ys[j]? = some z → z.ptr = .nil := by
  obtain ⟨rfl, v, e1⟩ := store_inv e
  obtain ⟨rfl, v', e1'⟩ := store_inv e'
  have h1 : (put s ⟨.blk b, 0⟩ z₀).mem b = some (.links ((List.replicate k {}).set 0 z₀)) := by
    rw [Go.put_mem (b := b) rfl, if_pos rfl, hm]
  have h2 : (put (put s ⟨.blk b, 0⟩ z₀) ⟨.blk b, 1⟩ z₁).mem b = some (.links (((List.replicate k {}).set 0 z₀).set 1 z₁)) := by
    rw [Go.put_mem (b := b) rfl, if_pos rfl, h1]
  have hk : 1 < k := by
    obtain ⟨-, b', xs, g1, g2, g3⟩ := load_inv e1'
    cases g1
    rw [h1] at g2; cases g2
    simpa using (List.getElem?_eq_some_iff.1 g3).1
  refine ⟨by rw [Go.put_next, Go.put_next], fun a ha => by rw [put_other (b := b) rfl ha, put_other (b := b) rfl ha], _, h2, ?_, ?_, fun j z hj hz => ?_⟩
  · rw [List.getElem?_set_ne (by omega), List.getElem?_set_self (by simp; omega)]
  · rw [List.getElem?_set_self (by simp; omega)]
  · rw [List.getElem?_set_ne (by omega), List.getElem?_set_ne (by omega)] at hz
    exact replicate_blank z (List.mem_of_getElem? hz)

/-- The links of a fresh array are assigned whole. -/
theorem two_puts {c : Cfg K} {k₀ k₁ : K} {p₀ p₁ : Ptr} {b k : Nat} {w w' : Unit} (hm : s.mem b = some (.links (List.replicate k {})))
    (e : Go.run (modLink ⟨.blk b, 0⟩ (putLink c k₀ p₀)) s = .ok (w, t)) (e' : Go.run (modLink ⟨.blk b, 1⟩ (putLink c k₁ p₁)) t = .ok (w', u)) :
    Go.run (store ⟨.blk b, 0⟩ (mkLink c k₀ p₀)) s = .ok (w, t) ∧ Go.run (store ⟨.blk b, 1⟩ (mkLink c k₁ p₁)) t = .ok (w', u) := by
  obtain ⟨y, g1, rfl⟩ := modLink_inv e
  obtain ⟨y', g1', rfl⟩ := modLink_inv e'
  have fresh : ∀ {i : Nat} {x : Link}, (List.replicate k ({} : Link))[i]? = some x → x = {} := fun h => List.eq_of_mem_replicate (List.mem_of_getElem? h)
  obtain ⟨-, b1, xs, q1, q2, q3⟩ := load_inv g1
  cases q1
  rw [hm] at q2; cases q2
  cases fresh q3
  rw [putLink_fresh] at g1' ⊢
  have h1 : (put s ⟨.blk b, 0⟩ (mkLink c k₀ p₀)).mem b = some (.links ((List.replicate k {}).set 0 (mkLink c k₀ p₀))) := by
    rw [Go.put_mem (b := b) rfl, if_pos rfl, hm]
  obtain ⟨-, b2, xs2, r1, r2, r3⟩ := load_inv g1'
  cases r1
  rw [h1] at r2; cases r2
  dsimp only at r3
  rw [List.getElem?_set_ne (by omega)] at r3
  cases fresh r3
  rw [putLink_fresh]
  exact ⟨store_run g1 _, store_run g1' _⟩

theorem split_whole {c : Cfg K} {sd : Seed} {key ckey : K} {cptr : Ptr} {ins : Ins K V R} (hins : InsOk ins) :
    ∀ (fuel : Nat) {item : Ref} {d : Nat} {hd chd : BitVec 64} {w cw : Nat} {s t : St K V} {res : R} {p : List (Nat × Ref)} {x : Link} {C F : Nat → Prop},
    Hole s h p item x C → Own s.mem (mkLink c ckey cptr) F → (∀ a, C a → F a → False) → (∀ a, F a → a < s.next) →
    Go.run (split c sd h key ckey cptr ins fuel item d hd chd w cw) s = .ok (res, t) → Whole t h := by
  intro fuel
  induction fuel with
  | zero => intro item d hd chd w cw s t res p x C F _ _ _ _ e; cases e
  | succ fuel ih =>
    intro item d hd chd w cw s t res p x C F ha ho hap hbel e
    rw [split] at e
    dsimp only at e
    generalize (if (d + 1) % 256 % 16 ≠ 0 then hd >>> 4 else c.digest sd key (w + 1) ((d + 1) % 256)) = hd' at e
    generalize (if (d + 1) % 256 % 16 ≠ 0 then chd >>> 4 else c.digest sd ckey (cw + 1) ((d + 1) % 256)) = chd' at e
    obtain ⟨_, s1, e1, e2⟩ := ok_bind e
    clear e
    obtain rfl := ha.mod e1
    obtain ⟨lb, hlb, hClb⟩ := ha.zip.base
    have h1 := ha.put { x with pmap := bitOf (radixOf hd') ||| bitOf (radixOf chd') }
    have hFlb : ∀ a, F a → a ≠ lb := fun a hF he => hap lb hClb (he ▸ hF)
    split at e2
    · obtain ⟨_, s2, e3, e4⟩ := ok_bind e2
      obtain ⟨q, s3, e5, e6⟩ := ok_bind e4
      obtain ⟨_, s4, e7, e8⟩ := ok_bind e6
      obtain ⟨⟨kvp, res'⟩, s5, e9, e10⟩ := ok_bind e8
      obtain ⟨y, s6, e11, e12⟩ := ok_bind e10
      clear e2 e4 e6 e8 e10
      obtain rfl := h1.mod e3
      have h2 := h1.put { ({ x with pmap := bitOf (radixOf hd') ||| bitOf (radixOf chd') } : Link) with
        tmap := bitOf (radixOf hd') ||| bitOf (radixOf chd') }
      obtain ⟨rfl, k, hk4, rfl⟩ := newLinkArray_inv e5
      have h3 := h2.grow (.links (List.replicate k {}))
      obtain rfl := h3.mod e7
      dsimp only at e9 e11 e12 h2 h3
      rw [Go.put_next, Go.put_next] at e9
      generalize hS2 : Go.put (Go.put s item { x with pmap := bitOf (radixOf hd') ||| bitOf (radixOf chd') }) item
        { ({ x with pmap := bitOf (radixOf hd') ||| bitOf (radixOf chd') } : Link) with tmap := bitOf (radixOf hd') ||| bitOf (radixOf chd') } = S2 at *
      have hn2 : S2.next = s.next := by rw [← hS2, Go.put_next, Go.put_next]
      have hF2 : ∀ a, F a → S2.mem a = s.mem a := fun a hF => by
        rw [← hS2, put_other hlb (hFlb a hF), put_other hlb (hFlb a hF)]
      have h4 := h3.put { ptr := .blk s.next, pmap := bitOf (radixOf hd') ||| bitOf (radixOf chd'), tmap := bitOf (radixOf hd') ||| bitOf (radixOf chd') }
      generalize hS4 : Go.put (Go.grow S2 (.links (List.replicate k {}))) item
        { ptr := .blk s.next, pmap := bitOf (radixOf hd') ||| bitOf (radixOf chd'), tmap := bitOf (radixOf hd') ||| bitOf (radixOf chd') } = S4 at *
      have hn4 : S4.next = s.next + 1 := by rw [← hS4, Go.put_next, ← hn2]; rfl
      have hlt : lb < s.next := ha.below lb hClb
      have hm4 : S4.mem s.next = some (.links (List.replicate k {})) := by
        rw [← hS4, put_other hlb (by omega), ← hn2, grow_new]
      have hF4 : ∀ a, F a → S4.mem a = s.mem a := fun a hF => by
        rw [← hS4, put_other hlb (hFlb a hF), grow_other (by rw [hn2]; exact hbel a hF), hF2 a hF]
      obtain ⟨N, n1, n2, n3, n4⟩ := new_own (hins.newSplit _ _ _ _ e9)
      have h5 : Hole s5 h p item _ C := h4.same (fun a hC => by rw [n2 a (h4.below a hC)]; exact .refl _) n1
      obtain ⟨rfl, rfl⟩ := h5.load e11
      dsimp only at e12
      have hm5 : s6.mem s.next = some (.links (List.replicate k {})) := by rw [n2 _ (by omega)]; exact hm4
      have hfin : ∀ {z₀ z₁ : Link} {E₀ E₁ : Nat → Prop} {w w' : Unit} {t1 t2 : St K V}, Go.run (store ⟨.blk s.next, 0⟩ z₀) s6 = .ok (w, t1) →
          Go.run (store ⟨.blk s.next, 1⟩ z₁) t1 = .ok (w', t2) → Own s6.mem z₀ E₀ → Own s6.mem z₁ E₁ → (∀ a, E₀ a → E₁ a → False) →
          (∀ a, E₀ a ∨ E₁ a → a ≠ s.next ∧ ¬ C a ∧ a < s6.next) → Whole t2 h := by
        intro z₀ z₁ E₀ E₁ w w' t1 t2 f1 f2 o0 o1 od oc
        obtain ⟨k1, k2, ys, k3, k4, k5, k6⟩ := two_stores hm5 f1 f2
        have hole : Hole t2 h p item _ C := h5.same (fun a hC => by
          rw [k2 a (fun he => by have := ha.below a hC; omega)]; exact .refl _) (by omega)
        refine (hole.at (F := fun a => a = s.next ∨ E₀ a ∨ E₁ a) (Own.mk rfl k3 (.inl rfl) ?_) ?_ ?_).whole
        · refine (Kids.two (o0.frame fun a hE => ?_) (o1.frame fun a hE => ?_) od k4 k5 k6 _).mono fun a hE => ⟨.inr hE, (oc a hE).1⟩
          · rw [k2 a (oc a (.inl hE)).1]; exact .refl _
          · rw [k2 a (oc a (.inr hE)).1]; exact .refl _
        · rintro a hC (rfl | hE)
          · exact Nat.lt_irrefl _ (ha.below _ hC)
          · exact (oc a hE).2.1 hC
        · rintro a (rfl | hE)
          · omega
          · rw [k1]; exact (oc a hE).2.2
      have oF : Own s6.mem (mkLink c ckey cptr) F := ho.frame fun a hF => by
        rw [n2 a (by have := hbel a hF; omega), hF4 a hF]; exact .refl _
      have oN : Own s6.mem (mkLink c key kvp) N := n3 _ rfl
      have cF : ∀ a, F a → a ≠ s.next ∧ ¬ C a ∧ a < s6.next := fun a hF => by
        have := hbel a hF
        exact ⟨by omega, fun hC => hap a hC hF, by omega⟩
      have cN : ∀ a, N a → a ≠ s.next ∧ ¬ C a ∧ a < s6.next := fun a hN => by
        have := n4 a hN
        exact ⟨by omega, fun hC => by have := ha.below a hC; omega, by omega⟩
      have dNF : ∀ a, N a → F a → False := fun a hN hF => by
        have := n4 a hN
        have := hbel a hF
        omega
      split at e12
      · obtain ⟨_, t1, f1, e13⟩ := ok_bind e12
        obtain ⟨_, t2, f2, e14⟩ := ok_bind e13
        obtain ⟨_, t3, f3, e15⟩ := ok_bind e14
        cases e15
        obtain ⟨f1, f2⟩ := two_puts hm5 f1 f2
        obtain ⟨z, C', F', hw⟩ := hfin f1 f2 oN oF dNF (fun a hh => hh.elim (cN a) (cF a))
        obtain ⟨m1, m2⟩ := modRoot_mem f3
        exact ⟨z, C', F', hw.mem m1 m2⟩
      · obtain ⟨_, t1, f1, e13⟩ := ok_bind e12
        obtain ⟨_, t2, f2, e14⟩ := ok_bind e13
        obtain ⟨_, t3, f3, e15⟩ := ok_bind e14
        cases e15
        obtain ⟨f1, f2⟩ := two_puts hm5 f1 f2
        obtain ⟨z, C', F', hw⟩ := hfin f1 f2 oF oN (fun a h1 h2 => dNF a h2 h1) (fun a hh => hh.elim (cF a) (cN a))
        obtain ⟨m1, m2⟩ := modRoot_mem f3
        exact ⟨z, C', F', hw.mem m1 m2⟩
    · next hbits =>
      have hbits : bitOf (radixOf hd') = bitOf (radixOf chd') := by simpa using hbits
      rw [← hbits] at h1 e2
      have hor : bitOf (radixOf hd') ||| bitOf (radixOf hd') = bitOf (radixOf hd') := BitVec.or_self
      rw [hor] at h1 e2
      obtain ⟨q, s2, e3, e4⟩ := ok_bind e2
      obtain ⟨_, s3, e5, e6⟩ := ok_bind e4
      clear e2 e4
      obtain ⟨rfl, k, hk4, rfl⟩ := newLinkArray_inv e3
      have h2 := h1.grow (.links (List.replicate k {}))
      obtain rfl := h2.mod e5
      rw [Go.put_next] at e6
      dsimp only at e6
      have h3 := h2.put { ptr := .blk s.next, pmap := bitOf (radixOf hd'), tmap := x.tmap }
      generalize hS1 : Go.put s item { x with pmap := bitOf (radixOf hd') } = S1 at *
      have hn1 : S1.next = s.next := by rw [← hS1, Go.put_next]
      generalize hS3 : Go.put (Go.grow S1 (.links (List.replicate k {}))) item { ptr := .blk s.next, pmap := bitOf (radixOf hd'), tmap := x.tmap } = S3 at *
      have hn3 : S3.next = s.next + 1 := by rw [← hS3, Go.put_next, ← hn1]; rfl
      have hlt : lb < s.next := ha.below lb hClb
      have hm3 : S3.mem s.next = some (.links (List.replicate k {})) := by
        rw [← hS3, put_other hlb (by omega), ← hn1, grow_new]
      have hF3 : ∀ a, F a → S3.mem a = s.mem a := fun a hF => by
        rw [← hS3, put_other hlb (hFlb a hF), grow_other (by rw [hn1]; exact hbel a hF), ← hS1, put_other hlb (hFlb a hF)]
      have hnew : ¬ C s.next := fun hC => Nat.lt_irrefl _ (ha.below _ hC)
      have hself : bitOf (radixOf hd') &&& bitOf (radixOf hd') ≠ 0#32 := by
        rw [and_bitOf_ne_zero (radix_lt _), getLsbD_bitOf (radix_lt _)]; simp
      refine ih (p := p ++ [(radixOf hd', item)]) (x := {}) (C := fun a => C a ∨ a = s.next) (F := F) ⟨?_, ?_, ?_⟩
        (ho.frame fun a hF => by rw [hF3 a hF]; exact .refl _) ?_ (fun a hF => by have := hbel a hF; omega) e6
      · refine .child (G := fun _ _ => False) h3.zip h3.slot rfl hm3 (radix_lt _) hself (rank_one (radixOf_lt _)).symm (fun j z _ _ hz => .nil ?_)
          (fun _ _ hh => hh.elim) (fun _ _ _ hh => hh.elim) (fun a hC => .inl hC) (.inr rfl) hnew
        exact replicate_blank z (List.mem_of_getElem? hz)
      · refine ⟨s.next, _, rfl, hm3, ?_⟩
        rw [List.getElem?_replicate, if_pos (show 0 < k by omega)]
      · rintro a (hC | rfl)
        · have := ha.below a hC; omega
        · omega
      · rintro a (hC | rfl) hF
        · exact hap a hC hF
        · exact Nat.lt_irrefl _ (hbel _ hF)

theorem conflict_whole {c : Cfg K} (hc : CfgOk c V) {sd : Seed} {fuel : Nat} {key : K} {ins : Ins K V R} (hins : InsOk ins) {cur : Cur} {res : R}
    (ha : At s h p cur.l x C F) (hb : x.pmap &&& bitOf (radixOf cur.hd) ≠ 0#32) (e : Go.run (conflict c sd h fuel key ins cur) s = .ok (res, t)) :
    Whole t h := by
  unfold conflict at e
  obtain ⟨item, s1, e1, e2⟩ := ok_bind e
  clear e
  obtain ⟨x', s1', e1', e1''⟩ := ok_bind e1
  obtain ⟨rfl, rfl⟩ := ha.hole.load e1'
  cases e1''
  obtain ⟨y, s2, e3, e4⟩ := ok_bind e2
  clear e1 e1' e2
  obtain ⟨rfl, hsl⟩ := slot_load e3
  obtain ⟨D, G, hdn, -⟩ := ha.down (radix_lt _) hb hsl
  obtain ⟨ckey, s3, e5, e6⟩ := ok_bind e4
  clear e4
  have hs3 : s3 = s2 := (Reader.readKey c y).ok (show (readKey c y : M K V K) s2 = .ok (ckey, s3) from e5) |>.1
  subst hs3
  split at e6
  · exact (hins.hit _).whole e6 hdn.whole
  · obtain ⟨⟨chd, cw⟩, s4, e7, e8⟩ := ok_bind e6
    clear e6
    have hs4 : s4 = s3 := by
      unfold Go.run liftE at e7
      split at e7 <;> cases e7
      rfl
    subst hs4
    dsimp only at e8
    split at e8
    · obtain ⟨⟨q, res'⟩, s5, e9, e10⟩ := ok_bind e8
      obtain ⟨_, s6, e11, e12⟩ := ok_bind e10
      cases e12
      obtain ⟨N, n1, n2, n3, n4⟩ := new_own (hins.newSlot _ _ _ _ e9)
      have hole : Hole s5 h _ _ y D := hdn.hole.same (fun a hC => by rw [n2 a (hdn.hole.below a hC)]; exact .refl _) n1
      obtain rfl := hole.mod e11
      refine (hole.fill (n3 _ rfl) (fun a hC hN => ?_) fun a hN => (n4 a hN).2).whole
      have := n4 a hN
      have := hdn.below a (.inl hC)
      omega
    · obtain ⟨_, s5, e9, e10⟩ := ok_bind e8
      obtain ⟨_, s6, e11, e12⟩ := ok_bind e10
      clear e8 e10
      obtain rfl := ha.hole.mod e9
      obtain ⟨m1, m2⟩ := modRoot_mem e11
      have ha5 := (ha.set (y := { x' with tmap := x'.tmap &&& ~~~bitOf (radixOf cur.hd) }) rfl (Nat.le_refl _)).mem m1 m2
      obtain ⟨lb, hlb, hClb⟩ := ha.zip.base
      obtain ⟨b, xs, hb1, hb2, hb3⟩ := hsl
      have hFb := (ha.own.kids hb1 hb2).1
      have hne : b ≠ lb := fun he => ha.apart lb hClb (he ▸ hFb)
      have hmem : ∀ a, a ≠ lb → s6.mem a = s4.mem a := fun a hne => by rw [m1, put_other hlb hne]
      have hsl6 : Slot s6.mem ⟨x'.ptr, rankOf x'.pmap (radixOf cur.hd)⟩ y := ⟨b, xs, hb1, by rw [hmem b hne]; exact hb2, hb3⟩
      obtain ⟨D', G', hdn6, hsub⟩ := ha5.down (n := radixOf cur.hd) (radix_lt _) hb hsl6
      have hcell : ∀ b k v, s4.mem b = some (.kv k v) → s6.mem b = some (.kv k v) := fun b' k v hm => by
        rw [hmem b' fun he => ?_]
        · exact hm
        · obtain ⟨c', zs, g1, g2, _⟩ := ha.slot
          rw [hlb] at g1; cases g1
          rw [he, g2] at hm; cases hm
      exact split_whole hins fuel hdn6.hole (hc.own e5 hcell hdn6.own) hdn6.apart (fun a hG => hdn6.below a (.inr hG)) e12

/-- `Set`, `Mod` and `Add`. -/
theorem upsert_whole {c : Cfg K} (hc : CfgOk c V) {fuel : Nat} {key : K} {ins : Ins K V R} (hins : InsOk ins) {res : R} (hw : Whole s h)
    (e : Go.run (upsert c h fuel key ins) s = .ok (res, t)) : Whole t h := by
  obtain ⟨x, C, F, ha⟩ := hw
  unfold upsert at e
  obtain ⟨m, s1, e1, e2⟩ := ok_bind e
  cases e1
  clear e
  obtain ⟨⟨cur, hit⟩, s2, e3, e4⟩ := ok_bind e2
  clear e2
  obtain ⟨rfl, p', x', C', F', hat, hd, hif⟩ := search_at fuel (cur := start c (s.roots h).seed key h) ha rfl (Nat.le_refl _) e3
  dsimp only at e4
  cases hit with
  | true =>
    rw [if_pos rfl] at hif e4
    exact conflict_whole hc hins hat hif.1 e4
  | false =>
    rw [if_neg (by simp)] at hif e4
    exact insertSlot_whole hins hat hif e4

/-! ### Deletion -/

/-- The entries of `q` that are left are those of `p`. -/
def Rest (q : List (Nat × Option Ref)) (p : List (Nat × Ref)) : Prop := ∀ j n r, q[j]? = some (n, some r) → j < p.length → p[j]? = some (n, r)

theorem pathAt_inv {q : List (Nat × Option Ref)} {d n : Nat} (e : Go.run (pathAt q d : M K V (Nat × Ref)) s = .ok ((n, r), t)) : t = s ∧ q[d]? = some (n, some r) := by
  unfold Go.run pathAt at e
  cases hq : q[d]? with
  | none => rw [hq] at e; cases e
  | some w =>
    obtain ⟨n', w⟩ := w
    rw [hq] at e
    cases w with
    | none => cases e
    | some r' => cases e; exact ⟨rfl, rfl⟩

theorem Rest.clear {q : List (Nat × Option Ref)} {p : List (Nat × Ref)} (hr : Rest q p) (d k : Nat) : Rest (pathClear q d) (p.take k) := by
  intro j n r hj hl
  rw [List.length_take] at hl
  rw [List.getElem?_take, if_pos (by omega)]
  refine hr j n r ?_ (by omega)
  unfold pathClear at hj
  rw [List.getElem?_modify] at hj
  cases hq : q[j]? with
  | none => rw [hq] at hj; cases hj
  | some e =>
    rw [hq] at hj
    have hj := Option.some.inj hj
    dsimp only at hj
    split at hj
    · cases hj
    · rw [← hj]

theorem collapse_whole : ∀ (d : Nat) {q : List (Nat × Option Ref)} {l : Ref} {count : Nat} {s t : St K V} {w : Unit} {p : List (Nat × Ref)} {x : Link} {C F : Nat → Prop},
    At s h p l x C F → count = popcount x.pmap → Rest q p → d ≤ p.length → Go.run (collapse h d q l count) s = .ok (w, t) → Whole t h := by
  intro d
  induction d with
  | zero => intro q l count s t w p x C F ha _ _ _ e; cases e; exact ha.whole
  | succ d ih =>
    intro q l count s t w p x C F ha hcount hq hd e
    rw [collapse] at e
    obtain ⟨x', s1, e1, e2⟩ := ok_bind e
    clear e
    obtain ⟨rfl, rfl⟩ := ha.hole.load e1
    split at e2
    · next hcond =>
      obtain ⟨y, s2, e3, e4⟩ := ok_bind e2
      obtain ⟨_, s3, e5, e6⟩ := ok_bind e4
      obtain ⟨_, s4, e7, e8⟩ := ok_bind e6
      obtain ⟨⟨n, l'⟩, s5, e9, e10⟩ := ok_bind e8
      obtain ⟨_, s6, e11, e12⟩ := ok_bind e10
      obtain ⟨x'', s7, e13, e14⟩ := ok_bind e12
      clear e2 e4 e6 e8 e10 e12
      obtain ⟨rfl, b, xs, g1, g2, g3⟩ := load_inv e3
      dsimp only at g1 g3
      obtain ⟨hFb, E, k1, k2, k3⟩ := ha.own.kids g1 g2
      obtain ⟨rfl, -⟩ := store_inv e5
      have ha3 := ha.hole.fill (k1 0 y (by omega) g3) (fun a hC hE => ha.apart a hC (k2 0 a hE).1) fun a hE => ha.below a (.inr (k2 0 a hE).1)
      obtain ⟨m1, m2⟩ := modRoot_mem e7
      have ha4 := ha3.mem m1 m2
      obtain ⟨rfl, hqd⟩ := pathAt_inv e9
      obtain ⟨z, D, G, hz, -⟩ := ha4.pop d (hq d n l' hqd (by omega))
      obtain rfl := hz.hole.mod e11
      have hz6 := hz.set (y := { z with tmap := z.tmap ||| bitOf n }) rfl (Nat.le_refl _)
      obtain ⟨rfl, rfl⟩ := hz6.hole.load e13
      exact ih hz6 rfl (hq.clear d d) (by rw [List.length_take]; omega) e14
    · cases e2; exact ha.whole

/-- A link of which one item has been taken off, but not yet removed from the array. -/
structure Gap (s : St K V) (h : Nat) (p : List (Nat × Ref)) (r : Ref) (x : Link) (C F : Nat → Prop) (pm : BitVec 32) : Prop where
  hole : Hole s h p r x C
  own : Own s.mem { x with pmap := pm } F
  count : popcount pm = popcount x.pmap + 1
  apart : ∀ a, C a → F a → False
  below : ∀ a, F a → a < s.next

theorem shiftBack_at {d idx count : Nat} {w : Unit} {pm : BitVec 32} (hg : Gap s h p r x C F pm) (hcount : count = popcount x.pmap) (hidx : idx ≤ count)
    (e : Go.run (shiftBack d r idx count) s = .ok (w, t)) : ∃ y C' F', At t h p r y C' F' ∧ y.pmap = x.pmap := by
  unfold shiftBack at e
  obtain ⟨x', s1, e1, e2⟩ := ok_bind e
  clear e
  obtain ⟨rfl, rfl⟩ := hg.hole.load e1
  have hFptr : ∀ b, x'.ptr = .blk b → F b := by
    intro b hb
    have ho := hg.own
    cases ho with
    | nil h => dsimp only at h; rw [hb] at h; cases h
    | cell h1 _ h3 => dsimp only at h1; rw [hb] at h1; cases h1; exact h3
    | arr h1 _ h3 => dsimp only at h1; rw [hb] at h1; cases h1; exact h3
  split at e2
  · next hcond =>
    obtain ⟨q', s2, e3, e4⟩ := ok_bind e2
    obtain ⟨_, s3, e5, e6⟩ := ok_bind e4
    obtain ⟨_, s4, e7, e8⟩ := ok_bind e6
    clear e2 e4 e6
    obtain ⟨rfl, k, hk4, rfl⟩ := newLinkArray_inv e3
    have hole2 := hg.hole.grow (.links (List.replicate k {}))
    obtain rfl := hole2.mod e5
    have hole3 := hole2.put { x' with ptr := .blk s1.next }
    obtain ⟨lb, hlb, hClb⟩ := hg.hole.zip.base
    have hlt : lb < s1.next := hg.hole.below lb hClb
    have hptr : x'.ptr ≠ .blk s1.next := fun he => Nat.lt_irrefl _ (hg.below _ (hFptr _ he))
    have hm3 : (Go.put (Go.grow s1 (.links (List.replicate k {}))) r { x' with ptr := .blk s1.next }).mem s1.next = some (.links (List.replicate k {})) := by
      rw [put_other hlb (by omega), grow_new]
    have hF3 : ∀ a, F a → (Go.put (Go.grow s1 (.links (List.replicate k {}))) r { x' with ptr := .blk s1.next }).mem a = s1.mem a := fun a hF => by
      rw [put_other hlb (fun he => hg.apart lb hClb (he ▸ hF)), grow_other (hg.below a hF)]
    have hn3 : (Go.put (Go.grow s1 (.links (List.replicate k {}))) r { x' with ptr := .blk s1.next }).next = s1.next + 1 := by
      rw [Go.put_next]; rfl
    generalize Go.put (Go.grow s1 (.links (List.replicate k {}))) r { x' with ptr := .blk s1.next } = S3 at *
    obtain ⟨f1, f2, xs, ys, f3, f4, f5, f6⟩ := copy_inv hptr _ hm3 e7
    obtain ⟨g1, g2, xs', zs, g3, g4, g5, g6⟩ := copy_inv hptr _ f4 e8
    have hnew : ∀ a, F a → a ≠ s1.next := fun a hF he => by have := hg.below a hF; omega
    have hFt : ∀ a, F a → t.mem a = s1.mem a := fun a hF => by rw [g2 a (hnew a hF), f2 a (hnew a hF), hF3 a hF]
    have holet : Hole t h p r { x' with ptr := .blk s1.next } C := hole3.same (fun a hC => by
      have : a ≠ s1.next := fun he => by have := hg.hole.below a hC; omega
      rw [g2 a this, f2 a this]; exact .refl _) (by omega)
    have hkids : Kids t.mem zs (popcount x'.pmap) F := by
      have hus : (idx = 0 ∧ count - idx = 0) ∨ ∃ cb us, x'.ptr = .blk cb ∧ s1.mem cb = some (.links us) ∧ (idx = 0 ∨ xs = us) ∧ (count - idx = 0 ∨ xs' = us) := by
        have hA : ∀ cb us, x'.ptr = .blk cb → S3.mem cb = some (.links us) → s1.mem cb = some (.links us) := fun cb us hcb hm => by
          rw [← hF3 cb (hFptr _ hcb)]; exact hm
        have hB : ∀ cb us, x'.ptr = .blk cb → s4.mem cb = some (.links us) → s1.mem cb = some (.links us) := fun cb us hcb hm => by
          rw [← hF3 cb (hFptr _ hcb), ← f2 cb (hnew _ (hFptr _ hcb))]; exact hm
        rcases f3 with f3 | ⟨c1, hc1, hm1⟩
        · rcases g3 with g3 | ⟨c2, hc2, hm2⟩
          · exact .inl ⟨f3, g3⟩
          · exact .inr ⟨c2, xs', hc2, hB _ _ hc2 hm2, .inl f3, .inr rfl⟩
        · rcases g3 with g3 | ⟨c2, hc2, hm2⟩
          · exact .inr ⟨c1, xs, hc1, hA _ _ hc1 hm1, .inr rfl, .inl g3⟩
          · have h1 := hA _ _ hc1 hm1
            have h2 := hB _ _ hc2 hm2
            rw [hc1] at hc2; cases hc2
            rw [h1] at h2; cases h2
            exact .inr ⟨c1, xs, hc1, h1, .inr rfl, .inr rfl⟩
      rcases hus with ⟨h1, h2⟩ | ⟨cb, us, u1, u2, u3, u4⟩
      · rw [show popcount x'.pmap = 0 by omega]; exact .none
      · have hk := (hg.own.kids (b := cb) u1 u2).2
        dsimp only at hk
        rw [hg.count] at hk
        refine ((hk.mono fun a h => h.1).remove (i := idx) (by omega) fun j hj => ?_).frame fun a hF => by rw [hFt a hF]; exact .refl _
        rw [g6 j]
        by_cases hji : j < idx
        · rw [if_neg (by omega), f6 j, if_pos (by omega), if_pos hji]
          rcases u3 with u3 | rfl
          · omega
          · rfl
        · rw [if_pos (by omega), if_neg hji]
          rcases u4 with u4 | rfl
          · omega
          · rfl
    refine ⟨_, C, fun a => a = s1.next ∨ F a, holet.at (Own.mk rfl g4 (.inl rfl) ?_) ?_ ?_, rfl⟩
    · exact hkids.mono fun a hF => ⟨.inr hF, hnew a hF⟩
    · rintro a hC (rfl | hF)
      · exact Nat.lt_irrefl _ (hg.hole.below _ hC)
      · exact hg.apart a hC hF
    · rintro a (rfl | hF)
      · omega
      · have := hg.below a hF; omega
  · rcases back_inv _ e2 with ⟨h0, rfl⟩ | ⟨b, xs, ys, h1, h2, h3, h4, h5, h6⟩
    · exact ⟨x', C, F, hg.hole.at (hg.own.link rfl (by show popcount x'.pmap ≤ popcount pm; rw [hg.count]; omega)) hg.apart hg.below, rfl⟩
    · have hFb := hFptr b h1
      have hk := (hg.own.kids (b := b) h1 h2).2
      dsimp only at hk
      rw [hg.count] at hk
      have holet : Hole t h p r x' C := hg.hole.same (fun a hC => by rw [h5 a fun he => hg.apart a hC (he ▸ hFb)]; exact .refl _) (by omega)
      refine ⟨x', C, F, holet.at (Own.mk h1 h4 hFb ?_) hg.apart fun a hF => by rw [h3]; exact hg.below a hF, rfl⟩
      refine (hk.remove (i := idx) (by omega) fun j hj => ?_).frame fun a hh => by rw [h5 a hh.2]; exact .refl _
      rw [h6 j]
      by_cases hji : j < idx
      · rw [if_neg (by omega), if_pos hji]
      · rw [if_pos (by omega), if_neg hji]

theorem unlink_whole : ∀ (d : Nat) {q : List (Nat × Option Ref)} {l : Ref} {idx count : Nat} {s t : St K V} {w : Unit} {p : List (Nat × Ref)} {x : Link}
    {C F : Nat → Prop} {pm : BitVec 32}, Gap s h p l x C F pm → count = popcount x.pmap → idx ≤ count → Rest q p → d ≤ p.length →
    Go.run (unlink h d q l idx count) s = .ok (w, t) → Whole t h := by
  intro d
  induction d with
  | zero =>
    intro q l idx count s t w p x C F pm hg hcount hidx hq hd e
    rw [unlink] at e
    obtain ⟨_, s1, e1, e2⟩ := ok_bind e
    obtain ⟨y, C', F', ha, -⟩ := shiftBack_at hg hcount hidx e1
    cases e2
    exact ha.whole
  | succ d ih =>
    intro q l idx count s t w p x C F pm hg hcount hidx hq hd e
    rw [unlink] at e
    split at e
    · obtain ⟨_, s1, e1, e2⟩ := ok_bind e
      obtain ⟨⟨n, l'⟩, s2, e3, e4⟩ := ok_bind e2
      obtain ⟨z, s3, e5, e6⟩ := ok_bind e4
      obtain ⟨_, s4, e7, e8⟩ := ok_bind e6
      obtain ⟨z', s5, e9, e10⟩ := ok_bind e8
      clear e e2 e4 e6 e8
      obtain rfl := hg.hole.mod e1
      have ha1 := hg.hole.fill (y := { x with ptr := .nil }) (F := fun _ => False) (.nil rfl) (fun _ _ hh => hh) fun _ hh => hh.elim
      obtain ⟨rfl, hqd⟩ := pathAt_inv e3
      obtain ⟨z0, D, G, hz, hn, hbit, -⟩ := ha1.pop d (hq d n l' hqd (by omega))
      obtain ⟨rfl, rfl⟩ := hz.hole.load e5
      obtain rfl := hz.hole.mod e7
      have hz4 := hz.hole.put { z with pmap := z.pmap &&& ~~~bitOf n, tmap := z.tmap &&& ~~~bitOf n }
      obtain ⟨rfl, rfl⟩ := hz4.load e9
      have hpc := popcount_andNot hn hbit
      refine ih (pm := z.pmap) ⟨hz4, ?_, hpc, hz.apart, fun a hG => by rw [Go.put_next]; exact hz.below a (.inr hG)⟩ rfl ?_ (hq.clear d d)
        (by rw [List.length_take]; omega) e10
      · obtain ⟨lb, hlb, hClb⟩ := hz.zip.base
        refine (hz.own.link (y := { ptr := z.ptr, pmap := z.pmap, tmap := z.tmap &&& ~~~bitOf n }) rfl (Nat.le_refl _)).frame fun a hG => ?_
        rw [put_other hlb fun he => hz.apart lb hClb (he ▸ hG)]
        exact .refl _
      · have := rank_lt hn hbit
        dsimp only
        omega
    · obtain ⟨_, s1, e1, e2⟩ := ok_bind e
      obtain ⟨y, C', F', ha, hy⟩ := shiftBack_at hg hcount hidx e1
      exact collapse_whole _ ha (by rw [hy]; exact hcount) hq hd e2

/-- `Del`. -/
theorem delete_whole {c : Cfg K} {skip : Bool → Bool} {fuel : Nat} {key : K} {w : Unit} (hw : Whole s h)
    (e : Go.run (delete c h fuel skip key) s = .ok (w, t)) : Whole t h := by
  obtain ⟨x, C, F, ha⟩ := hw
  unfold delete at e
  obtain ⟨m, s1, e1, e2⟩ := ok_bind e
  cases e1
  clear e
  obtain ⟨⟨cur, hit⟩, s2, e3, e4⟩ := ok_bind e2
  clear e2
  obtain ⟨rfl, p', x', C', F', hat, hd, hif⟩ := search_at fuel (cur := start c (s.roots h).seed key h) ha rfl (Nat.le_refl _) e3
  dsimp only at e4
  cases hit with
  | false =>
    rw [if_neg (by simp)] at e4
    cases e4
    exact hat.whole
  | true =>
    rw [if_pos rfl] at hif e4
    obtain ⟨hbit, hpath⟩ := hif
    unfold remove at e4
    obtain ⟨item, s3, e5, e6⟩ := ok_bind e4
    obtain ⟨y, s4, e7, e8⟩ := ok_bind e6
    obtain ⟨k, s5, e9, e10⟩ := ok_bind e8
    clear e4 e6 e8
    have hs3 : s3 = s2 := (Reader.bind (Reader.load _) fun _ => Reader.pure _).ok (show (itemRef cur : M K V Ref) s2 = .ok (item, s3) from e5) |>.1
    subst hs3
    obtain ⟨rfl, -⟩ := slot_load e7
    have hs5 : s5 = s4 := (Reader.readKey c y).ok (show (readKey c y : M K V K) s4 = .ok (k, s5) from e9) |>.1
    subst hs5
    split at e10
    · cases e10; exact hat.whole
    · obtain ⟨z, s6, e11, e12⟩ := ok_bind e10
      obtain ⟨_, s7, e13, e14⟩ := ok_bind e12
      obtain ⟨_, s8, e15, e16⟩ := ok_bind e14
      obtain ⟨z', s9, e17, e18⟩ := ok_bind e16
      clear e10 e12 e14 e16
      obtain ⟨rfl, rfl⟩ := hat.hole.load e11
      obtain rfl := hat.hole.mod e13
      obtain ⟨m1, m2⟩ := modRoot_mem e15
      have hz := (hat.hole.put { z with pmap := z.pmap &&& ~~~bitOf (radixOf cur.hd), tmap := z.tmap &&& ~~~bitOf (radixOf cur.hd) }).mem m1 m2
      obtain ⟨rfl, rfl⟩ := hz.load e17
      have hpc := popcount_andNot (radix_lt _) hbit
      have hrk := rank_lt (radix_lt _) hbit
      refine unlink_whole cur.d (pm := z.pmap) (C := C') (F := F') ⟨hz, ?_, hpc, hat.apart, fun a hG => ?_⟩ rfl ?_ ?_ hd e18
      · obtain ⟨lb, hlb, hClb⟩ := hat.zip.base
        rw [m1]
        refine (hat.own.link (y := { ptr := z.ptr, pmap := z.pmap, tmap := z.tmap &&& ~~~bitOf (radixOf cur.hd) }) rfl (Nat.le_refl _)).frame fun a hG => ?_
        rw [put_other hlb fun he => hat.apart lb hClb (he ▸ hG)]
        exact .refl _
      · rw [m2, Go.put_next]; exact hat.below a (.inr hG)
      · dsimp only; omega
      · have : Rest cur.path p' := by
          intro j n r hj hl
          rw [hpath, pathOf_append, List.getElem?_append_left (by simpa [pathOf] using hl)] at hj
          unfold pathOf at hj
          rw [List.getElem?_map] at hj
          cases hpj : p'[j]? with
          | none => rw [hpj] at hj; cases hj
          | some e => rw [hpj] at hj; cases hj; rfl
        have := this.clear cur.d p'.length
        rwa [List.take_length] at this

/-- A new container. -/
theorem new_whole {sd : Seed} {m : Handle} (e : Go.run (newRoot sd) s = .ok (m, t)) : m = some s.next ∧ Whole t s.next := by
  cases e
  refine ⟨rfl, { ptr := .blk (s.next + 1) }, fun a => a = s.next, fun a => a = s.next + 1, .root rfl, ⟨s.next, _, rfl, if_pos rfl, rfl⟩, ?_, ?_, ?_⟩
  · refine Own.mk (b := s.next + 1) (xs := List.replicate 16 {}) rfl ?_ rfl ?_
    · dsimp only
      rw [if_neg (by omega), if_pos rfl]
    · exact Kids.blank replicate_blank _
  · intro a h1 h2; omega
  · intro a hh; dsimp only; omega

end

end Amt.Tree
