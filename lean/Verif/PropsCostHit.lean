/-
What is found is written in place (C90).
-/
import Verif.PropsCostMod

set_option linter.unusedVariables false
set_option linter.unusedSectionVars false

namespace Amt.Go
open Amt

section
variable {K V R : Type} {c : Cfg K} {h n : Nat} {key : K} {s s' : St K V}

/-- If the search ends at the key, an insertion does what it does on a hit. -/
theorem found_hit {p : Ptr} (hl : lookupX c h n key s = .ok (some p, s')) (ins : Ins K V R) (cell : M K V Ptr) (r : R) :
    s' = s ∧ upsertL c h n key ins cell r s = ins.hit p s ∧ upsertX c h n key ins s = ins.hit p s := by
  unfold lookupX at hl
  unfold upsertL upsertX
  rw [bind_ok (getRoot_run h s)] at hl
  rw [bind_ok (getRoot_run h s), bind_ok (getRoot_run h s)]
  cases h1 : searchX c (s.roots h).seed key n (start c (s.roots h).seed key h) s with
  | error e => rw [bind_err h1] at hl; cases hl
  | ok r =>
    obtain ⟨⟨cur, hit⟩, s1⟩ := r
    have hw := walk_search (V := V) c (s.roots h).seed key n (start c (s.roots h).seed key h) s
    rw [h1] at hw
    obtain rfl := (Reader.search _ _ _ _ _).ok (hw.resolve_left (by simp)) |>.1
    rw [bind_ok h1] at hl
    rw [bind_ok h1, bind_ok h1]
    cases hit with
    | false => cases hl
    | true =>
      simp only [if_true] at hl ⊢
      rw [and_self]
      unfold conflict
      cases h2 : (itemRef cur : M K V Ref) s1 with
      | error e => rw [bind_err h2] at hl; cases hl
      | ok r =>
        obtain ⟨item, s2⟩ := r
        obtain rfl := (Reader.bind (Reader.load _) fun _ => Reader.pure _).ok h2 |>.1
        rw [bind_ok h2] at hl ⊢
        cases h3 : (load item : M K V Link) s2 with
        | error e => rw [bind_err h3] at hl; cases hl
        | ok r =>
          obtain ⟨x, s3⟩ := r
          obtain rfl := (Reader.load _).ok h3 |>.1
          rw [bind_ok h3] at hl ⊢
          cases h4 : (readKey c x : M K V K) s3 with
          | error e => rw [bind_err h4] at hl; cases hl
          | ok r =>
            obtain ⟨k, s4⟩ := r
            obtain rfl := (Reader.readKey _ _).ok h4 |>.1
            rw [bind_ok h4] at hl ⊢
            cases hk : c.eq key k with
            | false => rw [hk] at hl; cases hl
            | true => rw [hk] at hl; cases hl; exact ⟨rfl, rfl⟩

end

end Amt.Go

namespace Amt.Par
open Amt Spec

section
variable {K V α : Type}

theorem store_grows {r : Ref} {x : Link} {s : St K V} {y : Unit × St K V} (e : Amt.store r x s = .ok y) : y.2.next = s.next := by
  unfold Amt.store at e
  split at e
  · cases e
  · split at e
    · cases e
    · cases e
    · split at e <;> cases e
      rfl

theorem modLink_grows {r : Ref} {f : Link → Link} {s : St K V} {y : Unit × St K V} (e : modLink r f s = .ok y) : y.2.next = s.next := by
  unfold modLink at e
  rw [bind_run] at e
  cases e1 : Amt.load r s with
  | error x => rw [e1] at e; cases e
  | ok z =>
    rw [e1] at e
    rw [← (Reader.load r).ok e1 |>.1]
    exact store_grows e

theorem loadKv_grows {p : Amt.Ptr} {s : St K V} {y : (Option K × V) × St K V} (e : Amt.loadKv p s = .ok y) : y.2 = s := by
  unfold Amt.loadKv at e
  split at e
  · cases e
  · split at e <;> cases e
    rfl

theorem storeVal_grows {p : Amt.Ptr} {v : V} {s : St K V} {y : Unit × St K V} (e : Amt.storeVal p v s = .ok y) : y.2.next = s.next := by
  unfold Amt.storeVal at e
  split at e
  · cases e
  · split at e <;> cases e
    rfl

/-- The number of allocations that are counted is the number of objects by which the memory has grown when the program returns. -/
theorem T.allocated : ∀ {t : T K V α} {s : St K V} {y : α × St K V}, t.denote s = .ok y → y.2.next = s.next + t.cost Price.alloc s := by
  intro t
  induction t with
  | ret a => intro s y e; cases e; rfl
  | fail x => intro s y e; cases e
  | load r k ih =>
    intro s y e
    rw [T.denote, bind_run] at e
    unfold T.cost
    cases e1 : Amt.load r s with
    | error x => rw [e1] at e; cases e
    | ok z =>
      rw [e1] at e
      rw [ih z.1 e, (Reader.load r).ok e1 |>.1, show Price.alloc.link = 0 from rfl]
      dsimp only
      rw [(Reader.load r).ok e1 |>.1, Nat.zero_add]
  | store r x k ih =>
    intro s y e
    rw [T.denote, bind_run] at e
    unfold T.cost
    cases e1 : Amt.store r x s with
    | error x => rw [e1] at e; cases e
    | ok z =>
      rw [e1] at e
      rw [ih e, store_grows e1, show Price.alloc.link = 0 from rfl, Nat.zero_add]
  | put r x k ih =>
    intro s y e
    rw [T.denote, bind_run] at e
    unfold T.cost
    cases e1 : modLink r x.put s with
    | error x => rw [e1] at e; cases e
    | ok z =>
      rw [e1] at e
      rw [ih e, modLink_grows e1, show Price.alloc.link = 0 from rfl, Nat.zero_add]
  | alloc o k ih =>
    intro s y e
    rw [T.denote, bind_run] at e
    unfold T.cost
    cases e1 : Amt.alloc o s with
    | error x => rw [e1] at e; cases e
    | ok z =>
      rw [e1] at e
      have : z.2.next = s.next + 1 := by cases e1; rfl
      rw [ih z.1 e, this, show Price.alloc.new = 1 from rfl, Nat.add_assoc]
  | loadKv p k ih =>
    intro s y e
    rw [T.denote, bind_run] at e
    unfold T.cost
    cases e1 : Amt.loadKv p s with
    | error x => rw [e1] at e; cases e
    | ok z =>
      rw [e1] at e
      have : z.2 = s := loadKv_grows e1
      rw [ih z.1 e, this, show Price.alloc.cell = 0 from rfl]
      dsimp only
      rw [this, Nat.zero_add]
  | storeVal p v k ih =>
    intro s y e
    rw [T.denote, bind_run] at e
    unfold T.cost
    cases e1 : Amt.storeVal p v s with
    | error x => rw [e1] at e; cases e
    | ok z =>
      rw [e1] at e
      rw [ih e, storeVal_grows e1, show Price.alloc.cell = 0 from rfl, Nat.zero_add]
  | getRoot h k ih =>
    intro s y e
    rw [T.denote, bind_run] at e
    unfold T.cost
    cases e1 : Amt.getRoot h s with
    | error x => rw [e1] at e; cases e
    | ok z =>
      rw [e1] at e
      have : z.2 = s := by cases e1; rfl
      rw [ih z.1 e, this, show Price.alloc.root = 0 from rfl]
      dsimp only
      rw [this, Nat.zero_add]
  | modRoot h f k ih =>
    intro s y e
    rw [T.denote, bind_run] at e
    unfold T.cost
    cases e1 : Amt.modRoot h f s with
    | error x => rw [e1] at e; cases e
    | ok z =>
      rw [e1] at e
      have : z.2.next = s.next := by cases e1; rfl
      rw [ih e, this, show Price.alloc.root = 0 from rfl, Nat.zero_add]

end

section
variable {K V : Type} [Inhabited V] {G : MapTree K V} {C : Go.MapCode K V} {I : MapImpl K V} {GS : SetTree K} {CS : Go.SetCode K} {IS : SetImpl K}

/-- C90.  In any memory in which no array of links is reached from itself, if `Get(k)` finds a value then `Set(k, v)`, and `Mod(k, f)` for a function `f` of the value, return and allocate
nothing; the memory has the same objects as before. -/
theorem C90_map (hA : MapAll G C I) {n a : Nat} {k : K} {s s' : St K V} (hs : Go.Tidy s) {v₀ : V} (hg : C.Get n (some a) k s = .ok ((v₀, true), s')) :
    (∀ v, (G.Set n (some a) k v).cost Price.alloc s = 0 ∧ ∃ s₁, C.Set n (some a) k v s = .ok ((), s₁) ∧ s₁.next = s.next) ∧
    ∀ f, (G.Mod n (some a) k (modCb f) []).cost Price.alloc s = 0 ∧ ∃ r s₁, C.Mod n (some a) k (Go.modCb f) [] s = .ok (r, s₁) ∧ s₁.next = s.next := by
  have hG := hA.code.mirrors
  have hD := hA.tree.of
  obtain ⟨b, x, hl, hb⟩ : ∃ b x, Go.lookupX I.cfg a (n + 300) k s = .ok (some (.blk b), s) ∧ Amt.loadKv (.blk b) s = .ok (x, s) := by
    rw [hG.get, bind_run] at hg
    have hp : C.Ptr n (some a) k s = Go.ptrX I.cfg a (n + 300) k s := hG.ptr n a k s
    rw [hp] at hg
    unfold Go.ptrX at hg
    rw [bind_run] at hg
    cases e1 : Go.lookupX I.cfg a (n + 300) k s with
    | error e => rw [e1] at hg; cases hg
    | ok y =>
      obtain ⟨p, s₁⟩ := y
      rw [e1] at hg
      match p with
      | none => cases hg
      | some .nil => cases hg
      | some (.blk b) =>
        obtain rfl := (Go.found_hit e1 (I.setI k default) (pure .nil) ()).1
        have hg : (Go.kvVal (.blk b) >>= fun v => pure (v, true) : M K V (V × Bool)) s₁ = .ok ((v₀, true), s') := hg
        unfold Go.kvVal at hg
        rw [bind_run, bind_run] at hg
        cases e2 : Amt.loadKv (.blk b) s₁ with
        | error e => rw [e2] at hg; cases hg
        | ok x =>
          obtain ⟨x, s₂⟩ := x
          obtain rfl : s₂ = s₁ := loadKv_grows e2
          exact ⟨b, x, rfl, e2⟩
  have hst : ∀ v, ∃ s₁, Amt.storeVal (.blk b) v s = .ok ((), s₁) := fun v => by
    unfold Amt.loadKv at hb
    unfold Amt.storeVal
    dsimp only at hb ⊢
    split at hb <;> rename_i hm <;> cases hb
    exact ⟨_, rfl⟩
  have hset : ∀ v, (I.setI k v).hit (.blk b) = Amt.storeVal (.blk b) v := fun v => by cases hA <;> rfl
  have hmod : ∀ f, (I.modI k f).hit (.blk b) = (Amt.loadKv (.blk b) >>= fun kv => Amt.storeVal (.blk b) (f kv.2 true) >>= fun _ => pure [(kv.2, true)]) := fun f => by
    cases hA <;> rfl
  have key : ∀ {β : Type} {t : T K V β} {x : M K V β} {r : β} {s₁ : St K V}, Den t x → x s = .ok (r, s₁) → s₁.next = s.next → t.cost Price.alloc s = 0 := by
    intro β t x r s₁ hd e h
    rw [← hd.eq] at e
    have := T.allocated e
    dsimp only at this
    omega
  refine ⟨fun v => ?_, fun f => ?_⟩
  · obtain ⟨s₁, e1⟩ := hst v
    have e2 : C.Set n (some a) k v s = .ok ((), s₁) := by
      have : C.Set n (some a) k v s = Go.upsertL I.cfg a (n + 300) k (I.setI k v) (newKv I.cfg k v) () s := hG.set n a k v s hs
      rw [this, (Go.found_hit hl _ _ _).2.1, hset, e1]
    exact ⟨key (hD.set n _ k v) e2 (storeVal_grows e1), s₁, e2, storeVal_grows e1⟩
  · obtain ⟨s₁, e1⟩ := hst (f x.2 true)
    have e2 : C.Mod n (some a) k (Go.modCb f) [] s = .ok ([(x.2, true)], s₁) := by
      have : C.Mod n (some a) k (Go.modCb f) [] s = Go.upsertX I.cfg a (n + 300) k (I.modI k f) s := hG.mod n a k f s hs
      rw [this, (Go.found_hit hl _ (pure .nil) []).2.2, hmod, bind_ok hb, bind_ok e1]
      rfl
    exact ⟨key (hD.mod n _ k _ _ [] fun a b c => modCb_den f a b c) e2 (storeVal_grows e1), _, s₁, e2, storeVal_grows e1⟩

/-- C90 for sets: if `Has(k)` returns true, `Add(k)` returns, allocates nothing and changes nothing. -/
theorem C90_set (hA : SetAll GS CS IS) {n a : Nat} {k : K} {s s' : St K Unit} (hs : Go.Tidy s) (hg : CS.Has n (some a) k s = .ok (true, s')) :
    (GS.Add n (some a) k).cost Price.alloc s = 0 ∧ CS.Add n (some a) k s = .ok ((), s) := by
  have hG := hA.code.mirrors
  have hD := hA.tree.of
  have hp : CS.Has n (some a) k s = Go.hasX IS.cfg a (n + 300) k s := hG.has n a k s
  rw [hp] at hg
  unfold Go.hasX at hg
  rw [bind_run] at hg
  cases e1 : Go.lookupX IS.cfg a (n + 300) k s with
  | error e => rw [e1] at hg; cases hg
  | ok y =>
    obtain ⟨p, s₁⟩ := y
    rw [e1] at hg
    match p with
    | none => cases hg
    | some p =>
      have hadd : (IS.addI k).hit p = pure () := by cases hA <;> rfl
      have e2 : CS.Add n (some a) k s = .ok ((), s) := by
        have : CS.Add n (some a) k s = Go.upsertL IS.cfg a (n + 300) k (IS.addI k) (newKv IS.cfg k ()) () s := hG.add n a k s hs
        rw [this, (Go.found_hit e1 _ _ _).2.1, hadd]
        rfl
      have e3 := e2
      rw [← (hD.add n _ k).eq] at e3
      have := T.allocated e3
      dsimp only at this
      exact ⟨by omega, e2⟩

/-- C90 after any history: `Set` and `Mod` of a stored key allocate nothing. -/
theorem C90_map_after [DecidableEq K] {sd : Seed} {H : K → Nat → BitVec 64} {P : Bool → List K → K → Prop} {lossy : V → V} {ex : Prop} {n : Nat}
    (hA : MapAll G C I) (hc : MapContainer I sd H P lossy ex) {ops : List (MOp K V)} (h : EachNew P [] ops) (hn : 256 ≤ n)
    {s : St K V} (hs : Go.Tidy s) :
    ∃ m os s₁, C.session n sd ops s = .ok ((m, os), s₁) ∧ ∀ k ∈ keysAfter [] ops,
      (∀ v, (G.Set n m k v).cost Price.alloc s₁ = 0) ∧ ∀ f, (G.Mod n m k (modCb f) []).cost Price.alloc s₁ = 0 := by
  obtain ⟨os, s₁, t, F, m, e1, i1, e3, e4⟩ := hc.session h hn St.init
  obtain ⟨okS, okM, ok⟩ := hc.ok
  have hG := hA.code.mirrors
  obtain ⟨s₂, φ, f1, f2, f3, f4⟩ := reach_map hG hs e1
  refine ⟨_, os, s₂, f1, fun k hk => ?_⟩
  have hk' : k ∈ (absT t).keys := by
    rw [← (FMap.keys_perm e4).mem_iff]
    exact (e3.keysAfter k).2 hk
  obtain ⟨o, s₃, _, _, g1, _, _, ⟨m', g2, _⟩, _⟩ := map_step ok i1 hn (.get k) (fun x hx => by cases hx)
  obtain ⟨v, hv⟩ : ∃ v, o = .pair v true := by
    cases hgv : (absT t).get k with
    | none => exact absurd hk' (FMap.get_eq_none.1 hgv)
    | some v => exact ⟨v, by have := g2.1; rw [hgv] at this; exact this⟩
  subst hv
  have g3 := Go.lateExec_same hG (St.init : St K V).next s.next n φ (.get k) s₁ s₂ f4
  rw [g1] at g3
  have g4 := (Go.exec_between hG s.next n (List.replicate 12 default) (.get k) s₂ (by simp) f2).lo
  cases g5 : Go.lateExec I s.next n (.get k) s₂ with
  | error e => rw [g5] at g3; exact g3.elim
  | ok y =>
    obtain ⟨y, s₅⟩ := y
    rw [g5] at g3 g4
    obtain ⟨_, _, _, g6, _⟩ := g3
    obtain rfl : MOut.pair v true = y := g6
    have g7 := g4.resolve_left (by simp)
    have g8 : (C.exec n (some s.next) (List.replicate 12 default) (.get k)) s₂ = (C.Get n (some s.next) k >>= fun r => pure (MOut.pair r.1 r.2, List.replicate 12 default)) s₂ := rfl
    rw [g8, bind_run] at g7
    cases g9 : C.Get n (some s.next) k s₂ with
    | error e => rw [g9] at g7; exact g7.elim
    | ok z =>
      rw [g9] at g7
      obtain ⟨g10, _⟩ := g7
      obtain ⟨⟨v', b⟩, s₄⟩ := z
      cases g10
      obtain ⟨h1, h2⟩ := C90_map hA f2 g9
      exact ⟨fun v => (h1 v).1, fun f => (h2 f).1⟩

/-- C90 after any history for sets. -/
theorem C90_set_after [DecidableEq K] {sd : Seed} {H : K → Nat → BitVec 64} {P : List K → K → Prop} {inv : Bool} {ex : Prop} {n : Nat}
    (hA : SetAll GS CS IS) (hc : SetContainer IS sd H P inv ex) {ops : List (SOp K)} (h : SEachNew H inv P [] ops) (hn : 256 ≤ n)
    {s : St K Unit} (hs : Go.Tidy s) :
    ∃ m os s₁, CS.session n sd ops s = .ok ((m, os), s₁) ∧ ∀ k ∈ elemsAfterX H inv [] ops,
      (GS.Add n m k).cost Price.alloc s₁ = 0 ∧ CS.Add n m k s₁ = .ok ((), s₁) := by
  obtain ⟨os, s₁, t, F, m, e1, i1, e3, e4⟩ := hc.session h hn St.init
  obtain ⟨okA, ok⟩ := hc.ok
  have hG := hA.code.mirrors
  obtain ⟨s₂, φ, f1, f2, f3, f4⟩ := reach_set hG hs e1
  refine ⟨_, os, s₂, f1, fun k hk => ?_⟩
  have hk' : k ∈ absS t := by
    rw [← e4.mem_iff]
    exact (e3.elemsAfterX k).2 hk
  obtain ⟨o, s₃, _, _, g1, _, _, ⟨m', g2, _⟩⟩ := set_step ok i1 hn (.has k) (fun x hx => by cases hx)
  obtain rfl : o = .bool true := by
    have := g2.1
    rwa [decide_eq_true hk'] at this
  have g3 := Go.lateExecS_same hG (St.init : St K Unit).next s.next n φ (.has k) s₁ s₂ f4
  rw [g1] at g3
  have g4 := (Go.execS_between hG s.next n (List.replicate 12 default) (.has k) s₂ (by simp) f2).lo
  cases g5 : Go.lateExecS IS s.next n (.has k) s₂ with
  | error e => rw [g5] at g3; exact g3.elim
  | ok y =>
    obtain ⟨y, s₅⟩ := y
    rw [g5] at g3 g4
    obtain ⟨_, _, _, g6, _⟩ := g3
    obtain rfl : SOut.bool true = y := g6
    have g7 := g4.resolve_left (by simp)
    have g8 : (CS.exec n (some s.next) (List.replicate 12 default) (.has k)) s₂ = (CS.Has n (some s.next) k >>= fun b => pure (SOut.bool b, List.replicate 12 default)) s₂ := rfl
    rw [g8, bind_run] at g7
    cases g9 : CS.Has n (some s.next) k s₂ with
    | error e => rw [g9] at g7; exact g7.elim
    | ok z =>
      rw [g9] at g7
      obtain ⟨g10, _⟩ := g7
      obtain ⟨b, s₄⟩ := z
      cases g10
      exact C90_set hA f2 g9

end

/-! ### Instances -/

example := C90_map_after (MapAll.string (V := Nat) toyHash) (MapContainer.string (V := Nat) toyHash 0#64) exOps_str (Nat.le_refl 256) Go.init_tidy
example : keysAfter [] (exOps strKey) ≠ [] := by decide +kernel
example := C90_set_after (SetAll.string toyHash) (SetContainer.string toyHash 0#64) exOpsS_str (Nat.le_refl 256) Go.init_tidy

end Amt.Par
