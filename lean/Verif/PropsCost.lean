/-
How many times a call accesses the memory (C85), and how many objects it allocates (C86).
-/
import Verif.CostAlloc
import Verif.PropsShape

set_option linter.unusedVariables false
set_option linter.unusedSectionVars false

namespace Amt.Par
open Amt Spec

/-! ### The memory that a history leaves -/

section
variable {K V Op Out : Type}

theorem runP_ok {X : List PathLink → Op → M K V (Out × List PathLink)} {Y : Nat → Op → M K V Out} {n : Nat} {m : Handle}
    (h : ∀ path op s, path.length = 12 → Go.Tidy s → Go.Between (X path op) (fun n => Y n op) n s) :
    ∀ ops path s os s', path.length = 12 → Go.Tidy s → calls (fun _ => Y n) m ops s = .ok (os, s') →
      Go.runP X path ops s = .ok (os, s') ∧ Go.Tidy s' := by
  intro ops
  induction ops with
  | nil => intro path s os s' hp hs e; cases e; exact ⟨rfl, hs⟩
  | cons op ops ih =>
    intro path s os s' hp hs e
    rw [calls, bind_run] at e
    rw [Go.runP, bind_run]
    rcases (h path op s hp hs).lo with h1 | h1
    · rw [h1] at e; cases e
    · revert h1 e
      cases X path op s with
      | error e' =>
        cases Y n op s with
        | error e'' => intro e h1; cases e
        | ok r => intro e h1; exact h1.elim
      | ok r =>
        cases Y n op s with
        | error e' => intro e h1; exact h1.elim
        | ok r' =>
          obtain ⟨⟨a, p⟩, t⟩ := r
          obtain ⟨b, t'⟩ := r'
          rintro e ⟨rfl, rfl, h3, h4⟩
          dsimp only at h3 h4 e ⊢
          rw [bind_run] at e ⊢
          cases e2 : calls (fun _ => Y n) m ops t with
          | error e' => rw [e2] at e; cases e
          | ok r =>
            rw [e2] at e
            cases e
            obtain ⟨h5, h6⟩ := ih p t _ _ h3 h4 e2
            rw [h5]
            exact ⟨rfl, h6⟩

end

section
variable {K V : Type} [Inhabited V]

/-- Where the model gets by a history, the translation gets too, up to the names of addresses. -/
theorem reach_map {C : Go.MapCode K V} {I : MapImpl K V} (hG : Go.Mirrors C I) {n : Nat} {sd : Seed} {ops : List (MOp K V)} {s s₀ s₁ : St K V}
    (hs : Go.Tidy s) {m : Handle} {os : List (MOut K V)} (e : I.session n sd ops s₀ = .ok ((m, os), s₁)) :
    ∃ s₂ φ, C.session n sd ops s = .ok ((some s.next, os), s₂) ∧ Go.Tidy s₂ ∧ m = some s₀.next ∧ StR φ s₀.next s.next s₁ s₂ := by
  obtain ⟨t₀, t, e1, e2, e3, _⟩ := newRoot_same sd s₀ s
  have ht : Go.Tidy t := Go.newRoot_neat sd _ _ _ hs e2
  unfold MapImpl.session MapImpl.New at e
  rw [bind_ok e1, bind_run, MapImpl.run_eq] at e
  unfold Go.MapCode.session
  rw [bind_ok e2, bind_run, Go.MapCode.run_eq]
  have hcl : calls (fun m op => I.exec n m op) (some s₀.next) ops = calls (fun _ => I.exec n (some s₀.next)) (some s₀.next) ops := by
    clear e
    induction ops with
    | nil => rfl
    | cons op l ih => rw [calls, calls, ih]
  rw [hcl] at e
  have h1 := Go.calls_same2 (fun φ op => Go.lateExec_same hG s₀.next s.next n φ op) (some s₀.next) ops t₀ t e3
  cases h2 : calls (fun _ => I.exec n (some s₀.next)) (some s₀.next) ops t₀ with
  | error f => rw [h2] at e; cases e
  | ok r =>
    rw [h2] at e h1
    cases e
    cases h3 : calls (fun _ op => Go.lateExec I s.next n op) (some s₀.next) ops t with
    | error f => rw [h3] at h1; exact h1.elim
    | ok r' =>
      rw [h3] at h1
      obtain ⟨os, s₁⟩ := r
      obtain ⟨os', s₂⟩ := r'
      obtain ⟨φ', _, h4, h5, _⟩ := h1
      cases h5
      obtain ⟨h6, h7⟩ := runP_ok (m := some s₀.next) (fun path op s hp hs => Go.exec_between hG _ n path op s hp hs) ops blank t _ _ (by decide) ht h3
      refine ⟨s₂, φ', ?_, h7, rfl, h4⟩
      rw [h6]
      rfl

end

section
variable {K : Type}

/-- The same for sets. -/
theorem reach_set {C : Go.SetCode K} {I : SetImpl K} (hG : Go.SetMirrors C I) {n : Nat} {sd : Seed} {ops : List (SOp K)} {s s₀ s₁ : St K Unit}
    (hs : Go.Tidy s) {m : Handle} {os : List (SOut K)} (e : I.session n sd ops s₀ = .ok ((m, os), s₁)) :
    ∃ s₂ φ, C.session n sd ops s = .ok ((some s.next, os), s₂) ∧ Go.Tidy s₂ ∧ m = some s₀.next ∧ StR φ s₀.next s.next s₁ s₂ := by
  obtain ⟨t₀, t, e1, e2, e3, _⟩ := newRoot_same sd s₀ s
  have ht : Go.Tidy t := Go.newRoot_neat sd _ _ _ hs e2
  unfold SetImpl.session SetImpl.New at e
  rw [bind_ok e1, bind_run, SetImpl.run_eq] at e
  unfold Go.SetCode.session
  rw [bind_ok e2, bind_run, Go.SetCode.run_eq]
  have hcl : calls (fun m op => I.exec n m op) (some s₀.next) ops = calls (fun _ => I.exec n (some s₀.next)) (some s₀.next) ops := by
    clear e
    induction ops with
    | nil => rfl
    | cons op l ih => rw [calls, calls, ih]
  rw [hcl] at e
  have h1 := Go.calls_same2 (fun φ op => Go.lateExecS_same hG s₀.next s.next n φ op) (some s₀.next) ops t₀ t e3
  cases h2 : calls (fun _ => I.exec n (some s₀.next)) (some s₀.next) ops t₀ with
  | error f => rw [h2] at e; cases e
  | ok r =>
    rw [h2] at e h1
    cases e
    cases h3 : calls (fun _ op => Go.lateExecS I s.next n op) (some s₀.next) ops t with
    | error f => rw [h3] at h1; exact h1.elim
    | ok r' =>
      rw [h3] at h1
      obtain ⟨os, s₁⟩ := r
      obtain ⟨os', s₂⟩ := r'
      obtain ⟨φ', _, h4, h5, _⟩ := h1
      cases h5
      obtain ⟨h6, h7⟩ := runP_ok (m := some s₀.next) (fun path op s hp hs => Go.execS_between hG _ n path op s hp hs) ops blank t _ _ (by decide) ht h3
      refine ⟨s₂, φ', ?_, h7, rfl, h4⟩
      rw [h6]
      rfl

end

/-! ### The cost of two programs in a row -/

section
variable {K V α β : Type} {w : Price}

theorem T.cost_bind (f : α → T K V β) : ∀ (t : T K V α) (s : St K V), (t >>= f).cost w s = t.cost w s + match t.denote s with | .ok (a, s') => (f a).cost w s' | .error _ => 0 := by
  intro t
  show ∀ s, (T.bind t f).cost w s = _
  induction t with
  | ret a => intro s; exact (Nat.zero_add _).symm
  | fail e => intro s; rfl
  | load r k ih => intro s; simp only [T.bind, T.cost, T.denote, bind_run]; cases Amt.load r s with | error e => rfl | ok x => simp only [ih, Nat.add_assoc]
  | store r x k ih => intro s; simp only [T.bind, T.cost, T.denote, bind_run]; cases Amt.store r x s with | error e => rfl | ok x => simp only [ih, Nat.add_assoc]
  | put r x k ih => intro s; simp only [T.bind, T.cost, T.denote, bind_run]; cases modLink r x.put s with | error e => rfl | ok x => simp only [ih, Nat.add_assoc]
  | alloc r k ih => intro s; simp only [T.bind, T.cost, T.denote, bind_run]; cases Amt.alloc r s with | error e => rfl | ok x => simp only [ih, Nat.add_assoc]
  | loadKv r k ih => intro s; simp only [T.bind, T.cost, T.denote, bind_run]; cases Amt.loadKv r s with | error e => rfl | ok x => simp only [ih, Nat.add_assoc]
  | storeVal r x k ih => intro s; simp only [T.bind, T.cost, T.denote, bind_run]; cases Amt.storeVal r x s with | error e => rfl | ok x => simp only [ih, Nat.add_assoc]
  | getRoot r k ih => intro s; simp only [T.bind, T.cost, T.denote, bind_run]; cases Amt.getRoot r s with | error e => rfl | ok x => simp only [ih, Nat.add_assoc]
  | modRoot r x k ih => intro s; simp only [T.bind, T.cost, T.denote, bind_run]; cases Amt.modRoot r x s with | error e => rfl | ok x => simp only [ih, Nat.add_assoc]

theorem T.cost_bind_le {f : α → T K V β} {t : T K V α} {s : St K V} {a b : Nat} (h : t.cost w s ≤ a) (hf : ∀ x s, (f x).cost w s ≤ b) : (t >>= f).cost w s ≤ a + b := by
  rw [T.cost_bind]
  cases t.denote s with
  | error e => exact Nat.le_trans h (Nat.le_add_right _ _)
  | ok r => exact Nat.add_le_add h (hf _ _)

end

/-! ### Searches -/

section
variable {K V : Type} [Inhabited V]

/-- A map: the accesses of its methods, their translation, and the model. -/
inductive MapAll {V : Type} [Inhabited V] : {K : Type} → MapTree K V → Go.MapCode K V → MapImpl K V → Prop where
  | string (sum : Maphash) : MapAll (stringMap sum) (Go.stringMap sum) (Amt.StringMap sum)
  | bytes (sum : Maphash) : MapAll (bytesMap sum) (Go.bytesMap sum) (Amt.BytesMap sum)
  | arr (sum : Maphash) {K : Type} [DecidableEq K] (kb : K → List UInt8) : MapAll (arrMap sum kb) (Go.arrMap sum kb) (Amt.ArrMap sum kb)
  | int (sum : Maphash) : MapAll (intMap sum) (Go.intMap sum) (Amt.IntMap sum)
  | generic {K : Type} (I : KeyImpl K) : MapAll (map I) (Go.map I) (GenericMap I)

/-- A set: the same. -/
inductive SetAll : {K : Type} → SetTree K → Go.SetCode K → SetImpl K → Prop where
  | string (sum : Maphash) : SetAll (stringSet sum) (Go.stringSet sum) (Amt.StringSet sum)
  | bytes (sum : Maphash) : SetAll (bytesSet sum) (Go.bytesSet sum) (Amt.BytesSet sum)
  | arr (sum : Maphash) {K : Type} [DecidableEq K] (kb : K → List UInt8) : SetAll (arrSet sum kb) (Go.arrSet sum kb) (Amt.ArrSet sum kb)
  | int (sum : Maphash) : SetAll (intSet sum) (Go.intSet sum) (Amt.IntSet sum)
  | generic {K : Type} (I : KeyImpl K) : SetAll (set I) (Go.set I) (GenericSet I)

variable {G : MapTree K V} {C : Go.MapCode K V} {I : MapImpl K V} {GS : SetTree K} {CS : Go.SetCode K} {IS : SetImpl K}

theorem MapAll.code (h : MapAll G C I) : Go.MapCodeOf C I := by
  cases h with
  | string sum => exact .string sum
  | bytes sum => exact .bytes sum
  | arr sum kb => exact .arr sum kb
  | int sum => exact .int sum
  | generic I => exact .generic I

theorem SetAll.code (h : SetAll GS CS IS) : Go.SetCodeOf CS IS := by
  cases h with
  | string sum => exact .string sum
  | bytes sum => exact .bytes sum
  | arr sum kb => exact .arr sum kb
  | int sum => exact .int sum
  | generic I => exact .generic I

theorem MapAll.ptr_costs (h : MapAll G C I) (n a : Nat) (k : K) :
    Costs Price.access 9 13 (fun r => Go.ptrX (V := V) I.cfg a r k) (Go.budget n) (G.Ptr n (some a) k) (C.Ptr n (some a) k) := by
  cases h with
  | string sum => exact StringMap.Ptr_costs sum n a k
  | bytes sum => exact BytesMap.Ptr_costs sum n a k
  | arr sum kb => exact ArrMap.Ptr_costs sum kb n a k
  | int sum => exact IntMap.Ptr_costs sum n a k
  | generic J => exact Map.Ptr_costs J n a k

theorem SetAll.has_costs (h : SetAll GS CS IS) (n a : Nat) (k : K) :
    Costs Price.access 9 13 (fun r => Go.hasX (V := Unit) IS.cfg a r k) (Go.budget n) (GS.Has n (some a) k) (CS.Has n (some a) k) := by
  cases h with
  | string sum => exact StringSet.Has_costs sum n a k
  | bytes sum => exact BytesSet.Has_costs sum n a k
  | arr sum kb => exact ArrSet.Has_costs sum kb n a k
  | int sum => exact IntSet.Has_costs sum n a k
  | generic J => exact Set.Has_costs J n a k

theorem MapAll.del_costs (h : MapAll G C I) (n a : Nat) (k : K) (path : List PathLink) :
    Costs Price.access 700 52 (fun r => Go.deleteX (V := V) I.cfg a r I.delSkip k path) (Go.budget n) (G.Del n (some a) k path) (C.Del n (some a) k path) := by
  cases h with
  | string sum => exact Go.StringMap.Del_costs sum n a k path
  | bytes sum => exact Go.BytesMap.Del_costs sum n a k path
  | arr sum kb => exact Go.ArrMap.Del_costs sum kb n a k path
  | int sum => exact Go.IntMap.Del_costs sum n a k path
  | generic J => exact Go.Map.Del_costs J n a k path

theorem SetAll.del_costs (h : SetAll GS CS IS) (n a : Nat) (k : K) (path : List PathLink) :
    Costs Price.access 700 52 (fun r => Go.deleteX (V := Unit) IS.cfg a r IS.delSkip k path) (Go.budget n) (GS.Del n (some a) k path) (CS.Del n (some a) k path) := by
  cases h with
  | string sum => exact Go.StringSet.Del_costs sum n a k path
  | bytes sum => exact Go.BytesSet.Del_costs sum n a k path
  | arr sum kb => exact Go.ArrSet.Del_costs sum kb n a k path
  | int sum => exact Go.IntSet.Del_costs sum n a k path
  | generic J => exact Go.Set.Del_costs J n a k path

theorem MapAll.get_cost (h : MapAll G C I) (n a b : Nat) (k : K) {s : St K V} (hb : (G.Ptr n (some a) k).cost Price.access s ≤ b) :
    (G.Get n (some a) k).cost Price.access s ≤ b + 1 ∧ (G.Val n (some a) k).cost Price.access s ≤ b + 1 := by
  have key : ∀ {β : Type} (f : Amt.Ptr → T K V β), (∀ x, (f x).Pays Price.access 1 fun _ => 0) → (G.Ptr n (some a) k >>= f).cost Price.access s ≤ b + 1 :=
    fun f hf => T.cost_bind_le hb fun x s => (hf x).cost s
  cases h
  all_goals
    refine ⟨key _ fun x => ?_, key _ fun x => ?_⟩
    all_goals
      repeat' pay_step
      all_goals first | exact Nat.zero_le _ | exact Nat.le_refl _

theorem levels_le_256 (H : K → Nat → BitVec 64) (ks : List K) (k : K) : levels H ks k ≤ 256 := by
  have := List.length_filter_le (fun j => decide (2 ≤ (ks.filter fun x => decide (j < sharedLen H k x)).length)) (List.range 255)
  rw [List.length_range] at this
  unfold levels
  omega

theorem ran {α β : Type} {x : M K V α} {f : α → M K V β} {s : St K V} {o : β × St K V} (h : (x >>= f) s = .ok o) : ∃ r, x s = .ok r := by
  rw [bind_run] at h
  cases e : x s with
  | error e' => rw [e] at h; cases h
  | ok r => exact ⟨r, rfl⟩

theorem ext_ok {α : Type} {x y : M K V α} (h : Ext x y) {s : St K V} {o : α × St K V} (e : x s = .ok o) : y s = .ok o := by
  rcases h s with h1 | h1
  · rw [h1] at e; cases e
  · exact h1.trans e

theorem OutR.ok {α β : Type} {φ : Ren} {h k : Nat} {s : St K V} {RA : Ren → α → β → Prop} {o : α × St K V} {r : Except Fault (β × St K V)}
    (hr : OutR φ h k s RA (.ok o) r) : ∃ o', r = .ok o' := by
  cases r with
  | error e => exact hr.elim
  | ok o' => exact ⟨o', rfl⟩

/-- A deletion that ends in the model ends in the translation with as many rounds of the search. -/
theorem deleteX_ends {c : Cfg K} {h n : Nat} {skip : Bool → Bool} {k : K} {path : List PathLink} (hp : path.length = 12) {s : St K V} {o : Unit × St K V}
    (e : delete c h n skip k s = .ok o) : Go.deleteX c h n skip k path s ≠ .error .diverge := by
  have h1 := deleteS_sim (V := V) c h n skip k hp s
  rw [e] at h1
  cases h2 : deleteS c h n skip k path s with
  | error f => rw [h2] at h1; exact h1.elim
  | ok r =>
    have h3 : Ext (deleteS (V := V) c h n skip k path) (Go.deleteX c h n skip k path) := by
      rw [Go.deleteS_search]
      exact Ext.bind (Ext.refl _) fun r => Ext.bind (Go.search_walk c _ _ _ _) fun x => Ext.refl _
    rw [ext_ok h3 h2]
    exact fun e => by cases e

/-- C85.  After any history, `Ptr`, `Get` and `Val` of a map access words of memory at most 9 times, and at most 13 times for each level
that the search for the key visits (C37); one more to read the value.  `Del`, whatever is in the scratch area, accesses them at most 700
times, and at most 52 times for each level.  A read of a field of a link counts as three, the number of its words. -/
theorem C85_map [DecidableEq K] {sd : Seed} {H : K → Nat → BitVec 64} {P : Bool → List K → K → Prop} {lossy : V → V} {ex : Prop} {n : Nat}
    (hA : MapAll G C I) (hc : MapContainer I sd H P lossy ex) (hex : ex) {ops : List (MOp K V)} (h : EachNew P [] ops) (hn : 256 ≤ n)
    {s : St K V} (hs : Go.Tidy s) :
    ∃ m os s₁, C.session n sd ops s = .ok ((m, os), s₁) ∧ ∀ k,
      (G.Ptr n m k).cost Price.access s₁ ≤ 9 + 13 * levels H (keysAfter [] ops) k ∧
      (G.Get n m k).cost Price.access s₁ ≤ 10 + 13 * levels H (keysAfter [] ops) k ∧
      (G.Val n m k).cost Price.access s₁ ≤ 10 + 13 * levels H (keysAfter [] ops) k ∧
      ∀ path : List PathLink, path.length = 12 → (G.Del n m k path).cost Price.access s₁ ≤ 700 + 52 * levels H (keysAfter [] ops) k := by
  obtain ⟨m, os, s₁, e1, e2⟩ := C37_map hc hex h hn St.init
  have hG := hA.code.mirrors
  obtain ⟨s₂, φ, e3, e4, rfl, e5⟩ := reach_map hG hs e1
  refine ⟨_, os, s₂, e3, fun k => ?_⟩
  have hp : (G.Ptr n (some s.next) k).cost Price.access s₂ ≤ 9 + 13 * levels H (keysAfter [] ops) k := by
    refine hA.ptr_costs n s.next k s₂ _ e4 (Nat.le_trans (levels_le_256 H _ k) (by show 256 ≤ n + 300; omega)) ?_
    obtain ⟨o, s₃, e6⟩ := ((e2 (.ptr k) k rfl _).2 (Nat.le_refl _)).2
    have h1 := MapImpl.exec_same hG.blind (levels H (keysAfter [] ops) k) (.ptr k) (φ := φ) (h := St.init.next) (k := s.next) s₁ s₂ e5
    rw [e6] at h1
    obtain ⟨o', h2⟩ := OutR.ok h1
    obtain ⟨r, h3⟩ := ran h2
    have h4 := ext_ok (Go.lookup_lookupX I.cfg s.next (levels H (keysAfter [] ops) k) k) (s := s₂) (o := r) h3
    unfold Go.ptrX
    dsimp only
    rw [bind_run, h4]
    rcases r with ⟨_ | _ | _, _⟩
    all_goals exact fun e => by cases e
  have := hA.get_cost n s.next _ k hp
  refine ⟨hp, by omega, by omega, fun path hpath => ?_⟩
  refine hA.del_costs n s.next k path s₂ _ e4 (Nat.le_trans (levels_le_256 H _ k) (by show 256 ≤ n + 300; omega)) ?_
  obtain ⟨o, s₃, e6⟩ := ((e2 (.del k) k rfl _).2 (Nat.le_refl _)).2
  have h1 := MapImpl.exec_same hG.blind (levels H (keysAfter [] ops) k) (.del k) (φ := φ) (h := St.init.next) (k := s.next) s₁ s₂ e5
  rw [e6] at h1
  obtain ⟨o', h2⟩ := OutR.ok h1
  obtain ⟨r, h3⟩ := ran h2
  exact deleteX_ends hpath h3

/-- C85 for sets: `Has` and `Del`. -/
theorem C85_set [DecidableEq K] {sd : Seed} {H : K → Nat → BitVec 64} {P : List K → K → Prop} {inv : Bool} {ex : Prop} {n : Nat}
    (hA : SetAll GS CS IS) (hc : SetContainer IS sd H P inv ex) (hex : ex) {ops : List (SOp K)} (h : SEachNew H inv P [] ops) (hn : 256 ≤ n)
    {s : St K Unit} (hs : Go.Tidy s) :
    ∃ m os s₁, CS.session n sd ops s = .ok ((m, os), s₁) ∧ ∀ k,
      (GS.Has n m k).cost Price.access s₁ ≤ 9 + 13 * levels H (elemsAfterX H inv [] ops) k ∧
      ∀ path : List PathLink, path.length = 12 → (GS.Del n m k path).cost Price.access s₁ ≤ 700 + 52 * levels H (elemsAfterX H inv [] ops) k := by
  obtain ⟨m, os, s₁, e1, e2⟩ := C37_set hc hex h hn St.init
  have hG := hA.code.mirrors
  obtain ⟨s₂, φ, e3, e4, rfl, e5⟩ := reach_set hG hs e1
  refine ⟨_, os, s₂, e3, fun k => ⟨?_, fun path hpath => ?_⟩⟩
  rotate_left
  · refine hA.del_costs n s.next k path s₂ _ e4 (Nat.le_trans (levels_le_256 H _ k) (by show 256 ≤ n + 300; omega)) ?_
    obtain ⟨o, s₃, e6⟩ := ((e2 (.del k) k rfl _).2 (Nat.le_refl _)).2
    have h1 := SetImpl.exec_same hG.blind (levels H (elemsAfterX H inv [] ops) k) (.del k) (φ := φ) (h := St.init.next) (k := s.next) s₁ s₂ e5
    rw [e6] at h1
    obtain ⟨o', h2⟩ := OutR.ok h1
    obtain ⟨r, h3⟩ := ran h2
    exact deleteX_ends hpath h3
  refine hA.has_costs n s.next k s₂ _ e4 (Nat.le_trans (levels_le_256 H _ k) (by show 256 ≤ n + 300; omega)) ?_
  obtain ⟨o, s₃, e6⟩ := ((e2 (.has k) k rfl _).2 (Nat.le_refl _)).2
  have h1 := SetImpl.exec_same hG.blind (levels H (elemsAfterX H inv [] ops) k) (.has k) (φ := φ) (h := St.init.next) (k := s.next) s₁ s₂ e5
  rw [e6] at h1
  obtain ⟨o', h2⟩ := OutR.ok h1
  obtain ⟨r0, h3⟩ := ran h2
  obtain ⟨r, h3⟩ := ran (x := lookup IS.cfg s.next (levels H (elemsAfterX H inv [] ops) k) k) h3
  have h4 := ext_ok (Go.lookup_lookupX IS.cfg s.next (levels H (elemsAfterX H inv [] ops) k) k) (s := s₂) (o := r) h3
  unfold Go.hasX
  dsimp only
  rw [bind_run, h4]
  exact fun e => by cases e

theorem MapAll.tree (h : MapAll G C I) : MapTreeOf G C := by
  cases h with
  | string sum => exact .string sum
  | bytes sum => exact .bytes sum
  | arr sum kb => exact .arr sum kb
  | int sum => exact .int sum
  | generic I => exact .generic I

theorem SetAll.tree (h : SetAll GS CS IS) : SetTreeOf GS CS := by
  cases h with
  | string sum => exact .string sum
  | bytes sum => exact .bytes sum
  | arr sum kb => exact .arr sum kb
  | int sum => exact .int sum
  | generic I => exact .generic I

theorem T.RO.allocates {α : Type} {t : T K V α} (h : t.RO) (s : St K V) : t.cost Price.alloc s = 0 := Nat.le_zero.mp (h.allocs.cost s)

/-- C86.  In any memory whatsoever, `Get`, `Val`, `Ptr`, `Len`, `Dep` and `All` with a callback that writes nothing allocate nothing, and
`Del`, whatever is in the scratch area, allocates at most one object. -/
theorem C86_map (hA : MapAll G C I) (n a : Nat) (k : K) (s : St K V) :
    (G.Ptr n (some a) k).cost Price.alloc s = 0 ∧ (G.Get n (some a) k).cost Price.alloc s = 0 ∧ (G.Val n (some a) k).cost Price.alloc s = 0 ∧
    (Len (K := K) (V := V) (some a)).cost Price.alloc s = 0 ∧ (Dep (K := K) (V := V) (some a)).cost Price.alloc s = 0 ∧
    (∀ cb u, (∀ x y z, (cb x y z).RO) → (G.All n (some a) cb u).cost Price.alloc s = 0) ∧
    ∀ path : List PathLink, (G.Del n (some a) k path).cost Price.alloc s ≤ 1 := by
  have h := hA.tree.of
  refine ⟨(h.ptr_ro n _ k).allocates s, (h.get_ro n _ k).allocates s, (h.val_ro n _ k).allocates s, (Len_ro _).allocates s, (Dep_ro _).allocates s,
    fun cb u hcb => (h.all_ro n _ cb u hcb).allocates s, fun path => ?_⟩
  cases hA with
  | string sum => exact (StringMap.Del_allocs sum n a k path).cost s
  | bytes sum => exact (BytesMap.Del_allocs sum n a k path).cost s
  | arr sum kb => exact (ArrMap.Del_allocs sum kb n a k path).cost s
  | int sum => exact (IntMap.Del_allocs sum n a k path).cost s
  | generic J => exact (Map.Del_allocs J n a k path).cost s

/-- C86 for sets. -/
theorem C86_set (hA : SetAll GS CS IS) (n a : Nat) (k : K) (s : St K Unit) :
    (GS.Has n (some a) k).cost Price.alloc s = 0 ∧
    (Len (K := K) (V := Unit) (some a)).cost Price.alloc s = 0 ∧ (Dep (K := K) (V := Unit) (some a)).cost Price.alloc s = 0 ∧
    (∀ cb u, (∀ x y, (cb x y).RO) → (GS.All n (some a) cb u).cost Price.alloc s = 0) ∧
    ∀ path : List PathLink, (GS.Del n (some a) k path).cost Price.alloc s ≤ 1 := by
  have h := hA.tree.of
  refine ⟨(h.has_ro n _ k).allocates s, (Len_ro _).allocates s, (Dep_ro _).allocates s,
    fun cb u hcb => (h.all_ro n _ cb u hcb).allocates s, fun path => ?_⟩
  cases hA with
  | string sum => exact (StringSet.Del_allocs sum n a k path).cost s
  | bytes sum => exact (BytesSet.Del_allocs sum n a k path).cost s
  | arr sum kb => exact (ArrSet.Del_allocs sum kb n a k path).cost s
  | int sum => exact (IntSet.Del_allocs sum n a k path).cost s
  | generic J => exact (Set.Del_allocs J n a k path).cost s

end

/-! ### Instances -/

example := C85_map (MapAll.string (V := Nat) toyHash) (MapContainer.string (V := Nat) toyHash 0#64) trivial exOps_str (Nat.le_refl 256) Go.init_tidy
example := C85_set (SetAll.string toyHash) (SetContainer.string toyHash 0#64) trivial exOpsS_str (Nat.le_refl 256) Go.init_tidy
example (s : St ByteStr Nat) := C86_map (MapAll.string (V := Nat) toyHash) 256 0 [] s
example (s : St ByteStr Unit) := C86_set (SetAll.bytes toyHash) 256 0 [] s

end Amt.Par
