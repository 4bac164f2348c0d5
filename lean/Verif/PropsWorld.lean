/-
Several containers in one heap, held in variables that may be copied: copies share their container (C32), and
different containers do not influence each other (C33).
-/
import Verif.PropsLaws

set_option linter.unusedVariables false
set_option linter.unusedSectionVars false

namespace Spec

/-! ### Programs with several containers -/

/-- A statement of a program whose variables hold containers: `x = New...()` for a container of kind `i` that
gets the hash seed `sd`; the assignment `y = x`; or a call on the container in `x`. -/
inductive WOp (ι Op : Type) where
  | new (x : Nat) (i : ι) (sd : BitVec 64)
  | copy (x y : Nat)
  | call (x : Nat) (op : Op)

section
variable {ι Op Out : Type}

/-- Assign to a variable. -/
def assign {α : Type} (env : Nat → α) (x : Nat) (a : α) : Nat → α := fun y => if y = x then a else env y

/-- The calls that a program makes, each with the number of the container that is called, if the variable
holds one.  Containers are numbered in the order of their creation; `env` tells which one each variable holds,
and `n` have been created before. -/
def trace (env : Nat → Option Nat) (n : Nat) : List (WOp ι Op) → List (Option Nat × Op)
  | [] => []
  | .new x _ _ :: p => trace (assign env x (some n)) (n + 1) p
  | .copy x y :: p => trace (assign env y (env x)) n p
  | .call x op :: p => (env x, op) :: trace env n p

/-- The kinds and seeds of the containers that a program creates. -/
def kinds : List (WOp ι Op) → List (ι × BitVec 64)
  | [] => []
  | .new _ i sd :: p => (i, sd) :: kinds p
  | .copy _ _ :: p => kinds p
  | .call _ _ :: p => kinds p

/-- The calls on container `n`. -/
def callsOf (n : Nat) (tr : List (Option Nat × Op)) : List Op :=
  tr.filterMap fun c => if c.1 = some n then some c.2 else none

/-- The same variable, or one of `x` and `y` instead of the other. -/
def EitherOf (x y : Nat) (a b : Nat) : Prop := a = b ∨ (a = x ∨ a = y) ∧ (b = x ∨ b = y)

/-- The same statement, but that it may read `x` instead of `y` and the other way around; it assigns to neither. -/
inductive SameButFor (x y : Nat) : WOp ι Op → WOp ι Op → Prop
  | new {z : Nat} (i : ι) (sd : BitVec 64) : z ≠ x → z ≠ y → SameButFor x y (.new z i sd) (.new z i sd)
  | copy {a b z : Nat} : EitherOf x y a b → z ≠ x → z ≠ y → SameButFor x y (.copy a z) (.copy b z)
  | call {a b : Nat} (op : Op) : EitherOf x y a b → SameButFor x y (.call a op) (.call b op)

/-- Two programs, statement by statement. -/
inductive SamePrograms (x y : Nat) : List (WOp ι Op) → List (WOp ι Op) → Prop
  | nil : SamePrograms x y [] []
  | cons {o o' : WOp ι Op} {p p' : List (WOp ι Op)} : SameButFor x y o o' → SamePrograms x y p p' →
    SamePrograms x y (o :: p) (o' :: p')

/-- What the calls on container `n` returned, if all the calls returned `os`. -/
def outsOf (n : Nat) (tr : List (Option Nat × Op)) (os : List Out) : List Out :=
  (tr.zip os).filterMap fun c => if c.1.1 = some n then some c.2 else none

end

end Spec

namespace Amt
open T Spec

/-! ### Running them -/

section
variable {K V ι Op Out : Type}

/-- Run a program.  A variable holds a container of some kind: a pointer to its root (string_map.go:53-55 and the
corresponding structs), which is all that an assignment copies.  Calling a variable that was never assigned
is not modelled. -/
def wrun (new : Seed → M K V Handle) (exec : ι → Handle → Op → M K V Out) :
    List (WOp ι Op) → (Nat → Option (ι × Handle)) → M K V (List Out × (Nat → Option (ι × Handle)))
  | [], env => pure ([], env)
  | .new x i sd :: p, env => new sd >>= fun h => wrun new exec p (assign env x (some (i, h)))
  | .copy x y :: p, env => wrun new exec p (assign env y (env x))
  | .call x op :: p, env =>
    match env x with
    | none => M.fail .nilDeref
    | some (i, h) => exec i h op >>= fun o => wrun new exec p env >>= fun r => pure (o :: r.1, r.2)

/-- What the proof needs to know about containers. -/
structure Sys (K V ι Op Out A : Type) where
  new : Seed → M K V Handle
  exec : ι → Handle → Op → M K V Out
  init : A
  Run : ι → Seed → A → List Op → List Out → A → Prop
  Cov : ι → Seed → List K → List Op → Prop
  R : ι → Seed → St K V → Nat → A → List K → (Nat → Prop) → Prop
  run_nil : ∀ i sd a, Run i sd a [] [] a
  new_ok : ∀ i sd s, ∃ s' F, new sd s = .ok (some s.next, s') ∧ R i sd s' s.next init [] F ∧
    (∀ a, F a → s.next ≤ a) ∧ s.next ≤ s'.next ∧ (∀ a, a < s.next → s'.mem a = s.mem a) ∧
    ∀ a, a ≠ s.next → s'.roots a = s.roots a
  step_ok : ∀ {i sd s h a ks F op ops}, R i sd s h a ks F → Cov i sd ks (op :: ops) →
    ∃ o s' a' ks' F', exec i (some h) op s = .ok (o, s') ∧ R i sd s' h a' ks' F' ∧ Chg s s' h F F' ∧
      Cov i sd ks' ops ∧ ∀ os a'', Run i sd a' ops os a'' → Run i sd a (op :: ops) (o :: os) a''
  frame : ∀ {i sd s s' h a ks F}, R i sd s h a ks F → s'.mem h = s.mem h → (∀ x, F x → s'.mem x = s.mem x) →
    s'.roots h = s.roots h → s.next ≤ s'.next → R i sd s' h a ks F
  bound : ∀ {i sd s h a ks F}, R i sd s h a ks F → h < s.next ∧ ¬ F h ∧ ∀ x, F x → x < s.next

/-- A container as the proof sees it. -/
structure Rec (K ι A : Type) where
  i : ι
  sd : Seed
  h : Nat
  a : A
  ks : List K
  F : Nat → Prop

/-- Two containers have nothing in common. -/
def Rec.Apart {A : Type} (x y : Rec K ι A) : Prop := x.h ≠ y.h ∧ ¬ x.F y.h ∧ ¬ y.F x.h ∧ ∀ a, x.F a → ¬ y.F a

theorem callsOf_cons (n : Nat) (c : Option Nat × Op) (tr : List (Option Nat × Op)) :
    callsOf n (c :: tr) = if c.1 = some n then c.2 :: callsOf n tr else callsOf n tr := by
  unfold callsOf
  rw [List.filterMap_cons]
  by_cases h : c.1 = some n <;> simp [h]

theorem outsOf_cons (n : Nat) (c : Option Nat × Op) (tr : List (Option Nat × Op)) (o : Out) (os : List Out) :
    outsOf n (c :: tr) (o :: os) = if c.1 = some n then o :: outsOf n tr os else outsOf n tr os := by
  unfold outsOf
  rw [List.zip_cons_cons, List.filterMap_cons]
  by_cases h : c.1 = some n <;> simp [h]

/-- Calls on a container that does not exist yet. -/
theorem callsOf_trace_ge {p : List (WOp ι Op)} : ∀ {env : Nat → Option Nat} {n m : Nat}, (∀ x j, env x = some j → j < n) →
    n + (kinds p).length ≤ m → callsOf m (trace env n p) = [] := by
  induction p with
  | nil => intros; rfl
  | cons o p ih =>
    intro env n m he hm
    cases o with
    | new x i sd =>
      refine ih (fun y j hy => ?_) (by simp only [kinds, List.length_cons] at hm; omega)
      unfold assign at hy
      split at hy
      · cases hy; omega
      · have := he y j hy; omega
    | copy x y =>
      refine ih (fun z j hz => ?_) hm
      unfold assign at hz
      split at hz
      · exact he x j hz
      · exact he z j hz
    | call x op =>
      rw [trace, callsOf_cons, if_neg fun h => ?_]
      · exact ih he hm
      · have := he x m h
        omega

theorem Sys.world {A : Type} (S : Sys K V ι Op Out A) (p : List (WOp ι Op)) :
    ∀ {s : St K V} {env : Nat → Option Nat} {cenv : Nat → Option (ι × Handle)} {n : Nat} {obj : Nat → Rec K ι A},
    (∀ x j, env x = some j → j < n ∧ cenv x = some ((obj j).i, some (obj j).h)) →
    (∀ j, j < n → S.R (obj j).i (obj j).sd s (obj j).h (obj j).a (obj j).ks (obj j).F) →
    (∀ j k, j < n → k < n → j ≠ k → (obj j).Apart (obj k)) →
    (∀ c ∈ trace env n p, c.1 ≠ none) →
    (∀ j, j < n → S.Cov (obj j).i (obj j).sd (obj j).ks (callsOf j (trace env n p))) →
    (∀ j i sd, (kinds p)[j]? = some (i, sd) → S.Cov i sd [] (callsOf (n + j) (trace env n p))) →
    ∃ os cenv' s', wrun S.new S.exec p cenv s = .ok ((os, cenv'), s') ∧ os.length = (trace env n p).length ∧
      (∀ j, j < n → ∃ a', S.Run (obj j).i (obj j).sd (obj j).a (callsOf j (trace env n p)) (outsOf j (trace env n p) os) a') ∧
      ∀ j i sd, (kinds p)[j]? = some (i, sd) →
        ∃ a', S.Run i sd S.init (callsOf (n + j) (trace env n p)) (outsOf (n + j) (trace env n p) os) a' := by
  induction p with
  | nil =>
    intro s env cenv n obj _ _ _ _ _ _
    exact ⟨[], cenv, s, rfl, rfl, fun j _ => ⟨_, S.run_nil _ _ _⟩, fun j i sd h => by simp [kinds] at h⟩
  | cons o p ih =>
    intro s env cenv n obj henv hR hap hdef hcov hcovn
    cases o with
    | copy x y =>
      simp only [trace, kinds, wrun] at *
      refine ih (obj := obj) (fun z j hz => ?_) hR hap hdef hcov hcovn
      unfold assign at hz ⊢
      split
      · rename_i h; rw [if_pos h] at hz; exact henv x j hz
      · rename_i h; rw [if_neg h] at hz; exact henv z j hz
    | new x i sd =>
      simp only [trace, kinds, wrun] at *
      obtain ⟨s1, F, e1, r1, f1, n1, m1, q1⟩ := S.new_ok i sd s
      have hlt : ∀ j, j < n → (if j < n then obj j else ⟨i, sd, s.next, S.init, [], F⟩) = obj j := fun j hj => if_pos hj
      have hn : (if n < n then obj n else ⟨i, sd, s.next, S.init, [], F⟩) = ⟨i, sd, s.next, S.init, [], F⟩ :=
        if_neg (Nat.lt_irrefl n)
      obtain ⟨os, cenv', s', g1, g2, g3, g4⟩ := ih (s := s1) (env := assign env x (some n))
        (cenv := assign cenv x (some (i, some s.next))) (n := n + 1)
        (obj := fun j => if j < n then obj j else ⟨i, sd, s.next, S.init, [], F⟩)
        (fun z j hz => by
          unfold assign at hz ⊢
          split
          · rename_i h
            rw [if_pos h] at hz
            cases hz
            exact ⟨by omega, by rw [hn]⟩
          · rename_i h
            rw [if_neg h] at hz
            obtain ⟨a1, a2⟩ := henv z j hz
            exact ⟨by omega, by rw [a2, hlt j a1]⟩)
        (fun j hj => by
          by_cases hjn : j < n
          · rw [hlt j hjn]
            have hb := S.bound (hR j hjn)
            exact S.frame (hR j hjn) (m1 _ hb.1) (fun x hx => m1 x (hb.2.2 x hx)) (q1 _ (by omega)) n1
          · have : j = n := by omega
            subst this
            rw [hn]; exact r1)
        (fun j k hj hk hjk => by
          by_cases hjn : j < n <;> by_cases hkn : k < n
          · rw [hlt j hjn, hlt k hkn]; exact hap j k hjn hkn hjk
          · have : k = n := by omega
            subst this
            rw [hlt j hjn, hn]
            have hb := S.bound (hR j hjn)
            refine ⟨by simp only; omega, fun h => ?_, fun h => ?_, fun a h1 h2 => ?_⟩
            · have := hb.2.2 _ h; simp only at this; omega
            · have := f1 _ h; omega
            · have := hb.2.2 _ h1; have := f1 _ h2; omega
          · have : j = n := by omega
            subst this
            rw [hlt k hkn, hn]
            have hb := S.bound (hR k hkn)
            refine ⟨by simp only; omega, fun h => ?_, fun h => ?_, fun a h1 h2 => ?_⟩
            · have := f1 _ h; omega
            · have := hb.2.2 _ h; simp only at this; omega
            · have := hb.2.2 _ h2; have := f1 _ h1; omega
          · omega)
        hdef
        (fun j hj => by
          by_cases hjn : j < n
          · rw [hlt j hjn]; exact hcov j hjn
          · have : j = n := by omega
            subst this
            rw [hn]; exact hcovn 0 i sd rfl)
        (fun j i' sd' hj => by
          have := hcovn (j + 1) i' sd' (by rw [List.getElem?_cons_succ]; exact hj)
          rw [show n + 1 + j = n + (j + 1) from by omega]; exact this)
      refine ⟨os, cenv', s', by rw [bind_ok e1]; exact g1, g2, fun j hj => ?_, fun j i' sd' hj => ?_⟩
      · have := g3 j (by omega)
        rw [hlt j hj] at this; exact this
      · cases j with
        | zero =>
          cases hj
          have := g3 n (by omega)
          rw [hn] at this; exact this
        | succ j =>
          rw [List.getElem?_cons_succ] at hj
          have := g4 j i' sd' hj
          rw [show n + 1 + j = n + (j + 1) from by omega] at this; exact this
    | call x op =>
      simp only [trace, kinds] at *
      cases hx : env x with
      | none => exact absurd hx (hdef _ (List.mem_cons_self ..))
      | some k =>
        rw [hx] at hdef hcov hcovn
        obtain ⟨hk, hck⟩ := henv x k hx
        have hc := hcov k hk
        rw [callsOf_cons, if_pos rfl] at hc
        obtain ⟨o, s1, a1, ks1, F1, e1, r1, c1, cv1, run1⟩ := S.step_ok (hR k hk) hc
        have hkk : assign obj k { obj k with a := a1, ks := ks1, F := F1 } k = { obj k with a := a1, ks := ks1, F := F1 } := by
          simp [assign]
        have hko : ∀ j, j ≠ k → assign obj k { obj k with a := a1, ks := ks1, F := F1 } j = obj j := fun j hj => by
          simp [assign, hj]
        have hapk : ∀ j, j < n → j ≠ k → (obj j).Apart { obj k with a := a1, ks := ks1, F := F1 } := fun j hj hjk => by
          obtain ⟨h1, h2, h3, h4⟩ := hap j k hj hk hjk
          have hb := S.bound (hR j hj)
          refine ⟨h1, h2, fun h => ?_, fun a h5 h6 => ?_⟩
          · rcases c1.foot _ h with h | h
            · exact h3 h
            · omega
          · rcases c1.foot _ h6 with h | h
            · exact h4 a h5 h
            · have := hb.2.2 a h5; omega
        obtain ⟨os, cenv', s', g1, g2, g3, g4⟩ := ih (s := s1) (env := env) (cenv := cenv) (n := n)
          (obj := assign obj k { obj k with a := a1, ks := ks1, F := F1 })
          (fun z j hz => by
            obtain ⟨h1, h2⟩ := henv z j hz
            refine ⟨h1, ?_⟩
            by_cases hjk : j = k
            · subst hjk; rw [hkk]; exact h2
            · rw [hko j hjk]; exact h2)
          (fun j hj => by
            by_cases hjk : j = k
            · subst hjk; rw [hkk]; exact r1
            · rw [hko j hjk]
              obtain ⟨h1, h2, h3, h4⟩ := hap j k hj hk hjk
              have hb := S.bound (hR j hj)
              exact S.frame (hR j hj) (c1.frame _ hb.1 h1 h3)
                (fun x hx => c1.frame x (hb.2.2 x hx) (fun e => h2 (e ▸ hx)) (h4 x hx)) (c1.roots _ h1) c1.next)
          (fun j l hj hl hjl => by
            by_cases hjk : j = k
            · subst hjk
              rw [hkk, hko l (Ne.symm hjl)]
              obtain ⟨h1, h2, h3, h4⟩ := hapk l hl (Ne.symm hjl)
              exact ⟨Ne.symm h1, h3, h2, fun a h5 h6 => h4 a h6 h5⟩
            · rw [hko j hjk]
              by_cases hlk : l = k
              · subst hlk
                rw [hkk]; exact hapk j hj hjk
              · rw [hko l hlk]; exact hap j l hj hl hjl)
          (fun c hc => hdef c (List.mem_cons_of_mem _ hc))
          (fun j hj => by
            by_cases hjk : j = k
            · subst hjk; rw [hkk]; exact cv1
            · have := hcov j hj
              rw [callsOf_cons, if_neg (fun h => hjk (Option.some.inj h).symm)] at this
              rw [hko j hjk]; exact this)
          (fun j i sd hj => by
            have := hcovn j i sd hj
            rw [callsOf_cons, if_neg (fun h => by have := Option.some.inj h; omega)] at this
            exact this)
        refine ⟨o :: os, cenv', s', ?_, by simp [g2], fun j hj => ?_, fun j i sd hj => ?_⟩
        · simp only [wrun, hck]
          rw [bind_ok e1, bind_ok g1]; rfl
        · rw [callsOf_cons, outsOf_cons]
          by_cases hjk : j = k
          · subst hjk
            rw [if_pos rfl, if_pos rfl]
            obtain ⟨a', h⟩ := g3 j hj
            rw [hkk] at h
            exact ⟨a', run1 _ _ h⟩
          · rw [if_neg (fun h => hjk (Option.some.inj h).symm), if_neg (fun h => hjk (Option.some.inj h).symm)]
            have := g3 j hj
            rw [hko j hjk] at this; exact this
        · rw [callsOf_cons, outsOf_cons, if_neg (fun h => by have := Option.some.inj h; omega),
            if_neg (fun h => by have := Option.some.inj h; omega)]
          exact g4 j i sd hj

/-- Programs that start with no containers. -/
theorem Sys.world₀ {A : Type} (S : Sys K V ι Op Out A) (p : List (WOp ι Op)) (s : St K V)
    (hdef : ∀ c ∈ trace (fun _ => none) 0 p, c.1 ≠ none)
    (hcov : ∀ j i sd, (kinds p)[j]? = some (i, sd) → S.Cov i sd [] (callsOf j (trace (fun _ => none) 0 p))) :
    ∃ os cenv' s', wrun S.new S.exec p (fun _ => none) s = .ok ((os, cenv'), s') ∧
      os.length = (trace (fun _ => none) 0 p).length ∧
      ∀ j i sd, (kinds p)[j]? = some (i, sd) →
        ∃ a', S.Run i sd S.init (callsOf j (trace (fun _ => none) 0 p)) (outsOf j (trace (fun _ => none) 0 p) os) a' := by
  by_cases hi : Nonempty (Rec K ι A)
  · obtain ⟨r⟩ := hi
    obtain ⟨os, cenv', s', h1, h2, _, h4⟩ := S.world p (s := s) (env := fun _ => none) (cenv := fun _ => none) (n := 0)
      (obj := fun _ => r) (fun x j h => by cases h) (fun j h => by omega) (fun j k h => by omega) hdef (fun j h => by omega)
      (by simpa using hcov)
    exact ⟨os, cenv', s', h1, h2, by simpa using h4⟩
  · have hk : ∀ (p : List (WOp ι Op)) (cenv : Nat → Option (ι × Handle)), (∀ c ∈ trace (fun _ => none) 0 p, c.1 ≠ none) →
        ∃ cenv', wrun S.new S.exec p cenv s = .ok (([], cenv'), s) ∧ trace (fun _ => none) 0 p = [] ∧ kinds p = [] := by
      intro p
      induction p with
      | nil => intro cenv _; exact ⟨cenv, rfl, rfl, rfl⟩
      | cons o p ih =>
        intro cenv hd
        cases o with
        | new x i sd => exact absurd ⟨⟨i, sd, 0, S.init, [], fun _ => False⟩⟩ hi
        | copy x y =>
          simp only [trace, kinds, wrun] at *
          have : assign (fun _ : Nat => (none : Option Nat)) y none = fun _ => none := by
            funext z; simp [assign]
          rw [this] at hd ⊢
          exact ih _ hd
        | call x op => exact absurd rfl (hd _ (List.mem_cons_self ..))
    obtain ⟨cenv', h1, h2, h3⟩ := hk p (fun _ => none) hdef
    refine ⟨[], cenv', s, h1, by rw [h2]; rfl, fun j i sd h => ?_⟩
    rw [h3] at h; simp at h

end

/-! ### The containers -/

section
variable {K V : Type} [DecidableEq K]

theorem Inv.frame {c : Cfg K} {sd : Seed} {H : K → Nat → BitVec 64} {cl : Prop} {s s' : St K V} {h : Nat} {t : T K Ptr V}
    {F : Nat → Prop} (hi : Inv c sd H cl s h t F) (hh : s'.mem h = s.mem h) (hF : ∀ x, F x → s'.mem x = s.mem x)
    (hr : s'.roots h = s.roots h) (hn : s.next ≤ s'.next) : Inv c sd H cl s' h t F := by
  obtain ⟨lk, hl, hrep⟩ := hi.rep
  exact ⟨⟨lk, ⟨by rw [hh]; exact hl.mem, hl.get, Nat.lt_of_lt_of_le hl.lt hn, hl.nF,
    fun a ha => Nat.lt_of_lt_of_le (hl.bound a ha) hn⟩, hrep.frame hF⟩, by rw [hr]; exact hi.seed, hi.node, hi.wf, hi.ht, hi.canon,
    hi.clean, by rw [hr]; exact hi.len, by rw [hr]; exact hi.dep⟩

theorem Inv.bound {c : Cfg K} {sd : Seed} {H : K → Nat → BitVec 64} {cl : Prop} {s : St K V} {h : Nat} {t : T K Ptr V}
    {F : Nat → Prop} (hi : Inv c sd H cl s h t F) : h < s.next ∧ ¬ F h ∧ ∀ x, F x → x < s.next := by
  obtain ⟨lk, hl, _⟩ := hi.rep
  exact ⟨hl.lt, hl.nF, hl.bound⟩

end

/-- Several kinds of maps with the same types of keys and values. -/
structure Maps (K V ι : Type) [DecidableEq K] [Inhabited V] where
  I : ι → MapImpl K V
  H : ι → Seed → K → Nat → BitVec 64
  P : ι → Seed → Bool → List K → K → Prop
  lossy : ι → V → V
  ex : ι → Prop
  ok : ∀ i sd, MapContainer (I i) sd (H i sd) (P i sd) (lossy i) (ex i)

/-- Several kinds of sets with the same type of keys. -/
structure Sets (K ι : Type) [DecidableEq K] where
  I : ι → SetImpl K
  H : ι → Seed → K → Nat → BitVec 64
  P : ι → Seed → List K → K → Prop
  inv : ι → Bool
  ex : ι → Prop
  ok : ∀ i sd, SetContainer (I i) sd (H i sd) (P i sd) (inv i) (ex i)

section
variable {K V ι : Type} [DecidableEq K] [Inhabited V]

def Maps.sys (C : Maps K V ι) {fuel : Nat} (hf : 256 ≤ fuel) : Sys K V ι (MOp K V) (MOut K V) (FMap K V) where
  new := MapImpl.New
  exec i h op := (C.I i).exec fuel h op
  init := []
  Run i sd := RunBy (MStepX (C.H i sd) (C.ex i) (C.lossy i))
  Cov i sd ks ops := EachNew (C.P i sd) ks ops
  R i sd s h m ks F := ∃ t, Inv (C.I i).cfg sd (C.H i sd) (C.ex i) s h t F ∧ m.Perm (absT t) ∧ ∀ x, x ∈ ks ↔ x ∈ (absT t).keys
  run_nil _ _ _ := ⟨rfl, rfl⟩
  new_ok i sd s := by
    obtain ⟨s', h1, h2, h3, h4, h5⟩ := Inv.new (C.I i).cfg sd (C.H i sd) (C.ex i) s
    refine ⟨s', _, h1, ⟨_, h2, by rw [absT_new], by rw [absT_new]; simp [FMap.keys]⟩, ?_, by omega, h3, h5⟩
    intro a ha; omega
  step_ok := by
    rintro i sd s h m ks F op ops ⟨t, hi, hp, hks⟩ hc
    obtain ⟨okS, okM, ok⟩ := (C.ok i sd).ok
    obtain ⟨o, s1, t1, F1, e1, i1, c1, ⟨m1, st1, p1⟩, k1⟩ := map_step ok hi hf op
      (fun k hk hk' => ok.congr _ _ _ _ hks (hc.1 k hk (fun h => hk' ((hks k).1 h))))
    have hn := nodup_absT hi.wf
    obtain ⟨m', st', p'⟩ := st1.perm hp.symm hn
    refine ⟨o, s1, m', op.after ks, F1, e1, ⟨t1, i1, p'.symm.trans p1, fun x => ?_⟩, c1, hc.2, fun os a'' hr => ?_⟩
    · rw [← (FMap.keys_perm p1).mem_iff, st1.after_keys, mem_after hks]
    · exact ⟨o, os, m', rfl, st', hr⟩
  frame := by
    rintro i sd s s' h m ks F ⟨t, hi, h1, h2⟩ a b c d
    exact ⟨t, hi.frame a b c d, h1, h2⟩
  bound := by
    rintro i sd s h m ks F ⟨t, hi, _⟩
    exact hi.bound

/-- C33.  Run any program with any number of maps, of any of the five kinds, in one memory.  If the calls that each
map receives, through whichever variable, are covered, then the program runs without a fault, and each map
answers its calls as if the others did not exist. -/
theorem C33_map (C : Maps K V ι) {fuel : Nat} (hf : 256 ≤ fuel) (p : List (WOp ι (MOp K V))) (s : St K V)
    (hdef : ∀ c ∈ trace (fun _ => none) 0 p, c.1 ≠ none)
    (hcov : ∀ n i sd, (kinds p)[n]? = some (i, sd) → EachNew (C.P i sd) [] (callsOf n (trace (fun _ => none) 0 p))) :
    ∃ os env s', wrun MapImpl.New (fun i h op => (C.I i).exec fuel h op) p (fun _ => none) s = .ok ((os, env), s') ∧
      os.length = (trace (fun _ => none) 0 p).length ∧
      ∀ n i sd, (kinds p)[n]? = some (i, sd) → ∃ m, RunBy (MStepX (C.H i sd) (C.ex i) (C.lossy i)) []
        (callsOf n (trace (fun _ => none) 0 p)) (outsOf n (trace (fun _ => none) 0 p) os) m :=
  (C.sys hf).world₀ p s hdef hcov

/-- C33.  What a map returns in a program depends on the calls it receives alone: it returns the same when it is
the only container in some other memory. -/
theorem C33_map_alone (C : Maps K V ι) {fuel : Nat} (hf : 256 ≤ fuel) (p : List (WOp ι (MOp K V))) (s s₀ : St K V)
    (hdef : ∀ c ∈ trace (fun _ => none) 0 p, c.1 ≠ none)
    (hcov : ∀ n i sd, (kinds p)[n]? = some (i, sd) → EachNew (C.P i sd) [] (callsOf n (trace (fun _ => none) 0 p))) :
    ∃ os env s', wrun MapImpl.New (fun i h op => (C.I i).exec fuel h op) p (fun _ => none) s = .ok ((os, env), s') ∧
      ∀ n i sd, (kinds p)[n]? = some (i, sd) → C.ex i →
        ∃ h s₁, (C.I i).session fuel sd (callsOf n (trace (fun _ => none) 0 p)) s₀ =
          .ok ((h, outsOf n (trace (fun _ => none) 0 p) os), s₁) := by
  obtain ⟨os, env, s', h1, _, h3⟩ := C33_map C hf p s hdef hcov
  refine ⟨os, env, s', h1, fun n i sd hn hex => ?_⟩
  obtain ⟨m, hm⟩ := h3 n i sd hn
  obtain ⟨os', s₁, t, F, m', e1, _, e3, _⟩ := (C.ok i sd).session (hcov n i sd hn) hf s₀
  have := (RunBy.det hex (List.Perm.refl _) (by simp [FMap.keys]) hm e3).1
  exact ⟨_, s₁, by rw [this]; exact e1⟩

end

section
variable {K ι : Type} [DecidableEq K]

def Sets.sys (C : Sets K ι) {fuel : Nat} (hf : 256 ≤ fuel) : Sys K Unit ι (SOp K) (SOut K) (List K) where
  new := SetImpl.New
  exec i h op := (C.I i).exec fuel h op
  init := []
  Run i sd := SRunBy (SStepX (C.H i sd) (C.ex i) (C.inv i))
  Cov i sd ks ops := SEachNew (C.H i sd) (C.inv i) (C.P i sd) ks ops
  R i sd s h m ks F := ∃ t, Inv (C.I i).cfg sd (C.H i sd) (C.ex i) s h t F ∧ m.Perm (absS t) ∧ ∀ x, x ∈ ks ↔ x ∈ absS t
  run_nil _ _ _ := ⟨rfl, rfl⟩
  new_ok i sd s := by
    obtain ⟨s', h1, h2, h3, h4, h5⟩ := Inv.new (C.I i).cfg sd (C.H i sd) (C.ex i) s
    refine ⟨s', _, h1, ⟨_, h2, by rw [absS_new], by rw [absS_new]; simp⟩, ?_, by omega, h3, h5⟩
    intro a ha; omega
  step_ok := by
    rintro i sd s h m ks F op ops ⟨t, hi, hp, hks⟩ hc
    obtain ⟨okA, ok⟩ := (C.ok i sd).ok
    obtain ⟨o, s1, t1, F1, e1, i1, c1, ⟨m1, st1, p1⟩⟩ := set_step ok hi hf op
      (fun k hk hk' => ok.congr _ _ _ hks (hc.1 k hk (fun h => hk' ((hks k).1 h))))
    obtain ⟨m', st', p'⟩ := st1.perm hp.symm
    refine ⟨o, s1, m', op.afterX (C.H i sd) (C.inv i) ks, F1, e1, ⟨t1, i1, p'.symm.trans p1, fun x => ?_⟩, c1, hc.2,
      fun os a'' hr => ?_⟩
    · rw [← p1.mem_iff, st1.mem_afterX, Spec.mem_afterX hks]
    · exact ⟨o, os, m', rfl, st', hr⟩
  frame := by
    rintro i sd s s' h m ks F ⟨t, hi, h1, h2⟩ a b c d
    exact ⟨t, hi.frame a b c d, h1, h2⟩
  bound := by
    rintro i sd s h m ks F ⟨t, hi, _⟩
    exact hi.bound

/-- C33 for sets. -/
theorem C33_set (C : Sets K ι) {fuel : Nat} (hf : 256 ≤ fuel) (p : List (WOp ι (SOp K))) (s : St K Unit)
    (hdef : ∀ c ∈ trace (fun _ => none) 0 p, c.1 ≠ none)
    (hcov : ∀ n i sd, (kinds p)[n]? = some (i, sd) →
      SEachNew (C.H i sd) (C.inv i) (C.P i sd) [] (callsOf n (trace (fun _ => none) 0 p))) :
    ∃ os env s', wrun SetImpl.New (fun i h op => (C.I i).exec fuel h op) p (fun _ => none) s = .ok ((os, env), s') ∧
      os.length = (trace (fun _ => none) 0 p).length ∧
      ∀ n i sd, (kinds p)[n]? = some (i, sd) → ∃ m, SRunBy (SStepX (C.H i sd) (C.ex i) (C.inv i)) []
        (callsOf n (trace (fun _ => none) 0 p)) (outsOf n (trace (fun _ => none) 0 p) os) m :=
  (C.sys hf).world₀ p s hdef hcov

theorem C33_set_alone (C : Sets K ι) {fuel : Nat} (hf : 256 ≤ fuel) (p : List (WOp ι (SOp K))) (s s₀ : St K Unit)
    (hdef : ∀ c ∈ trace (fun _ => none) 0 p, c.1 ≠ none)
    (hcov : ∀ n i sd, (kinds p)[n]? = some (i, sd) →
      SEachNew (C.H i sd) (C.inv i) (C.P i sd) [] (callsOf n (trace (fun _ => none) 0 p))) :
    ∃ os env s', wrun SetImpl.New (fun i h op => (C.I i).exec fuel h op) p (fun _ => none) s = .ok ((os, env), s') ∧
      ∀ n i sd, (kinds p)[n]? = some (i, sd) → C.ex i →
        ∃ h s₁, (C.I i).session fuel sd (callsOf n (trace (fun _ => none) 0 p)) s₀ =
          .ok ((h, outsOf n (trace (fun _ => none) 0 p) os), s₁) := by
  obtain ⟨os, env, s', h1, _, h3⟩ := C33_set C hf p s hdef hcov
  refine ⟨os, env, s', h1, fun n i sd hn hex => ?_⟩
  obtain ⟨m, hm⟩ := h3 n i sd hn
  obtain ⟨os', s₁, t, F, m', e1, _, e3, _⟩ := (C.ok i sd).session (hcov n i sd hn) hf s₀
  have := (SRunBy.det hex (List.Perm.refl _) hm e3).1
  exact ⟨_, s₁, by rw [this]; exact e1⟩

end

/-! ### Copies -/

section
variable {K V ι Op Out : Type}

theorem wrun_same (new : Seed → M K V Handle) (exec : ι → Handle → Op → M K V Out) {x y : Nat} {q q' : List (WOp ι Op)}
    (hq : SamePrograms x y q q') : ∀ {env : Nat → Option (ι × Handle)}, env x = env y →
    wrun new exec q env = wrun new exec q' env := by
  have he : ∀ {env : Nat → Option (ι × Handle)} {a b : Nat}, env x = env y → EitherOf x y a b → env a = env b := by
    rintro env a b h (rfl | ⟨rfl | rfl, rfl | rfl⟩)
    · rfl
    · rfl
    · exact h
    · exact h.symm
    · rfl
  have ha : ∀ {env : Nat → Option (ι × Handle)} {z : Nat} {a : Option (ι × Handle)}, env x = env y → z ≠ x → z ≠ y →
      assign env z a x = assign env z a y := by
    intro env z a h h1 h2
    unfold assign
    rw [if_neg (Ne.symm h1), if_neg (Ne.symm h2), h]
  induction hq with
  | nil => intros; rfl
  | cons h _ ih =>
    intro env hxy
    cases h with
    | new i sd h1 h2 =>
      simp only [wrun]
      congr 1
      funext h
      exact ih (ha hxy h1 h2)
    | copy h h1 h2 =>
      simp only [wrun]
      rw [he hxy h]
      exact ih (ha hxy h1 h2)
    | call op h =>
      simp only [wrun]
      rw [he hxy h, ih hxy]

/-- C32.  After `y = x`, the two variables can be exchanged in every statement, until one of them is assigned
again: everything is returned, and left in memory, as before.  This holds for every container, whatever `new`
and `exec` are, because the struct that is copied is a pointer. -/
theorem C32_copies (new : Seed → M K V Handle) (exec : ι → Handle → Op → M K V Out) (p : List (WOp ι Op)) {x y : Nat}
    {q q' : List (WOp ι Op)} (hq : SamePrograms x y q q') (env : Nat → Option (ι × Handle)) :
    wrun new exec (p ++ .copy x y :: q) env = wrun new exec (p ++ .copy x y :: q') env := by
  induction p generalizing env with
  | nil =>
    simp only [List.nil_append, wrun]
    refine wrun_same new exec hq ?_
    unfold assign
    by_cases h : x = y <;> simp [h]
  | cons o p ih =>
    cases o <;> simp only [List.cons_append, wrun, ih]

end

/-- C32, together with what is returned: if a program makes one map and spreads any covered history over copies
of it, the calls return what a single map returns. -/
theorem C32_map {K V ι : Type} [DecidableEq K] [Inhabited V] (C : Maps K V ι) {fuel : Nat} (hf : 256 ≤ fuel)
    {p : List (WOp ι (MOp K V))} {i : ι} {sd : Seed} (hk : kinds p = [(i, sd)]) (s s₀ : St K V)
    (hdef : ∀ c ∈ trace (fun _ => none) 0 p, c.1 ≠ none)
    (hcov : EachNew (C.P i sd) [] ((trace (fun _ => none) 0 p).map (·.2))) (hex : C.ex i) :
    ∃ os env s' h s₁, wrun MapImpl.New (fun i h op => (C.I i).exec fuel h op) p (fun _ => none) s = .ok ((os, env), s') ∧
      (C.I i).session fuel sd ((trace (fun _ => none) 0 p).map (·.2)) s₀ = .ok ((h, os), s₁) := by
  have hall : ∀ (p : List (WOp ι (MOp K V))) {env : Nat → Option Nat} {n : Nat}, (∀ x j, env x = some j → j < n) →
      n + (kinds p).length ≤ 1 → (∀ c ∈ trace env n p, c.1 ≠ none) → ∀ c ∈ trace env n p, c.1 = some 0 := by
    intro p
    induction p with
    | nil => intro env n _ _ _ c hc; simp [trace] at hc
    | cons o p ih =>
      intro env n he hn hd
      cases o with
      | new x i sd =>
        refine ih (fun y j hy => ?_) (by simp only [kinds, List.length_cons] at hn; omega) hd
        unfold assign at hy
        split at hy
        · cases hy; omega
        · have := he y j hy; omega
      | copy x y =>
        refine ih (fun z j hz => ?_) hn hd
        unfold assign at hz
        split at hz
        · exact he x j hz
        · exact he z j hz
      | call x op =>
        intro c hc
        rcases List.mem_cons.1 hc with rfl | hc
        · cases h : env x with
          | none => exact absurd h (hd _ (List.mem_cons_self ..))
          | some j =>
            have := he x j h
            simp only [kinds] at hn
            rw [show j = 0 by omega]
        · exact ih he hn (fun c hc => hd c (List.mem_cons_of_mem _ hc)) c hc
  have h0 := hall p (env := fun _ => none) (n := 0) (fun x j h => by cases h) (by rw [hk]; simp) hdef
  have hcalls : callsOf 0 (trace (fun _ => none) 0 p) = (trace (fun _ => none) 0 p).map (·.2) := by
    generalize trace (fun _ => none) 0 p = tr at h0
    induction tr with
    | nil => rfl
    | cons c tr ih =>
      rw [callsOf_cons, if_pos (h0 c (List.mem_cons_self ..)), ih fun c hc => h0 c (List.mem_cons_of_mem _ hc)]; rfl
  have houts : ∀ os : List (MOut K V), os.length = (trace (fun _ => none) 0 p).length →
      outsOf 0 (trace (fun _ => none) 0 p) os = os := by
    generalize trace (fun _ => none) 0 p = tr at h0
    induction tr with
    | nil => intro os h; rw [List.length_eq_zero_iff.1 h]; rfl
    | cons c tr ih =>
      intro os h
      cases os with
      | nil => simp at h
      | cons o os =>
        rw [outsOf_cons, if_pos (h0 c (List.mem_cons_self ..)), ih (fun c hc => h0 c (List.mem_cons_of_mem _ hc)) os
          (by simpa using h)]
  have hcov' : ∀ n i' sd', (kinds p)[n]? = some (i', sd') → EachNew (C.P i' sd') [] (callsOf n (trace (fun _ => none) 0 p)) := by
    intro n i' sd' hn
    rw [hk] at hn
    cases n with
    | zero => cases hn; rw [hcalls]; exact hcov
    | succ n => simp at hn
  obtain ⟨os, env, s', h1, h2, h3⟩ := C33_map C hf p s hdef hcov'
  obtain ⟨m, hm⟩ := h3 0 i sd (by rw [hk]; rfl)
  rw [hcalls, houts os h2] at hm
  obtain ⟨os', s₁, t, F, m', e1, _, e3, _⟩ := (C.ok i sd).session hcov hf s₀
  have := (RunBy.det hex (List.Perm.refl _) (by simp [FMap.keys]) hm e3).1
  exact ⟨os, env, s', _, s₁, h1, by rw [this]; exact e1⟩

/-! ### Examples -/

/-- String maps and byte maps (a string and a byte slice are the same in the model). -/
def stringAndBytes (sum : Maphash) (V : Type) [Inhabited V] : Maps ByteStr V Bool where
  I b := if b then BytesMap sum else StringMap sum
  H _ sd := byteStream sum sd id
  P _ sd _ := ByteFits (byteStream sum sd id)
  lossy _ := id
  ex _ := True
  ok b sd := by
    cases b
    · exact .string sum sd
    · exact .bytes sum sd

/-- String sets and byte sets. -/
def stringAndBytesSets (sum : Maphash) : Sets ByteStr Bool where
  I b := if b then BytesSet sum else StringSet sum
  H _ sd := byteStream sum sd id
  P _ sd := ByteFits (byteStream sum sd id)
  inv b := b
  ex _ := True
  ok b sd := by
    cases b
    · exact .string sum sd
    · exact .bytes sum sd

/-- A string map, a copy of it, and a byte map, with keys in common; the variable of the first is used again
for a third map. -/
def exWorld : List (WOp Bool (MOp ByteStr Nat)) :=
  [.new 0 false 0#64, .call 0 (.set [1] 10), .new 1 true 0#64, .call 1 (.set [1] 20), .copy 0 2, .call 2 (.set [0x11] 11),
   .call 1 (.del [1]), .call 0 (.get [0x11]), .call 1 (.get [1]), .new 0 false 0#64, .call 0 (.get [1]), .call 2 (.get [1]),
   .call 2 .len]

theorem exWorld_ok : (∀ c ∈ trace (fun _ => none) 0 exWorld, c.1 ≠ none) ∧ ∀ n i sd, (kinds exWorld)[n]? = some (i, sd) →
    EachNew ((stringAndBytes toyHash Nat).P i sd) [] (callsOf n (trace (fun _ => none) 0 exWorld)) := by
  refine ⟨by decide +kernel, fun n i sd h => ?_⟩
  rcases n with _ | _ | _ | n
  · cases h; show EachNew (fun _ => ByteFits (byteStream toyHash 0#64 id)) _ _; decide +kernel
  · cases h; show EachNew (fun _ => ByteFits (byteStream toyHash 0#64 id)) _ _; decide +kernel
  · cases h; show EachNew (fun _ => ByteFits (byteStream toyHash 0#64 id)) _ _; decide +kernel
  · simp [kinds, exWorld] at h

example := C33_map (stringAndBytes toyHash Nat) (Nat.le_refl 256) exWorld St.init exWorld_ok.1 exWorld_ok.2
example := C33_map_alone (stringAndBytes toyHash Nat) (Nat.le_refl 256) exWorld St.init St.init exWorld_ok.1 exWorld_ok.2

/-- The calls on the first map, through two variables. -/
example : (callsOf 0 (trace (fun _ => none) 0 exWorld)).length = 5 := by decide +kernel

def exWorldS : List (WOp Bool (SOp ByteStr)) :=
  [.new 0 false 0#64, .call 0 (.add [1]), .new 1 true 0#64, .call 1 (.add [1]), .copy 0 2, .call 2 (.add [0x11]),
   .call 1 (.del [1]), .call 0 (.del [1]), .call 1 (.has [1]), .call 2 (.has [1]), .call 0 .len]

theorem exWorldS_ok : (∀ c ∈ trace (fun _ => none) 0 exWorldS, c.1 ≠ none) ∧ ∀ n i sd, (kinds exWorldS)[n]? = some (i, sd) →
    SEachNew ((stringAndBytesSets toyHash).H i sd) ((stringAndBytesSets toyHash).inv i) ((stringAndBytesSets toyHash).P i sd) []
      (callsOf n (trace (fun _ => none) 0 exWorldS)) := by
  refine ⟨by decide +kernel, fun n i sd h => ?_⟩
  rcases n with _ | _ | n
  · cases h
    exact SEachNew'.toX (byteStream toyHash 0#64 id)
      (by show SEachNew' (ByteFits (byteStream toyHash 0#64 id)) _ _; decide +kernel)
  · cases h
    show SEachNew (byteStream toyHash 0#64 id) true (ByteFits (byteStream toyHash 0#64 id)) _ [.add [1], .del [1], .has [1]]
    exact ⟨by decide +kernel, fun k hk => absurd hk (by simp [SOp.stores]),
      fun k hk => absurd hk (by simp [SOp.stores]), trivial⟩
  · simp [kinds, exWorldS] at h

example := C33_set (stringAndBytesSets toyHash) (Nat.le_refl 256) exWorldS St.init exWorldS_ok.1 exWorldS_ok.2
example := C33_set_alone (stringAndBytesSets toyHash) (Nat.le_refl 256) exWorldS St.init St.init exWorldS_ok.1 exWorldS_ok.2

example := C32_map (stringAndBytes toyHash Nat) (Nat.le_refl 256) (i := false) (sd := 0#64)
  (p := [.new 0 false 0#64, .call 0 (.set [1] 10), .copy 0 1, .call 1 (.set [0x11] 20), .call 0 (.get [0x11]), .call 1 (.get [1])])
  rfl St.init St.init (by decide +kernel)
  (by show EachNew (fun _ => ByteFits (byteStream toyHash 0#64 id)) _ _; decide +kernel) trivial

example := C32_copies (K := ByteStr) (V := Nat) MapImpl.New (fun i h op => ((stringAndBytes toyHash Nat).I i).exec 256 h op)
  [.new 0 false 0#64] (x := 0) (y := 1) (q := [.call 0 (.set [1] 10), .call 1 (.get [1])])
  (q' := [.call 1 (.set [1] 10), .call 1 (.get [1])])
  (.cons (.call _ (.inr ⟨.inl rfl, .inr rfl⟩)) (.cons (.call _ (.inl rfl)) .nil)) (fun _ => none)

end Amt
