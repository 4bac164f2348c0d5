/-
The tests of the package (amt_test.go) as programs that call the containers, and what it takes for them to pass.
-/
import Verif.PropsFloat
import Verif.PropsExpect

set_option linter.unusedVariables false
set_option linter.unusedSectionVars false

namespace Amt
open T Spec

/-! ### Programs -/

/-- `strconv.Itoa(n)` for `n ≥ 0`: the decimal digits. -/
def itoa (n : Nat) : ByteStr := if n < 10 then [UInt8.ofNat (48 + n)] else itoa (n / 10) ++ [UInt8.ofNat (48 + n % 10)]

/-- `IntKey(i)`. -/
def ikey (i : Nat) : BitVec 64 := BitVec.ofNat 64 i

/-- The `float64` next to a rational number, in multiples of `2^-1074`: what `Dep` returns when the model's `Dep` returns
the rational number (C68). -/
def f64 (q : Rat) : Nat := round64 (q.num.toNat * 2 ^ 1074) q.den

/-- `d > 1`, for the result `d` of `Dep`. -/
def isDeep (q : Rat) : Bool := decide (toF64 1 < f64 q)

/-- `d == 0` -/
def isFlat (q : Rat) : Bool := decide (f64 q = 0)

/-- A test: a list of calls, each with the condition under which the test goes on; otherwise it calls `t.Fatal`. -/
abbrev Test (Op Out : Type) := List (Op × (Out → Bool))

/-- Run a test: true if it passes, false after `t.Fatal`. -/
def runTest {K V Op Out : Type} (exec : Op → M K V Out) : Test Op Out → M K V Bool
  | [] => pure true
  | c :: ts => do
    let o ← exec c.1
    if c.2 o = true then runTest exec ts else pure false

/-- In what the four tests TestStringMap, TestStringSet, TestIntMap and TestIntSet (amt_test.go:113-440) differ: the calls they
make for the number `i`, and how they look at the results. -/
structure Acts (Op Out : Type) where
  /-- `m.Set(key, i)` or `s.Add(key)` -/
  put : Nat → Op
  /-- `m.Ptr(key)` or `s.Has(key)` -/
  look : Nat → Op
  /-- the call before returned a pointer to `i`, or true -/
  found : Nat → Out → Bool
  /-- the call before returned nil, or false -/
  missing : Out → Bool
  /-- `m.Del(key)` -/
  del : Nat → Op
  /-- `m.All(func(..) bool { visited++; return true })` -/
  all : Op
  /-- `visited` is this number -/
  visited : Nat → Out → Bool
  len : Op
  /-- `m.Len()` is this number -/
  lenIs : Nat → Out → Bool
  dep : Op
  /-- not `d <= 1` -/
  deep : Out → Bool
  /-- `d` is 0 -/
  flat : Out → Bool

section
variable {Op Out : Type}

/-- `for i := a; i < b; i++ { .. }` -/
def upto (a b : Nat) (f : Nat → Op × (Out → Bool)) : Test Op Out := (List.range' a (b - a)).map f

/-- One round (amt_test.go:122-195, and the same lines of the other three tests). -/
def round (A : Acts Op Out) (N : Nat) : Test Op Out :=
  upto 0 N (fun i => (A.put i, fun _ => true)) ++ (upto 0 N (fun i => (A.look i, A.found i)) ++
  ([(A.dep, A.deep), (A.all, A.visited N), (A.len, A.lenIs N)] ++
  (upto 0 (N / 2) (fun i => (A.del i, fun _ => true)) ++ (upto 0 (N / 2) (fun i => (A.look i, A.missing)) ++
  (upto (N / 2) N (fun i => (A.look i, A.found i)) ++ ([(A.len, A.lenIs (N / 2))] ++
  (upto 0 (N / 2) (fun i => (A.put i, fun _ => true)) ++ (upto 0 (N / 2) (fun i => (A.look i, A.found i)) ++
  ([(A.len, A.lenIs N)] ++
  (upto 0 N (fun i => (A.del i, fun _ => true)) ++ (upto 0 N (fun i => (A.look i, A.missing)) ++
  [(A.len, A.lenIs 0), (A.dep, A.flat)])))))))))))

/-- `for test := 0; test < 3; test++ { .. }` (amt_test.go:121). -/
def rounds (A : Acts Op Out) (N : Nat) : Test Op Out := round A N ++ (round A N ++ round A N)

end

/-- The calls of TestStringMap and TestIntMap (amt_test.go:113-197, 276-360). -/
def mapActs {K : Type} (key : Nat → K) : Acts (MOp K Int) (MOut K Int) where
  put i := .set (key i) i
  look i := .ptr (key i)
  found i | .opt (some v) => v == (i : Int) | _ => false
  missing | .opt none => true | _ => false
  del i := .del (key i)
  all := .all fun _ _ v => (v, true)
  visited n | .log l => l.length == n | _ => false
  len := .len
  lenIs n | .num x => x == BitVec.ofNat 64 n | _ => false
  dep := .dep
  deep | .rat q => isDeep q | _ => false
  flat | .rat q => isFlat q | _ => false

/-- The calls of TestStringSet and TestIntSet (amt_test.go:199-274, 362-440). -/
def setActs {K : Type} (key : Nat → K) : Acts (SOp K) (SOut K) where
  put i := .add (key i)
  look i := .has (key i)
  found _ | .bool b => b | _ => false
  missing | .bool b => !b | _ => false
  del i := .del (key i)
  all := .all fun _ _ => true
  visited n | .log l => l.length == n | _ => false
  len := .len
  lenIs n | .num x => x == BitVec.ofNat 64 n | _ => false
  dep := .dep
  deep | .rat q => isDeep q | _ => false
  flat | .rat q => isFlat q | _ => false

/-- TestStringMap, TestIntMap: a new map, which must not be nil, and the rounds. -/
def testMap {K : Type} (I : MapImpl K Int) (fuel : Nat) (key : Nat → K) (N : Nat) (sd : Seed) : M K Int Bool := do
  let m ← MapImpl.New sd
  if MapImpl.Nil m = true then pure false else runTest (I.exec fuel m) (rounds (mapActs key) N)

/-- TestStringSet, TestIntSet. -/
def testSet {K : Type} (I : SetImpl K) (fuel : Nat) (key : Nat → K) (N : Nat) (sd : Seed) : M K Unit Bool := do
  let m ← SetImpl.New sd
  if SetImpl.Nil m = true then pure false else runTest (I.exec fuel m) (rounds (setActs key) N)

/-! ### From the answers of the container to the result of the test -/

section
variable {K V Op Out : Type}

/-- The calls, one after the other. -/
def runOps (exec : Op → M K V Out) : List Op → M K V (List Out)
  | [] => pure []
  | op :: ops => do
    let o ← exec op
    let os ← runOps exec ops
    pure (o :: os)

theorem MapImpl.run_ops [Inhabited V] (I : MapImpl K V) (fuel : Nat) (m : Handle) (ops : List (MOp K V)) :
    I.run fuel m ops = runOps (I.exec fuel m) ops := by
  induction ops with
  | nil => rfl
  | cons op ops ih => rw [MapImpl.run, runOps, ih]

theorem SetImpl.run_ops (I : SetImpl K) (fuel : Nat) (m : Handle) (ops : List (SOp K)) :
    I.run fuel m ops = runOps (I.exec fuel m) ops := by
  induction ops with
  | nil => rfl
  | cons op ops ih => rw [SetImpl.run, runOps, ih]

/-- The answers `os` meet the conditions of the test. -/
def okAll : Test Op Out → List Out → Bool
  | [], _ => true
  | c :: ts, o :: os => c.2 o && okAll ts os
  | _ :: _, [] => false

theorem okAll_append {ts ts' : Test Op Out} {os os' : List Out} (hl : os.length = ts.length) :
    okAll (ts ++ ts') (os ++ os') = (okAll ts os && okAll ts' os') := by
  induction ts generalizing os with
  | nil =>
    cases os with
    | nil => simp [okAll]
    | cons o os => cases hl
  | cons c ts ih =>
    cases os with
    | nil => cases hl
    | cons o os =>
      simp only [List.cons_append, okAll, ih (Nat.succ.inj hl), Bool.and_assoc]

theorem runOps_cons {exec : Op → M K V Out} {op : Op} {ops : List Op} {os : List Out} {s s' : St K V}
    (h : runOps exec (op :: ops) s = .ok (os, s')) :
    ∃ o s₁ os', exec op s = .ok (o, s₁) ∧ runOps exec ops s₁ = .ok (os', s') ∧ os = o :: os' := by
  have e : runOps exec (op :: ops) s = (exec op >>= fun o => runOps exec ops >>= fun os => pure (o :: os)) s := rfl
  rw [e] at h
  cases h1 : exec op s with
  | error x => rw [show (exec op >>= _) s = _ from by show M.bind _ _ s = _; rw [M.bind, h1]] at h; cases h
  | ok r =>
    obtain ⟨o, s₁⟩ := r
    rw [show (exec op >>= _) s = _ from by show M.bind _ _ s = _; rw [M.bind, h1]] at h
    dsimp only at h
    cases h2 : runOps exec ops s₁ with
    | error x => rw [show (runOps exec ops >>= _) s₁ = _ from by show M.bind _ _ s₁ = _; rw [M.bind, h2]] at h; cases h
    | ok r =>
      obtain ⟨os', s₂⟩ := r
      rw [show (runOps exec ops >>= _) s₁ = _ from by show M.bind _ _ s₁ = _; rw [M.bind, h2]] at h
      cases h
      exact ⟨o, s₁, os', rfl, h2, rfl⟩

theorem runTest_cons (exec : Op → M K V Out) (c : Op × (Out → Bool)) (ts : Test Op Out) (s : St K V) {o : Out} {s₁ : St K V}
    (h : exec c.1 s = .ok (o, s₁)) : runTest exec (c :: ts) s = if c.2 o = true then runTest exec ts s₁ else .ok (false, s₁) := by
  show M.bind (exec c.1) _ s = _
  rw [M.bind, h]
  dsimp only
  split <;> rfl

/-- If the container answers the calls, the test has a result, and it is the right one. -/
theorem runTest_pass {exec : Op → M K V Out} {ts : Test Op Out} {os : List Out} {s s' : St K V}
    (h : runOps exec (ts.map fun c => c.1) s = .ok (os, s')) (hok : okAll ts os = true) : runTest exec ts s = .ok (true, s') := by
  induction ts generalizing os s with
  | nil => cases h; rfl
  | cons c ts ih =>
    obtain ⟨o, s₁, os', h1, h2, rfl⟩ := runOps_cons h
    rw [okAll, Bool.and_eq_true] at hok
    rw [runTest_cons _ _ _ _ h1, if_pos hok.1]
    exact ih h2 hok.2

/-- If an answer to the first calls is wrong, the test fails. -/
theorem runTest_fail {exec : Op → M K V Out} {ts rest : Test Op Out} {os : List Out} {s s' : St K V}
    (h : runOps exec (ts.map fun c => c.1) s = .ok (os, s')) (hok : okAll ts os = false) :
    ∃ s₁, runTest exec (ts ++ rest) s = .ok (false, s₁) := by
  induction ts generalizing os s with
  | nil => simp [okAll] at hok
  | cons c ts ih =>
    obtain ⟨o, s₁, os', h1, h2, rfl⟩ := runOps_cons h
    rw [List.cons_append, runTest_cons _ _ _ _ h1]
    by_cases hc : c.2 o = true
    · rw [if_pos hc]
      rw [okAll, hc, Bool.true_and] at hok
      exact ih h2 hok
    · rw [if_neg hc]
      exact ⟨s₁, rfl⟩

end

/-! ### Answers of an abstract container -/

section
variable {S Op Out : Type}

/-- A sequence of calls, answered according to `step`. -/
def Runs (step : S → Op → Out → S → Prop) : S → List Op → List Out → S → Prop
  | s, [], os, s' => os = [] ∧ s' = s
  | s, op :: ops, os, s' => ∃ o os' s₁, os = o :: os' ∧ step s op o s₁ ∧ Runs step s₁ ops os' s'

theorem Runs.append {step : S → Op → Out → S → Prop} {s s' : S} {ops ops' : List Op} {os : List Out}
    (h : Runs step s (ops ++ ops') os s') : ∃ os₁ os₂ s₁, os = os₁ ++ os₂ ∧ os₁.length = ops.length ∧
      Runs step s ops os₁ s₁ ∧ Runs step s₁ ops' os₂ s' := by
  induction ops generalizing s os with
  | nil => exact ⟨[], os, s, rfl, rfl, ⟨rfl, rfl⟩, h⟩
  | cons op ops ih =>
    obtain ⟨o, os', s₁, rfl, h1, h2⟩ := h
    obtain ⟨os₁, os₂, s₂, rfl, hl, h3, h4⟩ := ih h2
    exact ⟨o :: os₁, os₂, s₂, rfl, by simp [hl], ⟨o, os₁, s₁, rfl, h1, h3⟩, h4⟩

theorem runs_iff {K V : Type} [DecidableEq K] [Inhabited V] {step : FMap K V → MOp K V → MOut K V → FMap K V → Prop}
    {m m' : FMap K V} {ops : List (MOp K V)} {os : List (MOut K V)} : RunBy step m ops os m' ↔ Runs step m ops os m' := by
  induction ops generalizing m os with
  | nil => exact Iff.rfl
  | cons op ops ih => simp only [RunBy, Runs, ih]

theorem runs_iffS {K : Type} [DecidableEq K] {step : List K → SOp K → SOut K → List K → Prop}
    {m m' : List K} {ops : List (SOp K)} {os : List (SOut K)} : SRunBy step m ops os m' ↔ Runs step m ops os m' := by
  induction ops generalizing m os with
  | nil => exact Iff.rfl
  | cons op ops ih => simp only [SRunBy, Runs, ih]

/-- In states with `A`, the part `ts` of a test passes, and leads to states with `B`. -/
def Good (step : S → Op → Out → S → Prop) (A B : S → Prop) (ts : Test Op Out) : Prop :=
  ∀ s os s', A s → Runs step s (ts.map fun c => c.1) os s' → okAll ts os = true ∧ B s'

theorem Good.append {step : S → Op → Out → S → Prop} {A B C : S → Prop} {ts ts' : Test Op Out} (h : Good step A B ts)
    (h' : Good step B C ts') : Good step A C (ts ++ ts') := by
  intro s os s' ha hr
  rw [List.map_append] at hr
  obtain ⟨os₁, os₂, s₁, rfl, hl, r1, r2⟩ := hr.append
  obtain ⟨o1, b1⟩ := h s os₁ s₁ ha r1
  obtain ⟨o2, b2⟩ := h' s₁ os₂ s' b1 r2
  rw [okAll_append (by simpa using hl), o1, o2]
  exact ⟨rfl, b2⟩

theorem Good.one {step : S → Op → Out → S → Prop} {A B : S → Prop} {c : Op × (Out → Bool)}
    (h : ∀ s o s', A s → step s c.1 o s' → c.2 o = true ∧ B s') : Good step A B [c] := by
  intro s os s' ha hr
  obtain ⟨o, os', s₁, rfl, h1, rfl, e⟩ := hr
  obtain ⟨h2, h3⟩ := h s o s₁ ha h1
  subst e
  exact ⟨by simp [okAll, h2], h3⟩

/-- A loop, with an invariant. -/
theorem Good.upto {step : S → Op → Out → S → Prop} {f : Nat → Op × (Out → Bool)} (I : Nat → S → Prop) {a b : Nat} (hab : a ≤ b)
    (h : ∀ i, a ≤ i → i < b → Good step (I i) (I (i + 1)) [f i]) : Good step (I a) (I b) (upto a b f) := by
  obtain ⟨n, rfl⟩ := Nat.exists_eq_add_of_le hab
  clear hab
  rw [Amt.upto, Nat.add_sub_cancel_left]
  induction n generalizing a with
  | zero => intro s os s' ha hr; obtain ⟨rfl, rfl⟩ := hr; exact ⟨rfl, ha⟩
  | succ n ih =>
    rw [List.range'_succ, List.map_cons]
    refine Good.append (ts := [f a]) (h a (Nat.le_refl _) (by omega)) ?_
    have := ih (a := a + 1) fun i h1 h2 => h i (by omega) (by omega)
    rwa [show a + 1 + n = a + (n + 1) by omega] at this

/-- What a test may count on, up to the number `N`, as long as nothing is deleted.  `Is D s` says that in the state `s` the numbers
with `D` are stored. -/
structure Fills (A : Acts Op Out) (step : S → Op → Out → S → Prop) (Is : (Nat → Prop) → S → Prop) (N : Nat) : Prop where
  put : ∀ {D i s o s'}, i < N → Is D s → step s (A.put i) o s' → Is (fun j => D j ∨ j = i) s'
  look : ∀ {D i s o s'}, i < N → Is D s → step s (A.look i) o s' → Is D s' ∧ (D i → A.found i o = true) ∧ (¬ D i → A.missing o = true)
  len : ∀ {a b s o s'}, b ≤ N → Is (fun j => a ≤ j ∧ j < b) s → step s A.len o s' → s' = s ∧ A.lenIs (b - a) o = true
  all : ∀ {a b s o s'}, b ≤ N → Is (fun j => a ≤ j ∧ j < b) s → step s A.all o s' → Is (fun j => a ≤ j ∧ j < b) s' ∧ A.visited (b - a) o = true
  deep : ∀ {s o s'}, Is (fun j => 0 ≤ j ∧ j < N) s → step s A.dep o s' → s' = s ∧ A.deep o = true
  flat : ∀ {s o s'}, Is (fun j => 0 ≤ j ∧ j < 0) s → step s A.dep o s' → s' = s ∧ A.flat o = true

/-- And when something is deleted. -/
structure Sound (A : Acts Op Out) (step : S → Op → Out → S → Prop) (Is : (Nat → Prop) → S → Prop) (N : Nat) : Prop extends Fills A step Is N where
  del : ∀ {D i s o s'}, i < N → Is D s → step s (A.del i) o s' → Is (fun j => D j ∧ j ≠ i) s'

variable {A : Acts Op Out} {step : S → Op → Out → S → Prop} {Is : (Nat → Prop) → S → Prop} {N : Nat}

theorem same {D D' : Nat → Prop} (h : ∀ i, D i ↔ D' i) : Is D = Is D' := congrArg Is (funext fun i => propext (h i))

/-- `for i := 0; i < b; i++ { put(i) }` when those from `a` on, or none, are stored. -/
theorem Fills.puts (h : Fills A step Is N) {a b : Nat} (hb : b ≤ N) :
    Good step (Is fun j => a ≤ j ∧ j < N) (Is fun j => j < b ∨ (a ≤ j ∧ j < N)) (upto 0 b fun i => (A.put i, fun _ => true)) := by
  have := Good.upto (step := step) (f := fun i => (A.put i, fun _ => true)) (fun i => Is fun j => j < i ∨ (a ≤ j ∧ j < N)) (Nat.zero_le b)
    (fun i _ hi => Good.one fun s o s' hs ho => ⟨rfl, ?_⟩)
  · rwa [same (Is := Is) (D := fun j => j < 0 ∨ (a ≤ j ∧ j < N)) (D' := fun j => a ≤ j ∧ j < N) (by simp)] at this
  · have := h.put (by omega) hs ho
    rwa [same (Is := Is) (D' := fun j => j < i + 1 ∨ (a ≤ j ∧ j < N)) (fun j => by omega)] at this

theorem Sound.dels (h : Sound A step Is N) {b : Nat} (hb : b ≤ N) :
    Good step (Is fun j => 0 ≤ j ∧ j < N) (Is fun j => b ≤ j ∧ j < N) (upto 0 b fun i => (A.del i, fun _ => true)) := by
  refine Good.upto (step := step) (f := fun i => (A.del i, fun _ => true)) (fun i => Is fun j => i ≤ j ∧ j < N) (Nat.zero_le b)
    (fun i _ hi => Good.one fun s o s' hs ho => ⟨rfl, ?_⟩)
  have := h.del (by omega) hs ho
  rwa [same (Is := Is) (D' := fun j => i + 1 ≤ j ∧ j < N) (fun j => by omega)] at this

theorem Fills.finds (h : Fills A step Is N) {D : Nat → Prop} {a b : Nat} (hab : a ≤ b) (hb : b ≤ N) (hD : ∀ i, a ≤ i → i < b → D i) :
    Good step (Is D) (Is D) (upto a b fun i => (A.look i, A.found i)) :=
  Good.upto (fun _ => Is D) hab fun i hi hi' => Good.one fun s o s' hs ho =>
    have := h.look (by omega) hs ho
    ⟨this.2.1 (hD i hi hi'), this.1⟩

theorem Fills.misses (h : Fills A step Is N) {D : Nat → Prop} {b : Nat} (hb : b ≤ N) (hD : ∀ i, i < b → ¬ D i) :
    Good step (Is D) (Is D) (upto 0 b fun i => (A.look i, A.missing)) :=
  Good.upto (fun _ => Is D) (Nat.zero_le b) fun i hi hi' => Good.one fun s o s' hs ho =>
    have := h.look (by omega) hs ho
    ⟨this.2.2 (hD i hi'), this.1⟩

theorem Fills.lens (h : Fills A step Is N) {a b n : Nat} (hb : b ≤ N) (hn : n = b - a) :
    Good step (Is fun j => a ≤ j ∧ j < b) (Is fun j => a ≤ j ∧ j < b) [(A.len, A.lenIs n)] :=
  Good.one fun s o s' hs ho =>
    have := h.len hb hs ho
    ⟨hn ▸ this.2, this.1 ▸ hs⟩

/-- The first loops of the test. -/
def filling (A : Acts Op Out) (N : Nat) : Test Op Out :=
  upto 0 N (fun i => (A.put i, fun _ => true)) ++ (upto 0 N (fun i => (A.look i, A.found i)) ++
  [(A.dep, A.deep), (A.all, A.visited N), (A.len, A.lenIs N)])

theorem Fills.filling (h : Fills A step Is N) :
    Good step (Is fun j => 0 ≤ j ∧ j < 0) (Is fun j => 0 ≤ j ∧ j < N) (filling A N) := by
  have e1 : (Is fun j => 0 ≤ j ∧ j < 0) = Is fun j => N ≤ j ∧ j < N := same fun j => by omega
  have e2 : (Is fun j => j < N ∨ (N ≤ j ∧ j < N)) = Is fun j => 0 ≤ j ∧ j < N := same fun j => by omega
  have p1 := h.puts (a := N) (b := N) (Nat.le_refl N)
  rw [← e1, e2] at p1
  refine p1.append ((h.finds (Nat.zero_le _) (Nat.le_refl _) fun i _ hi => ⟨Nat.zero_le _, hi⟩).append ?_)
  refine Good.append (ts := [_]) (ts' := [_, _]) (B := Is fun j => 0 ≤ j ∧ j < N) (Good.one fun s o s' hs ho => ?_)
    (Good.append (ts := [_]) (ts' := [_]) (B := Is fun j => 0 ≤ j ∧ j < N) (Good.one fun s o s' hs ho => ?_) (h.lens (Nat.le_refl _) (by omega)))
  · have := h.deep hs ho
    exact ⟨this.2, this.1 ▸ hs⟩
  · have := h.all (Nat.le_refl _) hs ho
    exact ⟨this.2, this.1⟩

theorem round_eq (A : Acts Op Out) (N : Nat) : round A N = Amt.filling A N ++
  (upto 0 (N / 2) (fun i => (A.del i, fun _ => true)) ++ (upto 0 (N / 2) (fun i => (A.look i, A.missing)) ++
  (upto (N / 2) N (fun i => (A.look i, A.found i)) ++ ([(A.len, A.lenIs (N / 2))] ++
  (upto 0 (N / 2) (fun i => (A.put i, fun _ => true)) ++ (upto 0 (N / 2) (fun i => (A.look i, A.found i)) ++
  ([(A.len, A.lenIs N)] ++
  (upto 0 N (fun i => (A.del i, fun _ => true)) ++ (upto 0 N (fun i => (A.look i, A.missing)) ++
  [(A.len, A.lenIs 0), (A.dep, A.flat)]))))))))) := by
  rw [Amt.filling, round]
  simp only [List.append_assoc]

theorem Sound.round (h : Sound A step Is N) (hN : N % 2 = 0) :
    Good step (Is fun j => 0 ≤ j ∧ j < 0) (Is fun j => 0 ≤ j ∧ j < 0) (round A N) := by
  have e1 : (Is fun j => 0 ≤ j ∧ j < 0) = Is fun j => N ≤ j ∧ j < N := same fun j => by omega
  have e3 : (Is fun j => j < N / 2 ∨ (N / 2 ≤ j ∧ j < N)) = Is fun j => 0 ≤ j ∧ j < N := same fun j => by omega
  have p2 := h.puts (a := N / 2) (b := N / 2) (Nat.div_le_self N 2)
  rw [e3] at p2
  have d2 := h.dels (b := N) (Nat.le_refl N)
  rw [← e1] at d2
  rw [round_eq]
  refine h.filling.append ((h.dels (Nat.div_le_self N 2)).append ((h.misses (Nat.div_le_self N 2) fun i hi => by omega).append
    ((h.finds (Nat.div_le_self N 2) (Nat.le_refl _) fun i hi hi' => ⟨hi, hi'⟩).append ((h.lens (Nat.le_refl _) (by omega)).append
    (p2.append ((h.finds (Nat.zero_le _) (Nat.div_le_self N 2) fun i _ hi => by omega).append ((h.lens (Nat.le_refl _) (by omega)).append
    (d2.append ((h.misses (Nat.le_refl _) fun i hi => by omega).append ?_)))))))))
  refine Good.append (ts := [_]) (ts' := [_]) (h.lens (Nat.zero_le _) rfl) (Good.one fun s o s' hs ho => ?_)
  have := h.flat hs ho
  exact ⟨this.2, this.1 ▸ hs⟩

theorem Sound.rounds (h : Sound A step Is N) (hN : N % 2 = 0) :
    Good step (Is fun j => 0 ≤ j ∧ j < 0) (Is fun j => 0 ≤ j ∧ j < 0) (rounds A N) :=
  (h.round hN).append ((h.round hN).append (h.round hN))

end

end Amt
