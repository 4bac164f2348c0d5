/-
C78, continued: TestGeneric, TestNestedMap, TestModify and TestCanonicalStructure, and a hash function with which all tests pass.
-/
import Verif.PropsTests
import Verif.PropsMany

set_option linter.unusedVariables false
set_option linter.unusedSectionVars false

namespace Amt
open T Spec

/-! ### TestGeneric and TestModify -/

/-- `Bytes` as a key type (bytes_map.go:33-44). -/
def bytesKey (sum : Maphash) : KeyImpl ByteStr where
  equal a b := decide (a = b)
  hash k s n := byteStream sum s id k n

/-- Its `Hash` is that of the code, for all numbers of digests that the containers ask for. -/
theorem bytesKey_hash (sum : Maphash) (sd : Seed) (k : ByteStr) {n : Nat} (h : n < 16) : bytesHash sum 18 k sd n = .ok ((bytesKey sum).hash k sd n) :=
  (C29_stream sum sd k h).1

/-- `"k"` -/
def strK : ByteStr := [107]
/-- `"k2"` -/
def strK2 : ByteStr := [107, 50]

/-- amt_test.go:31-35, after the map is made. -/
def genericMapTest : Test (MOp ByteStr Int) (MOut ByteStr Int) :=
  [(.set strK 1, fun _ => true), (.val strK, fun | .one v => v == 1 | _ => false)]

/-- amt_test.go:37-41, after the set is made. -/
def genericSetTest : Test (SOp ByteStr) (SOut ByteStr) :=
  [(.add strK, fun _ => true), (.has strK, fun | .bool b => b | _ => false)]

/-- amt_test.go:66-95.  The callbacks check their arguments, too; the pointer is never nil. -/
def modifyTest : Test (MOp ByteStr Int) (MOut ByteStr Int) :=
  [(.set strK 1, fun _ => true),
   (.mod strK fun _ _ => 2, fun | .calls [(v, ok)] => ok && v == 1 | _ => false),
   (.get strK, fun | .pair v ok => ok && v == 2 | _ => false),
   (.mod strK2 fun _ _ => 3, fun | .calls [(v, ok)] => !ok | _ => false),
   (.get strK2, fun | .pair v ok => ok && v == 3 | _ => false)]

/-- A new map, and a test of it. -/
def onNewMap {K : Type} (I : MapImpl K Int) (fuel : Nat) (sd : Seed) (ts : Test (MOp K Int) (MOut K Int)) : M K Int Bool := do
  let m ← MapImpl.New sd
  runTest (I.exec fuel m) ts

def onNewSet {K : Type} (I : SetImpl K) (fuel : Nat) (sd : Seed) (ts : Test (SOp K) (SOut K)) : M K Unit Bool := do
  let m ← SetImpl.New sd
  runTest (I.exec fuel m) ts

/-- C78, TestGeneric, the map: it passes for every hash function and every seed. -/
theorem C78_Generic_map (sum : Maphash) (sd : Seed) {fuel : Nat} (hf : 256 ≤ fuel) (s : St ByteStr Int) :
    ∃ s', onNewMap (GenericMap (bytesKey sum)) fuel sd genericMapTest s = .ok (true, s') := by
  obtain ⟨h, s₁, os, s', m, h1, _, h3, h4⟩ := map_runs (N := 1) (key := fun _ => strK) (.generic sd (bytesKey sum) (by simp [bytesKey])) hf
    (by
      rintro m ks k hks ⟨_, _, rfl⟩ hn
      have : ks = [] := by
        rw [List.eq_nil_iff_forall_not_mem]
        intro k' hk'
        obtain ⟨_, _, rfl⟩ := hks k' hk'
        exact hn hk'
      subst this
      exact ⟨fun k' hk' => by simp at hk', fun k' d hc => by simp [CollidesAt] at hc⟩)
    (ts := genericMapTest) (by simp [genericMapTest, MOp.stores]) s
  refine ⟨s', ?_⟩
  show (MapImpl.New (V := Int) (K := ByteStr) sd >>= _) s = _
  rw [bind_ok h1]
  refine runTest_pass h3 ?_
  obtain ⟨o1, os, m1, rfl, ⟨_, r1⟩, o2, os2, m2, rfl, ⟨rfl, _⟩, rfl, _⟩ := h4
  have e : m1 = FMap.set [] strK 1 := by
    rcases r1 with ⟨_, _, h⟩ | ⟨_, h⟩ <;> exact h
  subst e
  simp [genericMapTest, okAll, FMap.get_set_same]

/-- C78, TestGeneric, the set. -/
theorem C78_Generic_set (sum : Maphash) (sd : Seed) {fuel : Nat} (hf : 256 ≤ fuel) (s : St ByteStr Unit) :
    ∃ s', onNewSet (GenericSet (bytesKey sum)) fuel sd genericSetTest s = .ok (true, s') := by
  obtain ⟨h, s₁, os, s', m, h1, _, h3, h4⟩ := set_runs (N := 1) (key := fun _ => strK) (.generic sd (bytesKey sum) (by simp [bytesKey])) hf
    (by
      rintro ks k hks ⟨_, _, rfl⟩ hn
      have : ks = [] := by
        rw [List.eq_nil_iff_forall_not_mem]
        intro k' hk'
        obtain ⟨_, _, rfl⟩ := hks k' hk'
        exact hn hk'
      subst this
      exact ⟨fun k' hk' => by simp at hk', fun k' d hc => by simp [CollidesAt] at hc⟩)
    (ts := genericSetTest) (by simp [genericSetTest, SOp.stores]) s
  refine ⟨s', ?_⟩
  show (SetImpl.New (K := ByteStr) sd >>= _) s = _
  rw [bind_ok h1]
  refine runTest_pass h3 ?_
  obtain ⟨o1, os, m1, rfl, ⟨_, r1⟩, o2, os2, m2, rfl, ⟨rfl, _⟩, rfl, _⟩ := h4
  subst r1
  simp [genericSetTest, okAll]

/-- C78, TestModify. -/
theorem C78_Modify (sum : Maphash) (sd : Seed) (hs : Near (byteStream sum sd id) strK strK2) {fuel : Nat} (hf : 256 ≤ fuel) (s : St ByteStr Int) :
    ∃ s', onNewMap (StringMap sum) fuel sd modifyTest s = .ok (true, s') := by
  have hs' : Near (byteStream sum sd id) strK2 strK := by
    obtain ⟨j, hj, h⟩ := hs
    exact ⟨j, hj, Ne.symm h⟩
  have hsep : Separated (byteStream sum sd id) fun k => ∃ i, i < 2 ∧ k = if i = 0 then strK else strK2 := by
    rintro a b ⟨i, hi, rfl⟩ ⟨j, hj, rfl⟩ hab
    rcases (show i = 0 ∨ i = 1 by omega) with rfl | rfl <;> rcases (show j = 0 ∨ j = 1 by omega) with rfl | rfl
    · exact absurd rfl hab
    · exact hs
    · exact hs'
    · exact absurd rfl hab
  obtain ⟨h, s₁, os, s', m, h1, _, h3, h4⟩ := map_runs (N := 2) (key := fun i => if i = 0 then strK else strK2) (.string sum sd) hf
    (fun _ => fits_of_separated hsep) (ts := modifyTest) (by
      simp only [modifyTest, List.mem_cons, List.not_mem_nil, or_false, forall_eq_or_imp, forall_eq, MOp.stores]
      exact ⟨⟨0, by decide, rfl⟩, ⟨0, by decide, rfl⟩, fun _ h => h.elim, ⟨1, by decide, rfl⟩, fun _ h => h.elim⟩) s
  refine ⟨s', ?_⟩
  show (MapImpl.New (V := Int) (K := ByteStr) sd >>= _) s = _
  rw [bind_ok h1]
  refine runTest_pass h3 ?_
  obtain ⟨o1, os, m1, rfl, ⟨_, r1⟩, o2, os2, m2, rfl, r2, o3, os3, m3, rfl, ⟨rfl, e3⟩, o4, os4, m4, rfl, r4, o5, os5, m5, rfl, ⟨rfl, _⟩, rfl, _⟩ := h4
  have e : m1 = FMap.set [] strK 1 := by
    rcases r1 with ⟨_, _, h⟩ | ⟨_, h⟩ <;> exact h
  subst e
  simp only [MStepX, MStep, FMap.get_set_same] at r2
  obtain ⟨rfl, rfl⟩ := r2
  subst e3
  have hg : FMap.get (FMap.set (FMap.set [] strK 1) strK 2) strK2 = none := by decide
  simp only [MStepX, MStep] at r4
  obtain ⟨rfl, rfl⟩ := r4
  simp [modifyTest, okAll, FMap.get_set_same]

example : Near (byteStream toyHash 0#64 id) strK strK2 := ⟨2, by decide, by decide +kernel⟩

/-! ### TestCanonicalStructure -/

/-- The calls of each of the two sets (amt_test.go:103-109). -/
def canonOps (N : Nat) : List (SOp IntKey) := (List.range N).map (fun i => SOp.add (ikey i)) ++ [.dep]

/-- TestCanonicalStructure (amt_test.go:98-111): two sets with the same seed get the same calls in turn.  (The second one is made
with the seed that it is given in line 102, before its first call.) -/
def canonProg (N : Nat) (sd : Seed) : List (WOp Unit (SOp IntKey)) :=
  .new 0 () sd :: .new 1 () sd :: (canonOps N).flatMap fun op => [.call 0 op, .call 1 op]

/-- The `IntSet`s with keys in `[0, 2^32)`. -/
def intSets32 (sum : Maphash) : Sets IntKey Unit where
  I _ := IntSet sum
  H _ sd := byteStream sum sd intbytes
  P _ sd := IntSmall (byteStream sum sd intbytes)
  inv _ := false
  ex _ := True
  ok _ sd := .int32 sum sd

theorem pairs_trace {ι Op : Type} (ops : List Op) (env : Nat → Option Nat) (n : Nat) (h0 : env 0 = some 0) (h1 : env 1 = some 1) :
    trace (ι := ι) env n (ops.flatMap fun op => [.call 0 op, .call 1 op]) = ops.flatMap fun op => [(some 0, op), (some 1, op)] := by
  induction ops with
  | nil => rfl
  | cons op ops ih => simp [List.flatMap_cons, trace, ih, h0, h1]

theorem pairs_calls {Op : Type} (ops : List Op) {n : Nat} (hn : n < 2) : callsOf n (ops.flatMap fun op => [(some 0, op), (some 1, op)]) = ops := by
  induction ops with
  | nil => rfl
  | cons op ops ih =>
    simp only [callsOf] at ih
    rcases (show n = 0 ∨ n = 1 by omega) with rfl | rfl <;> simp [List.flatMap_cons, callsOf, ih]

theorem pairs_outs {Op Out : Type} (ops : List Op) (os : List Out) (hl : os.length = 2 * ops.length)
    (h : outsOf 0 (ops.flatMap fun op => [(some 0, op), (some 1, op)]) os = outsOf 1 (ops.flatMap fun op => [(some 0, op), (some 1, op)]) os) :
    os = (outsOf 0 (ops.flatMap fun op => [(some 0, op), (some 1, op)]) os).flatMap fun o => [o, o] := by
  induction ops generalizing os with
  | nil =>
    have : os = [] := List.eq_nil_of_length_eq_zero (by simpa using hl)
    subst this
    rfl
  | cons op ops ih =>
    match os, hl with
    | [], hl => simp at hl
    | [_], hl => simp at hl; omega
    | a :: b :: os, hl =>
      simp only [outsOf, List.flatMap_cons, List.cons_append, List.nil_append, List.zip_cons_cons] at h ⊢
      simp at h
      obtain ⟨rfl, h⟩ := h
      have := ih os (by simp at hl ⊢; omega) (by simpa [outsOf] using h)
      simp only [outsOf] at this
      simp
      simpa using this

/-- C78, TestCanonicalStructure: the two sets return the same every time, and so do the two calls of `Dep` at the end. -/
theorem C78_Canonical (sum : Maphash) (sd : Seed) {N : Nat} (hN : N ≤ 2 ^ 32) (hs : Separated (byteStream sum sd intbytes) (Ints N)) {fuel : Nat}
    (hf : 256 ≤ fuel) (s : St IntKey Unit) :
    ∃ env s' os d, wrun SetImpl.New (fun _ h op => (IntSet sum).exec fuel h op) (canonProg N sd) (fun _ => none) s =
      .ok ((os ++ [d, d], env), s') ∧ os.length = 2 * N := by
  have ht : trace (fun _ => none) 0 (canonProg N sd) = (canonOps N).flatMap fun op => [(some 0, op), (some 1, op)] := by
    simp only [canonProg, trace]
    exact pairs_trace _ _ _ rfl rfl
  have hkinds : kinds (canonProg N sd) = [((), sd), ((), sd)] := by
    have : ∀ ops : List (SOp IntKey), kinds (ι := Unit) (ops.flatMap fun op => [.call 0 op, .call 1 op]) = [] := by
      intro ops
      induction ops with
      | nil => rfl
      | cons op ops ih => simp [List.flatMap_cons, kinds, ih]
    simp [canonProg, kinds, this]
  have hlt : ∀ n i sd', (kinds (canonProg N sd))[n]? = some (i, sd') → n < 2 ∧ sd' = sd := by
    intro n i sd' h
    rw [hkinds] at h
    match n, h with
    | 0, h => simp at h; exact ⟨by decide, h.symm⟩
    | 1, h => simp at h; exact ⟨by decide, h.symm⟩
    | n + 2, h => simp at h
  have hcov : SEachNew (byteStream sum sd intbytes) false (IntSmall (byteStream sum sd intbytes)) [] (canonOps N) := by
    refine SEachNew.of_pairs (S := Ints N) (small_of_separated hN hs) (by simp) ?_
    rintro k ⟨op, h1, h2⟩
    rw [canonOps, List.mem_append] at h1
    rcases h1 with h1 | h1
    · obtain ⟨i, hi, rfl⟩ := List.mem_map.1 h1
      rw [SOp.stores, List.mem_singleton] at h2
      exact ⟨i, List.mem_range.1 hi, h2⟩
    · rw [List.mem_singleton] at h1
      subst h1
      simp [SOp.stores] at h2
  obtain ⟨os, env, s', h1, h2, h3⟩ := C33_set (intSets32 sum) hf (canonProg N sd) s (by
      rw [ht]
      intro c hc
      obtain ⟨op, _, h⟩ := List.mem_flatMap.1 hc
      simp at h
      rcases h with rfl | rfl <;> simp) (by
    intro n i sd' hn
    obtain ⟨h2, rfl⟩ := hlt n i sd' hn
    rw [ht, pairs_calls _ h2]
    exact hcov)
  rw [ht] at h2 h3
  obtain ⟨m0, r0⟩ := h3 0 () sd (by rw [hkinds]; rfl)
  obtain ⟨m1, r1⟩ := h3 1 () sd (by rw [hkinds]; rfl)
  rw [pairs_calls _ (by decide)] at r0 r1
  have hl : os.length = 2 * (canonOps N).length := by
    rw [h2, List.length_flatMap]
    simp [List.map_const']
    omega
  have he := pairs_outs (canonOps N) os hl (SRunBy.det trivial (List.Perm.refl _) r0 r1).1
  obtain ⟨os₁, os₂, x, e1, hl1, _, r2⟩ := (runs_iffS.1 r0).append
  obtain ⟨d, os₃, m₂, rfl, _, rfl, _⟩ := r2
  rw [e1, List.flatMap_append] at he
  refine ⟨env, s', os₁.flatMap fun o => [o, o], d, ?_, ?_⟩
  · rw [← show os = (os₁.flatMap fun o => [o, o]) ++ [d, d] from by rw [he]; simp]
    exact h1
  · rw [List.length_flatMap]
    simp [List.map_const', hl1]
    omega

/-! ### TestNestedMap -/

/-- The values of the two maps: numbers, and maps (`none` is the zero value, a nil map). -/
def NVal : Bool → Type
  | false => Int
  | true => Option Nat

/-- `StringMap[int]` and `StringMap[StringMap[int]]` (amt_test.go:45-46). -/
def nestBox (sum : Maphash) : (i : Bool) → Box ByteStr (NVal i)
  | false => .map ⟨(0 : Int)⟩ (Plan.string sum)
  | true => .map ⟨(none : Option Nat)⟩ (Plan.string sum)

abbrev NestProg (sum : Maphash) := TProg Bool (fun _ => ByteStr) NVal (fun i => (nestBox sum i).Op) (fun i => (nestBox sum i).Out) (fun i => (nestBox sum i).X)

/-- `m.Val(x)` of a map of numbers, which may be nil: then it is the zero value (C31_map). -/
def nestVal (sum : Maphash) (m : Option Nat) (x : ByteStr) (k : MOut ByteStr Int → NestProg sum Bool) : NestProg sum Bool :=
  match m with
  | none => k (.one 0)
  | some c => .call false c (.val x : MOp ByteStr Int) k

/-- TestNestedMap (amt_test.go:44-62); `false` where it calls `t.Fatalf`. -/
def nestTest (sum : Maphash) (sd sd' : Seed) : NestProg sum Bool :=
  .new false sd fun m => .new true sd' fun mm =>
  .call false m (.set [118] 1 : MOp ByteStr Int) fun _ =>
  .call true mm (.set [109] (some m) : MOp ByteStr (Option Nat)) fun _ =>
  .call true mm (.val [109] : MOp ByteStr (Option Nat)) fun
    | (.one (some mv) : MOut ByteStr (Option Nat)) =>
      .call false mv (.len : MOp ByteStr Int) fun
      | (.num n : MOut ByteStr Int) => if n ≠ 1#64 then .ret false else
        .call false mv (.get [118] : MOp ByteStr Int) fun
        | (.pair v ok : MOut ByteStr Int) => if ok = false then .ret false else if v ≠ 1 then .ret false else
          .call true mm (.val [109] : MOp ByteStr (Option Nat)) fun
          | (.one mv : MOut ByteStr (Option Nat)) => nestVal sum mv [118] fun
            | (.one v : MOut ByteStr Int) => if v ≠ 1 then .ret false else
              .call true mm (.val [122] : MOp ByteStr (Option Nat)) fun
              | (.one mz : MOut ByteStr (Option Nat)) => nestVal sum mz [118] fun
                | (.one v : MOut ByteStr Int) => .ret (v == 0)
                | _ => .ret false
              | _ => .ret false
            | _ => .ret false
          | _ => .ret false
        | _ => .ret false
      | _ => .ret false
    | _ => .ret false

section
variable {ι : Type} [DecidableEq ι] {K V Op Out X : ι → Type} {R : Type} {κ : ∀ i, Kind (K i) (V i) (Op i) (Out i) (X i)}

theorem runTyped_call {i : ι} {c h : Nat} {op : Op i} {k : Out i → TProg ι K V Op Out X R} {w : TWorlds ι K V} {o : Out i} {t : St (K i) (V i)}
    (h1 : w.objs[c]? = some (i, h)) (h2 : (κ i).exec (some h) op (w.mem c i) = .ok (o, t)) :
    runTyped κ (.call i c op k) w = runTyped κ (k o) (w.put c i t) := by
  rw [runTyped, h1]
  dsimp only
  rw [if_pos rfl, h2]
  rfl

theorem runTyped_new {i : ι} {h : Nat} {sd : Seed} {k : Nat → TProg ι K V Op Out X R} {w : TWorlds ι K V} {t : St (K i) (V i)}
    (h1 : newRoot sd (St.init : St (K i) (V i)) = .ok (some h, t)) :
    runTyped κ (.new i sd k) w = runTyped κ (k w.objs.length) (w.create i h t) := by
  rw [runTyped, h1]
  rfl

end

/-- The calls of a `StringMap` with one key. -/
theorem nest_runs {V : Type} [Inhabited V] (sum : Maphash) (sd : Seed) (k : ByteStr) {fuel : Nat} (hf : 256 ≤ fuel) {ts : Test (MOp ByteStr V) (MOut ByteStr V)}
    (hts : ∀ c ∈ ts, ∀ k' ∈ c.1.stores, k' = k) :
    ∃ h s₁ os s' m, newRoot (K := ByteStr) (V := V) sd St.init = .ok (some h, s₁) ∧
      runOps ((StringMap sum : MapImpl ByteStr V).exec fuel (some h)) (ts.map fun c => c.1) s₁ = .ok (os, s') ∧
      Runs (MStepX (byteStream sum sd id) True id) [] (ts.map fun c => c.1) os m := by
  obtain ⟨h, s₁, os, s', m, h1, h2, h3, h4⟩ := map_runs (V := V) (N := 1) (key := fun _ => k) (.string sum sd) hf
    (by
      rintro m ks k' hks ⟨_, _, rfl⟩ hn
      have : ks = [] := by
        rw [List.eq_nil_iff_forall_not_mem]
        intro k' hk'
        obtain ⟨_, _, rfl⟩ := hks k' hk'
        exact hn hk'
      subst this
      exact ByteFits.of_near (by simp)) (ts := ts) (fun c hc k' hk' => ⟨0, by decide, hts c hc k' hk'⟩) St.init
  match h, h1, h2, h3 with
  | some h, h1, _, h3 => exact ⟨h, s₁, os, s', m, h1, h3, h4⟩

/-- C78, TestNestedMap: it passes, for every hash function and all seeds, with the two maps in one memory. -/
theorem C78_Nested (sum : Maphash) (sd sd' : Seed) {fuel : Nat} (hf : 256 ≤ fuel) (s : St (Σ _ : Bool, ByteStr) (Σ i, NVal i)) :
    outcome (outcome (run (Box.many (nestBox sum) fuel) (erase (nestTest sum sd sd')) EnvW.none s)) = .ok true := by
  rw [C67_mixed]
  letI z : Inhabited (Option Nat) := ⟨none⟩
  letI z' : Inhabited Int := ⟨0⟩
  obtain ⟨h, t₀, os, t, m, a0, a1, a2⟩ := nest_runs (V := Int) sum sd [118] hf
    (ts := [(.set [118] 1, fun _ => true), (.len, fun _ => true), (.get [118], fun _ => true), (.val [118], fun _ => true)]) (by simp [MOp.stores])
  obtain ⟨h', u₀, os', u, m', b0, b1, b2⟩ := nest_runs (V := Option Nat) sum sd' [109] hf
    (ts := [(.set [109] (some 0), fun _ => true), (.val [109], fun _ => true), (.val [109], fun _ => true), (.val [122], fun _ => true)]) (by simp [MOp.stores])
  obtain ⟨o₁, t₁, _, a3, ac1, rfl⟩ := runOps_cons a1
  obtain ⟨o₂, t₂, _, a4, ac2, rfl⟩ := runOps_cons ac1
  obtain ⟨o₃, t₃, _, a5, ac3, rfl⟩ := runOps_cons ac2
  obtain ⟨o₄, t₄, _, a6, ac4, rfl⟩ := runOps_cons ac3
  obtain ⟨p₁, u₁, _, b3, bc1, rfl⟩ := runOps_cons b1
  obtain ⟨p₂, u₂, _, b4, bc2, rfl⟩ := runOps_cons bc1
  obtain ⟨p₃, u₃, _, b5, bc3, rfl⟩ := runOps_cons bc2
  obtain ⟨p₄, u₄, _, b6, bc4, rfl⟩ := runOps_cons bc3
  obtain ⟨_, _, m1, e, r1, _, _, m2, e2, r2, _, _, m3, e3, r3, _, _, m4, e4, r4, _⟩ := a2
  obtain ⟨_, _, n1, e', q1, _, _, n2, e2', q2, _, _, n3, e3', q3, _, _, n4, e4', q4, _⟩ := b2
  cases e; cases e2; cases e3; cases e4; cases e'; cases e2'; cases e3'; cases e4'
  have f1 : m1 = FMap.set [] [118] 1 := by rcases r1.2 with ⟨_, _, h⟩ | ⟨_, h⟩ <;> exact h
  have g1 : n1 = FMap.set [] [109] (some 0) := by rcases q1.2 with ⟨_, _, h⟩ | ⟨_, h⟩ <;> exact h
  subst f1 g1
  obtain ⟨rfl, rfl⟩ := r2
  obtain ⟨rfl, rfl⟩ := r3
  obtain ⟨rfl, rfl⟩ := r4
  obtain ⟨rfl, rfl⟩ := q2
  obtain ⟨rfl, rfl⟩ := q3
  obtain ⟨rfl, rfl⟩ := q4
  have e : runTyped (fun i => (nestBox sum i).kind fuel) (nestTest sum sd sd') TWorlds.none =
      .ok (true, (((((((((TWorlds.none.create false h t₀).create true h' u₀).put 0 false t₁).put 1 true u₁).put 1 true u₂).put 0 false t₂).put 0 false t₃).put 1 true u₃).put 0 false t₄).put 1 true u₄) := by
    refine (runTyped_new (i := false) a0).trans ?_
    refine (runTyped_new (i := true) b0).trans ?_
    refine (runTyped_call (i := false) (h := h) (t := t₁) rfl a3).trans ?_
    refine (runTyped_call (i := true) (h := h') (t := u₁) rfl b3).trans ?_
    refine (runTyped_call (i := true) (h := h') (t := u₂) rfl b4).trans ?_
    refine (runTyped_call (i := false) (h := h) (t := t₂) rfl a4).trans ?_
    refine (runTyped_call (i := false) (h := h) (t := t₃) rfl a5).trans ?_
    refine (runTyped_call (i := true) (h := h') (t := u₃) rfl b5).trans ?_
    refine (runTyped_call (i := false) (h := h) (t := t₄) rfl a6).trans ?_
    refine (runTyped_call (i := true) (h := h') (t := u₄) rfl b6).trans ?_
    rfl
  rw [e]
  rfl

/-! ### The hypotheses can be met

With a hash function that is the number itself, the tests pass with the one million keys of the package. -/

theorem near_of_digest {K : Type} {H : K → Nat → BitVec 64} {a b : K} (h : H a 0 ≠ H b 0) : Near H a b := by
  refine Classical.byContradiction fun hn => h ?_
  have h1 : ∀ i, i < 16 → (H a 0).toNat / 16 ^ i % 16 = (H b 0).toNat / 16 ^ i % 16 := by
    intro i hi
    refine Classical.byContradiction fun hne => hn ⟨i, by omega, ?_⟩
    simpa [nibble, Nat.div_eq_of_lt hi, Nat.mod_eq_of_lt hi] using hne
  have h2 := mod_of_digits h1
  rw [Nat.mod_eq_of_lt (by have := (H a 0).isLt; omega), Nat.mod_eq_of_lt (by have := (H b 0).isLt; omega)] at h2
  exact BitVec.eq_of_toNat_eq h2

/-- The number that a string of digits stands for. -/
def decHash : Maphash := fun _ bs => BitVec.ofNat 64 (bs.foldl (fun n b => 10 * n + (b.toNat - 48)) 0)

theorem decHash_itoa (n : Nat) : (itoa n).foldl (fun n b => 10 * n + (b.toNat - 48)) 0 = n := by
  induction n using Nat.strongRecOn with
  | _ n ih =>
    rw [itoa]
    split
    · simp
      omega
    · rw [List.foldl_append, ih (n / 10) (by omega)]
      simp
      omega

theorem decHash_separated {N : Nat} (hN : N ≤ 2 ^ 64) : Separated (byteStream decHash 0#64 id) (Decimals N) := by
  rintro a b ⟨i, hi, rfl⟩ ⟨j, hj, rfl⟩ hab
  refine near_of_digest fun e => hab ?_
  have hd : ∀ n, byteStream decHash 0#64 id (itoa n) 0 = BitVec.ofNat 64 n := by
    intro n
    show BitVec.ofNat 64 (([itoa n] : List (List UInt8)).flatten.foldl _ 0) = _
    rw [List.flatten_singleton, decHash_itoa]
  rw [hd, hd] at e
  have := congrArg BitVec.toNat e
  rw [BitVec.toNat_ofNat, BitVec.toNat_ofNat] at this
  rw [Nat.mod_eq_of_lt (by omega), Nat.mod_eq_of_lt (by omega)] at this
  rw [this]

theorem toyHash_ikey {i : Nat} (hi : i < 2 ^ 63) (sd : Seed) : toyHash sd (intbytes (ikey i)) = ikey i := by
  have hb : ∀ n, (intbyte (ikey i) n).toNat = i / 2 ^ n % 256 := by
    intro n
    have hm : (ikey i).msb = false := by
      rw [BitVec.msb_eq_false_iff_two_mul_lt, ikey, BitVec.toNat_ofNat]
      omega
    show ((ikey i).sshiftRight n |>.setWidth 8).toNat = _
    rw [BitVec.sshiftRight_eq_of_msb_false hm]
    simp [ikey, Nat.shiftRight_eq_div_pow]
    rw [Nat.mod_eq_of_lt (show i < 18446744073709551616 by omega)]
  have : ikey i = BitVec.ofNat 64 i := rfl
  simp only [toyHash, intbytes, List.take, List.foldr, hb]
  rw [this]
  congr 1
  omega

theorem toyHash_separated {N : Nat} (hN : N ≤ 2 ^ 63) : Separated (byteStream toyHash 0#64 intbytes) (Ints N) := by
  rintro a b ⟨i, hi, rfl⟩ ⟨j, hj, rfl⟩ hab
  refine near_of_digest fun e => hab ?_
  have hd : ∀ n, n < 2 ^ 63 → byteStream toyHash 0#64 intbytes (ikey n) 0 = ikey n := by
    intro n hn
    show toyHash 0#64 ([intbytes (ikey n)] : List (List UInt8)).flatten = _
    rw [List.flatten_singleton, toyHash_ikey hn]
  rwa [hd i (by omega), hd j (by omega)] at e

example := C78_StringMap decHash 0#64 (N := 1000000) (by decide) (by decide) (by decide) (decHash_separated (by decide)) (Nat.le_refl 256) St.init
example := C78_StringSet decHash 0#64 (N := 1000000) (by decide) (by decide) (by decide) (decHash_separated (by decide)) (Nat.le_refl 256) St.init
example := C78_IntMap toyHash 0#64 (N := 1000000) (by decide) (by decide) (by decide) (toyHash_separated (by decide)) (Nat.le_refl 256) St.init
example := C78_IntSet toyHash 0#64 (N := 1000000) (by decide) (by decide) (by decide) (toyHash_separated (by decide)) (Nat.le_refl 256) St.init
example := C78_BytesSet_fails decHash 0#64 (N := 1000000) (by decide) (by decide) (decHash_separated (by decide)) (Nat.le_refl 256) St.init
example := C78_BytesMap decHash 0#64 (N := 1000000) (by decide) (by decide) (by decide) (decHash_separated (by decide)) (Nat.le_refl 256) St.init
example := C78_ArrMap_fails toyHash 0#64 (N := 1000000) intbytes ikey (fun _ _ hi hj h => ikey_inj (by omega) (by omega) h) (by decide) (toyHash_separated (by decide))
  (Nat.le_refl 256) St.init
example := C78_ArrSet toyHash 0#64 (N := 1000000) intbytes ikey (fun _ _ hi hj h => ikey_inj (by omega) (by omega) h) (by decide) (by decide) (by decide)
  (toyHash_separated (by decide)) (Nat.le_refl 256) St.init
example := C78_Canonical toyHash 0#64 (N := 1000000) (by decide) (toyHash_separated (by decide)) (Nat.le_refl 256) St.init
example := C78_Nested toyHash 0#64 1#64 (Nat.le_refl 256) St.init

-- Run: with four keys the test fails, because their mean depth is 0.
example : (testMap (StringMap decHash) 256 itoa 4 0#64 St.init).toOption.map (·.1) = some false := by decide +kernel
-- Run: TestModify and TestNestedMap.
example : (onNewMap (StringMap toyHash) 256 0#64 modifyTest St.init).toOption.map (·.1) = some true := by decide +kernel
example : (outcome (outcome (run (Box.many (nestBox toyHash) 256) (erase (nestTest toyHash 0#64 1#64)) EnvW.none St.init))).toOption = some true := by decide +kernel

end Amt
