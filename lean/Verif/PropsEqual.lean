/-
Keys that are equal without being identical (C76), and keys that are not equal to themselves (C77).
-/
import Verif.PropsOpaque
import Verif.PropsLoose
import Verif.PropsGo
import Verif.BugsLoose

set_option linter.unusedVariables false
set_option linter.unusedSectionVars false

namespace Spec

/-- `cls` sends keys to the same class if and only if `Equal` says that they are equal, and the digests depend on the class
only. -/
structure Classes {K C : Type} (J : Amt.KeyImpl K) (J' : Amt.KeyImpl C) (cls : K → C) : Prop where
  same : ∀ a b, J.equal a b = true ↔ cls a = cls b
  lawful : ∀ a b, J'.equal a b = true ↔ a = b
  hash : ∀ k s n, J'.hash (cls k) s n = J.hash k s n

end Spec

namespace Amt
open Spec

section
variable {K C V : Type}

/-- Every equivalence relation that the digests respect has classes. -/
theorem exists_classes (J : KeyImpl K) (he : Equivalence fun a b => J.equal a b = true)
    (hh : ∀ a b, J.equal a b = true → ∀ s n, J.hash a s n = J.hash b s n) :
    ∃ (C : Type) (J' : KeyImpl C) (cls : K → C), Classes J J' cls ∧ ∀ c, ∃ k, cls k = c := by
  classical
  let S : Setoid K := ⟨_, he⟩
  refine ⟨Quotient S, { equal := fun a b => decide (a = b), hash := fun q s n => Quotient.lift (fun k => J.hash k s n) (fun a b h => hh a b h s n) q },
    Quotient.mk S, ⟨fun a b => ⟨fun h => Quotient.sound h, fun h => Quotient.exact h⟩, fun a b => by simp, fun k s n => rfl⟩,
    fun c => Quotient.inductionOn c fun k => ⟨k, rfl⟩⟩

theorem _root_.Spec.Classes.equal {J : KeyImpl K} {J' : KeyImpl C} {cls : K → C} (hc : Classes J J' cls) (a b : K) : J'.equal (cls a) (cls b) = J.equal a b := by
  rw [Bool.eq_iff_iff, hc.lawful, hc.same]

variable [Inhabited V] [DecidableEq C] {fuel : Nat}

theorem ok_of_mapAns {ε α β : Type} {h : α → β} {x : Except ε (List α)} {os' : List β} (e : .ok os' = mapAns h x) : ∃ os, x = .ok os ∧ os' = os.map h := by
  cases x with
  | error => cases e
  | ok os => cases e; exact ⟨os, rfl, rfl⟩

/-- C76, maps: if `Equal` is an equivalence relation that the digests respect, a generic map behaves as a finite map from the classes
of keys, on the histories covered by C05 (`ops'` is the history with the classes in place of the keys; callbacks of `All` must treat equal keys alike). -/
theorem C76_Map {J : KeyImpl K} {J' : KeyImpl C} {cls : K → C} (hc : Classes J J' cls) (sd : Seed) {ops' : List (MOp C V)} {ops : List (MOp K V)}
    (ho : Each (OpI cls id) ops' ops) (hn : EachNew (GenFits fun k n => J'.hash k sd n) [] ops') (hf : 256 ≤ fuel) :
    ∃ os m, answers ((GenericMap J).session fuel sd ops St.init) = .ok os ∧ MRun [] ops' (os.map (mapOut cls id)) m := by
  obtain ⟨os', s', m, h1, h2⟩ := C05_Map_partial sd J' hc.lawful ops' hn hf St.init
  have h3 := C71_Map (f := cls) (g := id) hc.equal hc.hash rfl fuel sd ho
  rw [Go.answers_ok h1] at h3
  obtain ⟨os, h4, rfl⟩ := ok_of_mapAns h3
  exact ⟨os, m, h4, h2⟩

/-- C76, sets. -/
theorem C76_Set {J : KeyImpl K} {J' : KeyImpl C} {cls : K → C} (hc : Classes J J' cls) (sd : Seed) {ops' : List (SOp C)} {ops : List (SOp K)}
    (ho : Each (SOpI cls) ops' ops) (hn : SEachNew (fun k n => J'.hash k sd n) false (GenFits (fun k n => J'.hash k sd n) false) [] ops') (hf : 256 ≤ fuel) :
    ∃ os m, answers ((GenericSet J).session fuel sd ops St.init) = .ok os ∧ SRun [] ops' (os.map (mapSOut cls)) m := by
  obtain ⟨os', s', m, h1, h2⟩ := C10_Set_partial sd J' hc.lawful ops' hn hf St.init
  have h3 := C71_Set (f := cls) hc.equal hc.hash fuel sd ho
  rw [Go.answers_ok h1] at h3
  obtain ⟨os, h4, rfl⟩ := ok_of_mapAns h3
  exact ⟨os, m, h4, h2⟩

/-- C76, maps, on every history, as in C48: a map from the classes in which classes may be lost. -/
theorem C76_Map_every {J : KeyImpl K} {J' : KeyImpl C} {cls : K → C} (hc : Classes J J' cls) (sd : Seed) {m : Nat} (hm : 0 < m)
    {ops' : List (MOp C V)} {ops : List (MOp K V)} (ho : Each (OpI cls id) ops' ops)
    (hS : TwiceApart (fun k n => J'.hash k sd n) (Stores ops') m) (hf : 256 ≤ fuel) :
    ∃ os E, answers ((GenericMap J).session fuel sd ops St.init) = .ok os ∧
      GRun (fun k n => J'.hash k sd n) [] ops' (os.map (mapOut cls id)) E := by
  obtain ⟨os', s', E, h1, h2⟩ := C48_Map J' hc.lawful sd hm hS St.init
  have h3 := C71_Map (f := cls) (g := id) hc.equal hc.hash rfl fuel sd ho
  rw [Go.answers_ok (h2 fuel hf)] at h3
  obtain ⟨os, h4, rfl⟩ := ok_of_mapAns h3
  exact ⟨os, E, h4, h1⟩

/-- C76, sets, on every history, as in C49. -/
theorem C76_Set_every {J : KeyImpl K} {J' : KeyImpl C} {cls : K → C} (hc : Classes J J' cls) (sd : Seed) {m : Nat} (hm : 0 < m)
    {ops' : List (SOp C)} {ops : List (SOp K)} (ho : Each (SOpI cls) ops' ops)
    (hS : TwiceApart (fun k n => J'.hash k sd n) (SStores ops') m) (hf : 256 ≤ fuel) :
    ∃ os E, answers ((GenericSet J).session fuel sd ops St.init) = .ok os ∧
      SGRun (fun k n => J'.hash k sd n) [] ops' (os.map (mapSOut cls)) E := by
  obtain ⟨os', s', E, h1, h2⟩ := C49_Set J' hc.lawful sd hm hS St.init
  have h3 := C71_Set (f := cls) hc.equal hc.hash fuel sd ho
  rw [Go.answers_ok (h2 fuel hf)] at h3
  obtain ⟨os, h4, rfl⟩ := ok_of_mapAns h3
  exact ⟨os, E, h4, h1⟩

/-- C76 of the translation of generic_map.go. -/
theorem C76_code {J : KeyImpl K} {J' : KeyImpl C} {cls : K → C} (hc : Classes J J' cls) (sd : Seed) {ops' : List (MOp C V)} {ops : List (MOp K V)}
    (ho : Each (OpI cls id) ops' ops) (hn : EachNew (GenFits fun k n => J'.hash k sd n) [] ops') (hf : 256 ≤ fuel) :
    ∃ os m, answers ((Go.map J).session fuel sd ops St.init) = .ok os ∧ MRun [] ops' (os.map (mapOut cls id)) m := by
  obtain ⟨os, m, h1, h2⟩ := C76_Map hc sd ho hn hf
  exact ⟨os, m, (Go.MapCodeOf.generic J).transfer h1, h2⟩

end

/-! ### Keys that are equal to nothing -/

section
variable {K V : Type} {c : Cfg K} {h fuel : Nat} {k : K}

theorem lookup_unequal (hk : ∀ x, c.eq k x = false) {s s' : St K V} {p : Option Ptr} (e : lookup c h fuel k s = .ok (p, s')) : p = none := by
  rw [lookup, bind_ok (getRoot_run h s)] at e
  cases e1 : search c (s.roots h).seed k fuel (start c (s.roots h).seed k h) s with
  | error x => rw [bind_err e1] at e; cases e
  | ok r =>
    obtain ⟨⟨cur, hit⟩, s1⟩ := r
    rw [bind_ok e1] at e
    cases hit with
    | false => cases e; rfl
    | true =>
      simp only [if_true] at e
      cases e2 : itemRef cur s1 with
      | error x => rw [bind_err e2] at e; cases e
      | ok r =>
        obtain ⟨item, s2⟩ := r
        rw [bind_ok e2] at e
        cases e3 : load item s2 with
        | error x => rw [bind_err e3] at e; cases e
        | ok r =>
          obtain ⟨x, s3⟩ := r
          rw [bind_ok e3] at e
          cases e4 : readKey c x s3 with
          | error x => rw [bind_err e4] at e; cases e
          | ok r =>
            obtain ⟨k', s4⟩ := r
            rw [bind_ok e4, hk k', if_neg (by decide)] at e
            cases e; rfl

variable [Inhabited V] {J : KeyImpl K}

/-- C77, maps: in any memory, a key that is not equal to any key (in Go, one with a NaN in it) is not found, also
right after it has been set: `Get`, `Val`, `Ptr`, writes and `Del` of it do nothing; every `Set` or `Mod` of it that returns adds an
entry. -/
theorem C77_Map (hk : ∀ x, J.equal k x = false) (s : St K V) :
    (∀ o s₀, (GenericMap J : MapImpl K V).exec fuel (some h) (.get k) s = .ok (o, s₀) →
      s₀ = s ∧ o = .pair default false ∧ (GenericMap J : MapImpl K V).exec fuel (some h) (.val k) s = .ok (.one default, s) ∧
      (GenericMap J : MapImpl K V).exec fuel (some h) (.ptr k) s = .ok (.opt none, s) ∧
      (∀ v, (GenericMap J).exec fuel (some h) (.write k v) s = .ok (.unit, s)) ∧
      (GenericMap J : MapImpl K V).exec fuel (some h) (.del k) s = .ok (.unit, s)) ∧
    (∀ v o s₁, (GenericMap J).exec fuel (some h) (.set k v) s = .ok (o, s₁) →
      ∀ n, LenIs (GenericMap J) fuel h s n → LenIs (GenericMap J) fuel h s₁ (n + 1#64)) ∧
    (∀ f o s₁, (GenericMap J).exec fuel (some h) (.mod k f) s = .ok (o, s₁) → o = .calls [(default, false)] ∧
      ∀ n, LenIs (GenericMap J) fuel h s n → LenIs (GenericMap J) fuel h s₁ (n + 1#64)) := by
  have hI : IsMap (GenericMap J : MapImpl K V) false := .generic J
  have miss : ∀ o s₀, (GenericMap J : MapImpl K V).exec fuel (some h) (.get k) s = .ok (o, s₀) → o = .pair default false ∧ s₀ = s := by
    intro o s₀ e
    rcases get_form _ e with ⟨v, b, e'⟩ | ⟨x, e'⟩
    · cases e'
      rcases get_lookup e with ⟨_, ⟨rfl, rfl, _⟩ | ⟨rfl, a, ko, hl, _⟩⟩
      · exact ⟨rfl, rfl⟩
      · cases lookup_unequal (c := (GenericMap J : MapImpl K V).cfg) hk hl
    · cases e'
  refine ⟨fun o s₀ e => ?_, fun v o s₁ e n hn => ?_, fun f o s₁ e => ?_⟩
  · obtain ⟨rfl, rfl⟩ := miss _ _ e
    obtain ⟨_, _, h1, h2, h3, h4⟩ := C56_missing hI e
    exact ⟨rfl, rfl, h1, h2, h3, h4⟩
  · cases hg : (GenericMap J : MapImpl K V).exec fuel (some h) (.get k) s with
    | error x => rw [(C57_faults hI hg).2.2.2.1 v] at e; cases e
    | ok r =>
      obtain ⟨o', s'⟩ := r
      obtain ⟨rfl, rfl⟩ := miss _ _ hg
      rcases ((C56_insert hI hg).2 v e).2.1 n hn with h1 | ⟨h1, _⟩
      · exact h1
      · cases h1
  · cases hg : (GenericMap J : MapImpl K V).exec fuel (some h) (.get k) s with
    | error x => rw [(C57_faults hI hg).2.2.2.2.1 f] at e; cases e
    | ok r =>
      obtain ⟨o', s'⟩ := r
      obtain ⟨rfl, rfl⟩ := miss _ _ hg
      obtain ⟨h1, h2, _⟩ := (C56_insert hI hg).1 f e
      refine ⟨h1, fun n hn => ?_⟩
      rcases h2 n hn with h3 | ⟨h3, _⟩
      · exact h3
      · cases h3

end

section
variable {K : Type} {h fuel : Nat} {k : K} {J : KeyImpl K}

/-- C77, sets. -/
theorem C77_Set (hk : ∀ x, J.equal k x = false) (s : St K Unit) :
    (∀ o s₀, (GenericSet J).exec fuel (some h) (.has k) s = .ok (o, s₀) →
      s₀ = s ∧ o = .bool false ∧ (GenericSet J).exec fuel (some h) (.del k) s = .ok (.unit, s)) ∧
    (∀ o s₁, (GenericSet J).exec fuel (some h) (.add k) s = .ok (o, s₁) →
      ∀ n, SLenIs (GenericSet J) fuel h s n → SLenIs (GenericSet J) fuel h s₁ (n + 1#64)) := by
  have hI : IsSet (GenericSet J) false := .generic J
  have miss : ∀ o s₀, (GenericSet J).exec fuel (some h) (.has k) s = .ok (o, s₀) → o = .bool false ∧ s₀ = s := by
    intro o s₀ e
    rcases has_form (I := GenericSet J) (fuel := fuel) (h := h) (k := k) (s := s) rfl with ⟨b, _, e'⟩ | ⟨x, _, e'⟩
    · rw [e] at e'
      cases e'
      obtain ⟨_, p, hl, rfl⟩ := has_lookup e
      rw [lookup_unequal (c := (GenericSet J).cfg) hk hl]
      exact ⟨rfl, rfl⟩
    · rw [e] at e'; cases e'
  refine ⟨fun o s₀ e => ?_, fun o s₁ e n hn => ?_⟩
  · obtain ⟨rfl, rfl⟩ := miss _ _ e
    exact ⟨rfl, rfl, (C56_set hI e).2.2.1 rfl⟩
  · cases hg : (GenericSet J).exec fuel (some h) (.has k) s with
    | error x => rw [(C57_set hg).1] at e; cases e
    | ok r =>
      obtain ⟨o', s'⟩ := r
      obtain ⟨rfl, rfl⟩ := miss _ _ hg
      exact ((C56_set hI hg).2.1 o s₁ e).2.1 n hn

end

/-- A key that is not equal to itself. -/
def nanKey : KeyImpl Unit where
  equal _ _ := false
  hash _ _ _ := 5#64

theorem nan_persist (sd : Seed) : Persist (genericCfg nanKey) sd () () fun d hd chd w cw => hd = chd := by
  rintro d hd chd w cw rfl
  refine ⟨?_, ?_⟩
  · by_cases hc : (d + 1) % 256 % 16 ≠ 0
    · rw [if_pos hc, if_pos hc]
    · rw [if_neg hc, if_neg hc]; rfl
  · by_cases hc : (d + 1) % 256 % 16 ≠ 0
    · rw [if_pos hc, if_pos hc]
    · rw [if_neg hc, if_neg hc]; rfl

/-- C77: and the second `Set` of such a key never returns. -/
theorem C77_hangs (fuel : Nat) :
    (GenericMap nanKey).session fuel 0#64 [.set () 1, .set () (2 : Nat)] St.init = .error .diverge := by
  cases fuel with
  | zero => rfl
  | succ n =>
    have h1 : ∃ s1, MapImpl.New (K := Unit) (V := Nat) 0#64 St.init = .ok (some 0, s1) ∧ ∃ s2, (GenericMap nanKey).exec (n + 1) (some 0) (.set () 1) s1 = .ok (.unit, s2) ∧
      ∃ cur, search (genericCfg nanKey) 0#64 () (n+1) (start (genericCfg nanKey) 0#64 () 0) s2 = .ok ((cur, true), s2) ∧
      ∃ item x, itemRef cur s2 = .ok (item, s2) ∧ load item s2 = .ok (x, s2) ∧ readKey (genericCfg nanKey) x s2 = .ok ((), s2) ∧ Live s2 item ∧ Live s2 cur.l ∧ cur.hd = 5#64 ∧ cur.d = 0 ∧ (s2.roots 0).seed = 0#64 :=
      ⟨_, rfl, _, rfl, _, rfl, _, _, rfl, rfl, rfl, ⟨_, _, _, _, rfl, by decide, rfl, rfl⟩, ⟨_, _, _, _, rfl, by decide, rfl, rfl⟩, rfl, rfl, rfl⟩
    obtain ⟨s1, e1, s2, e2, cur, e3, item, x, e4, e5, e6, l1, l2, hhd, hd, hseed⟩ := h1
    have key : (GenericMap nanKey).exec (n + 1) (some 0) (.set () 2) s2 = .error .diverge := by
      show ((upsert (genericCfg nanKey) 0 (n + 1) () ((GenericMap nanKey).setI () 2)) >>= fun _ => pure MOut.unit) s2 = _
      rw [bind_err]
      rw [upsert, bind_ok (getRoot_run 0 s2), hseed, bind_ok e3]
      simp only [if_true]
      rw [conflict, bind_ok e4, bind_ok e5, bind_ok e6, if_neg (by decide)]
      obtain ⟨w, e7⟩ : ∃ w, ((GenericMap nanKey).setI () 2).chash 0#64 () () cur.d (n + 1) = .ok (5#64, w) := by rw [hd]; exact ⟨_, rfl⟩
      rw [bind_ok (liftE_ok e7 s2)]
      simp only
      rw [if_neg (fun h => by cases h.1)]
      obtain ⟨s3, g1, l3⟩ := l2.modLink (fun y => { y with tmap := y.tmap &&& ~~~bitOf (radixOf cur.hd) })
      rw [bind_ok g1, bind_ok (modRoot_run 0 _ s3)]
      refine split_diverge (nan_persist 0#64) 0 _ _ _ _ _ _ _ _ _ _ ?_ hhd
      obtain ⟨b, i, xs, x, q1, q2, q3, q4⟩ := l3 _ l1
      exact ⟨b, i, xs, x, q1, q2, q3, q4⟩
    rw [MapImpl.session, bind_ok e1, bind_err]
    rw [MapImpl.run, bind_ok e2, bind_err]
    rw [MapImpl.run, bind_err key]

/-! ### Instances -/

/-- Numbers with a mark that `Equal` and `Hash` ignore, as a spelling. -/
def spelled : KeyImpl (Nat × Nat) where
  equal a b := decide (a.1 = b.1)
  hash k := onceKey.hash k.1

theorem spelled_classes : Classes spelled onceKey Prod.fst :=
  ⟨fun a b => by simp [spelled], fun a b => by simp [onceKey], fun k s n => rfl⟩

def exSpelled : List (MOp (Nat × Nat) Nat) :=
  [.set (1, 0) 5, .set (1, 7) 6, .get (1, 9), .set (0x11, 2) 8, .del (0x11, 3), .mod (1, 4) (fun v b => if b then v + 1 else 0), .len]

def exSpelledC : List (MOp Nat Nat) :=
  [.set 1 5, .set 1 6, .get 1, .set 0x11 8, .del 0x11, .mod 1 (fun v b => if b then v + 1 else 0), .len]

theorem exSpelled_each : Each (OpI Prod.fst id) exSpelledC exSpelled :=
  .cons (.set (1, 0) 5) (.cons (.set (1, 7) 6) (.cons (.get (1, 9)) (.cons (.set (0x11, 2) 8) (.cons (.del (0x11, 3))
    (.cons (.mod (1, 4) fun v b => rfl) (.cons .len .nil))))))

example := C76_Map spelled_classes 0#64 exSpelled_each (by decide +kernel) (Nat.le_refl 256)
example := C76_code spelled_classes 0#64 exSpelled_each (by decide +kernel) (Nat.le_refl 256)

/-- What they answer. -/
example : answers ((GenericMap spelled).session 256 0#64 exSpelled St.init) =
    .ok [.unit, .unit, .pair 6 true, .unit, .unit, .calls [(6, true)], .num 1#64] := by decide +kernel

theorem exSpelledS_each : Each (SOpI Prod.fst) [.add 1, .add 0x11, .has 1, .del 0x11, .len] [.add (1, 0), .add (0x11, 2), .has (1, 9), .del (0x11, 3), .len] :=
  .cons (.add (1, 0)) (.cons (.add (0x11, 2)) (.cons (.has (1, 9)) (.cons (.del (0x11, 3)) (.cons .len .nil))))

example := C76_Set spelled_classes 0#64 exSpelledS_each (SEachNew'.toX _ (by decide +kernel)) (Nat.le_refl 256)

/-- The same with a hash that depends on the iteration. -/
def spelledX : KeyImpl (Nat × Nat) where
  equal a b := decide (a.1 = b.1)
  hash k := xorKey.hash k.1

theorem spelledX_classes : Classes spelledX xorKey Prod.fst := ⟨fun a b => by simp [spelledX], xorKey_eq, fun k s n => rfl⟩

/-- A history in which a key is lost. -/
example := C76_Map_every (V := Nat) spelledX_classes 0#64 (m := 1) (by decide)
  (ops' := [.set 0x321 1, .set 0x051 2, .set 0x421 3, .set 0x321 4, .get 0x321])
  (ops := [.set (0x321, 0) 1, .set (0x051, 1) 2, .set (0x421, 2) 3, .set (0x321, 3) 4, .get (0x321, 4)])
  (.cons (.set (0x321, 0) 1) (.cons (.set (0x051, 1) 2) (.cons (.set (0x421, 2) 3) (.cons (.set (0x321, 3) 4) (.cons (.get (0x321, 4)) .nil)))))
  (stores_apart (by decide) _) (Nat.le_refl 256)

example := C76_Set_every spelledX_classes 0#64 (m := 1) (by decide)
  (ops' := [.add 0x321, .add 0x051, .add 0x421, .has 0x321, .len])
  (ops := [.add (0x321, 0), .add (0x051, 1), .add (0x421, 2), .has (0x321, 3), .len])
  (.cons (.add (0x321, 0)) (.cons (.add (0x051, 1)) (.cons (.add (0x421, 2)) (.cons (.has (0x321, 3)) (.cons .len .nil)))))
  (xorKey_apart (fun a ⟨op, h1, h2⟩ => by
    simp only [List.mem_cons, List.not_mem_nil, or_false] at h1
    rcases h1 with rfl | rfl | rfl | rfl | rfl <;> simp [SOp.stores] at h2 <;> omega) _) (Nat.le_refl 256)

/-- A key that is not equal to itself: it has been set, is not found, and is there. -/
example : answers ((GenericMap nanKey).session 256 0#64 [.set () 7, .get (), .del (), .len, .all fun _ _ v => (v, true)] St.init) =
    .ok [.unit, .pair 0 false, .unit, .num 1#64, .log [((), 7)]] := by decide +kernel

example := C77_Map (V := Nat) (J := nanKey) (k := ()) (fuel := 256) (h := 0) (fun _ => rfl) St.init

end Amt
