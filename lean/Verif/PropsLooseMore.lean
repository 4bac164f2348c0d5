/-
C50-C52: consequences of `Verif/PropsLoose.lean` that do not mention marks.
-/
import Verif.PropsLoose

set_option linter.unusedVariables false
set_option linter.unusedSectionVars false

namespace Spec

section
variable {K V : Type} [DecidableEq K]

theorem mem_seen {E : Marked K V} {k : K} {v : V} : (k, v) ∈ seen E ↔ (true, k, v) ∈ E := by
  rw [seen, List.mem_map]
  constructor
  · rintro ⟨⟨b, k', v'⟩, h1, h2⟩
    obtain ⟨h3, h4⟩ := List.mem_filter.1 h1
    simp only at h4 h2
    rw [← h2, ← h4]; exact h3
  · exact fun h => ⟨_, List.mem_filter.2 ⟨h, rfl⟩, rfl⟩

theorem seen_perm {X Y : Marked K V} (h : X.Perm Y) : (seen X).Perm (seen Y) := (h.filter _).map _

theorem seen_keys_perm {X Y : Marked K V} (h : X.Perm Y) : (seen X).keys.Perm (seen Y).keys := FMap.keys_perm (seen_perm h)

theorem stored_perm {X Y : Marked K V} (h : X.Perm Y) : (stored X).Perm (stored Y) := h.map _

theorem seen_cons_true (k : K) (v : V) (E : Marked K V) : seen ((true, k, v) :: E) = (k, v) :: seen E := rfl

theorem seen_cons_false (k : K) (v : V) (E : Marked K V) : seen ((false, k, v) :: E) = seen E := rfl

theorem get_congr {m m' : FMap K V} (h : m.Perm m') (hn : m.keys.Nodup) (k : K) : m.get k = m'.get k := FMap.get_perm h hn k

theorem Hides.perm {Q : K → Prop} {X Y : Marked K V} (h : Hides Q X Y) : (stored Y).Perm (stored X) := by
  rcases h with h | ⟨k, v, R, h1, h2, _⟩
  · exact stored_perm h
  · exact (stored_perm h2).trans (stored_perm h1).symm

theorem Hides.nodup {Q : K → Prop} {X Y : Marked K V} (h : Hides Q X Y) (hn : (seen X).keys.Nodup) : (seen Y).keys.Nodup := by
  rcases h with h | ⟨k, v, R, h1, h2, _⟩
  · exact (seen_keys_perm h).nodup_iff.2 hn
  · have := (seen_keys_perm h1).nodup_iff.1 hn
    rw [seen_cons_true, FMap.keys, List.map_cons, List.nodup_cons] at this
    refine (seen_keys_perm h2).nodup_iff.2 ?_
    rw [seen_cons_false]; exact this.2

/-- What changes for searches when an entry goes out of reach. -/
theorem Hides.get {Q : K → Prop} {X Y : Marked K V} (h : Hides Q X Y) (hn : (seen X).keys.Nodup) :
    (∀ x, (seen Y).get x = (seen X).get x) ∨
    ∃ k v, Q k ∧ (seen X).get k = some v ∧ (seen Y).get k = none ∧ (k, v) ∈ stored Y ∧
      ∀ x, x ≠ k → (seen Y).get x = (seen X).get x := by
  rcases h with h' | ⟨k, v, R, h1, h2, hq⟩
  · exact Or.inl fun x => get_congr (seen_perm h') ((seen_keys_perm h').nodup_iff.2 hn) x
  · have hn1 := (seen_keys_perm h1).nodup_iff.1 hn
    rw [seen_cons_true] at hn1
    have hn2 : k ∉ (seen R).keys ∧ (seen R).keys.Nodup := by
      rw [FMap.keys, List.map_cons, List.nodup_cons] at hn1; exact hn1
    have gX : ∀ x, (seen X).get x = FMap.get ((k, v) :: seen R) x := fun x => by
      rw [← seen_cons_true]; exact get_congr (seen_perm h1) hn x
    have gY : ∀ x, (seen Y).get x = FMap.get (seen R) x := fun x => by
      have := seen_perm h2
      rw [seen_cons_false] at this
      exact get_congr this ((FMap.keys_perm this).nodup_iff.2 hn2.2) x
    refine Or.inr ⟨k, v, hq, ?_, ?_, ?_, fun x hx => ?_⟩
    · rw [gX, FMap.get, if_pos rfl]
    · rw [gY, FMap.get_eq_none]; exact hn2.1
    · exact (stored_perm h2).mem_iff.2 (by simp [stored])
    · rw [gX, gY, FMap.get, if_neg hx]

theorem seen_renew (E : Marked K V) (k : K) (v : V) :
    seen (renew E k v) = (seen E).map (fun e => if e.1 = k then (k, v) else e) := by
  induction E with
  | nil => rfl
  | cons e E ih =>
    obtain ⟨b, x, w⟩ := e
    rw [renew, List.map_cons]
    change seen (_ :: renew E k v) = _
    cases b with
    | false => rw [if_neg (by simp), seen_cons_false, seen_cons_false, ih]
    | true =>
      rw [seen_cons_true, List.map_cons]
      by_cases hx : x = k
      · rw [if_pos ⟨rfl, hx⟩, if_pos hx, seen_cons_true, ih]
      · rw [if_neg (fun h => hx h.2), if_neg hx, seen_cons_true, ih]

theorem seen_renew_keys (E : Marked K V) (k : K) (v : V) : (seen (renew E k v)).keys = (seen E).keys := by
  rw [seen_renew, FMap.keys, FMap.keys, List.map_map]
  refine List.map_congr_left (fun e _ => ?_)
  simp only [Function.comp]
  split
  · rename_i h; exact h.symm
  · rfl

theorem get_renew (E : Marked K V) (k : K) (v : V) (x : K) :
    (seen (renew E k v)).get x = if x = k ∧ k ∈ (seen E).keys then some v else (seen E).get x := by
  rw [seen_renew]
  generalize seen E = m
  induction m with
  | nil => simp [FMap.get, FMap.keys]
  | cons e m ih =>
    obtain ⟨a, w⟩ := e
    rw [List.map_cons]
    by_cases ha : a = k
    · subst ha
      simp only [if_true]
      by_cases hx : x = a
      · subst hx; simp [FMap.get, FMap.keys]
      · rw [FMap.get, if_neg hx, FMap.get, if_neg hx, ih, if_neg (fun h => hx h.1), if_neg (fun h => hx h.1)]
    · simp only [if_neg ha]
      rw [FMap.get, FMap.get, ih]
      by_cases hx : x = a
      · subst hx; simp [ha]
      · simp only [hx, if_false]
        have : (k ∈ FMap.keys ((a, w) :: m)) ↔ k ∈ FMap.keys m := by simp [FMap.keys, Ne.symm ha]
        simp only [this]

/-- Storing a value under a key: what searches find. -/
theorem Puts.get {H : K → Nat → BitVec 64} {wrong : K → Nat → BitVec 64} {E E' : Marked K V} {k : K} {v : V}
    (h : Puts H wrong E k v E') (hn : (seen E).keys.Nodup) :
    (seen E').keys.Nodup ∧ (seen E').get k = some v ∧
    ((∀ x, x ≠ k → (seen E').get x = (seen E).get x) ∨
      ∃ y w, y ≠ k ∧ (∃ d, Agree H k y (d + 1) ∧ wrong y d ≠ H y (d / 16)) ∧ (seen E).get k = none ∧ (seen E).get y = some w ∧
        (seen E').get y = none ∧ (y, w) ∈ stored E' ∧ ∀ x, x ≠ k → x ≠ y → (seen E').get x = (seen E).get x) := by
  rw [Puts] at h
  split at h
  · rename_i hk
    subst h
    refine ⟨by rw [seen_renew_keys]; exact hn, by rw [get_renew, if_pos ⟨rfl, hk⟩], Or.inl fun x hx => ?_⟩
    rw [get_renew, if_neg (fun h => hx h.1)]
  · rename_i hk
    obtain ⟨Y, hY, hp⟩ := h
    have hnY := hY.nodup hn
    have hkY : k ∉ (seen Y).keys := by
      intro hm
      rcases hY.get hn with h | ⟨a, w, _, h2, h3, _, h4⟩
      · exact FMap.get_eq_none.1 ((h k).trans (FMap.get_eq_none.2 hk)) hm
      · by_cases ha : k = a
        · subst ha; rw [FMap.get_eq_none.2 hk] at h2; cases h2
        · exact FMap.get_eq_none.1 ((h4 k ha).trans (FMap.get_eq_none.2 hk)) hm
    have hps := seen_perm hp
    rw [seen_cons_true] at hps
    have hn' : (seen E').keys.Nodup := (FMap.keys_perm hps).nodup_iff.2 (by
      rw [FMap.keys, List.map_cons, List.nodup_cons]; exact ⟨hkY, hnY⟩)
    have g : ∀ x, (seen E').get x = FMap.get ((k, v) :: seen Y) x := fun x => get_congr hps hn' x
    refine ⟨hn', by rw [g, FMap.get, if_pos rfl], ?_⟩
    rcases hY.get hn with h | ⟨a, w, h1, h2, h3, h5, h4⟩
    · exact Or.inl fun x hx => by rw [g, FMap.get, if_neg hx, h]
    · have ha : a ≠ k := by
        rintro rfl
        rw [FMap.get_eq_none.2 hk] at h2; cases h2
      refine Or.inr ⟨a, w, ha, h1, FMap.get_eq_none.2 hk, h2, ?_, ?_, fun x hx hxa => by rw [g, FMap.get, if_neg hx, h4 x hxa]⟩
      · rw [g, FMap.get, if_neg ha, h3]
      · exact (stored_perm hp).mem_iff.2 (by simp only [stored, List.map_cons, List.mem_cons]; exact Or.inr h5)

theorem seen_strike (E : Marked K V) (k : K) : seen (strike E k) = (seen E).del k := by
  induction E with
  | nil => rfl
  | cons e E ih =>
    obtain ⟨b, x, w⟩ := e
    cases b with
    | false => rw [strike, List.filter_cons, if_pos (by simp)]; exact ih
    | true =>
      rw [seen_cons_true, FMap.del, List.filter_cons]
      by_cases hx : x = k
      · rw [strike, List.filter_cons, if_neg (by simp [hx]), if_neg (by simp [hx])]; exact ih
      · rw [strike, List.filter_cons, if_pos (by simp [hx]), if_pos (by simp [hx]), seen_cons_true, ← FMap.del, ← ih]; rfl

/-- Deleting a key that is found: what searches find. -/
theorem dels_get {H : K → Nat → BitVec 64} {E E' : Marked K V} {k : K}
    (h : Hides (fun x => Agree H k x 1) E' (strike E k)) (hn : (seen E').keys.Nodup) :
    (∀ x, (seen E').get x = ((seen E).del k).get x) ∨
    ∃ y w, Agree H k y 1 ∧ ((seen E).del k).get y = none ∧ (seen E').get y = some w ∧ (y, w) ∈ stored E ∧
      ∀ x, x ≠ y → (seen E').get x = ((seen E).del k).get x := by
  have hst : ∀ e ∈ stored (strike E k), e ∈ stored E := by
    intro e he
    obtain ⟨a, h1, h2⟩ := List.mem_map.1 he
    exact List.mem_map.2 ⟨a, (List.mem_filter.1 h1).1, h2⟩
  rcases h.get hn with h | ⟨y, w, h1, h2, h3, h5, h4⟩
  · exact Or.inl fun x => by rw [← seen_strike, h]
  · refine Or.inr ⟨y, w, h1, ?_, h2, hst _ h5, fun x hx => ?_⟩
    · rw [← seen_strike]; exact h3
    · rw [← seen_strike]; exact (h4 x hx).symm

theorem seen_keys_eq : ∀ {X Y : Marked K V}, X.map (fun e => e.1) = Y.map (fun e => e.1) → (stored X).keys = (stored Y).keys →
    (seen X).keys = (seen Y).keys := by
  intro X
  induction X with
  | nil => intro Y h _; cases Y <;> simp_all
  | cons x X ih =>
    intro Y h1 h2
    cases Y with
    | nil => simp at h1
    | cons y Y =>
      obtain ⟨b, x, w⟩ := x
      obtain ⟨b', x', w'⟩ := y
      simp only [List.map_cons, List.cons.injEq, stored, FMap.keys] at h1 h2
      obtain ⟨rfl, h1⟩ := h1
      obtain ⟨rfl, h2⟩ := h2
      have := ih h1 h2
      cases b
      · exact this
      · rw [seen_cons_true, seen_cons_true, FMap.keys, FMap.keys, List.map_cons, List.map_cons]
        exact congrArg _ this

variable [Inhabited V]

/-- At any time, searches find at most one entry per key. -/
theorem GStep.nodup {H : K → Nat → BitVec 64} {E E' : Marked K V} {op : MOp K V} {o : MOut K V} (h : GStep H E op o E')
    (hn : (seen E).keys.Nodup) : (seen E').keys.Nodup := by
  cases op with
  | get k => rw [h.2]; exact hn
  | val k => rw [h.2]; exact hn
  | ptr k => rw [h.2]; exact hn
  | len => rw [h.2]; exact hn
  | dep => rw [h.2]; exact hn
  | set k v => exact (Puts.get h.2 hn).1
  | mod k f =>
    simp only [GStep] at h
    split at h
    · exact (Puts.get h.2 hn).1
    · exact (Puts.get h.2 hn).1
  | del k =>
    obtain ⟨_, h⟩ := h
    split at h
    · exact h.2
    · rw [h]; exact hn
  | write k v => rw [h.2, seen_renew_keys]; exact hn
  | all f =>
    obtain ⟨order, h1, _, h3, h4⟩ := h
    rw [seen_keys_eq h3 (by rw [h4, visit_keys]), (seen_keys_perm h1).nodup_iff]
    exact hn

theorem GRun.nodup {H : K → Nat → BitVec 64} {ops : List (MOp K V)} : ∀ {E E' : Marked K V} {os : List (MOut K V)},
    GRun H E ops os E' → (seen E).keys.Nodup → (seen E').keys.Nodup := by
  induction ops with
  | nil => intro E E' os h hn; rw [h.2]; exact hn
  | cons op ops ih => intro E E' os h hn; obtain ⟨o, os', E1, _, h1, h2⟩ := h; exact ih h2 (h1.nodup hn)

theorem GRun.append {H : K → Nat → BitVec 64} {ops ops' : List (MOp K V)} : ∀ {E E' : Marked K V} {os : List (MOut K V)},
    GRun H E (ops ++ ops') os E' → ∃ os₁ os₂ E₁, os = os₁ ++ os₂ ∧ GRun H E ops os₁ E₁ ∧ GRun H E₁ ops' os₂ E' := by
  induction ops with
  | nil => intro E E' os h; exact ⟨[], os, E, rfl, ⟨rfl, rfl⟩, h⟩
  | cons op ops ih =>
    intro E E' os h
    obtain ⟨o, os', E1, rfl, h1, h2⟩ := h
    obtain ⟨os1, os2, E2, rfl, h3, h4⟩ := ih h2
    exact ⟨o :: os1, os2, E2, rfl, ⟨o, os1, E1, rfl, h1, h3⟩, h4⟩

end

end Spec

/-! ### Which data can be found -/

namespace Spec
section
variable {K V : Type} [DecidableEq K]

/-- What the call `op` writes satisfies `P`, if what it is shown does. -/
def MOp.Writes [Inhabited V] (P : K → V → Prop) : MOp K V → Prop
  | .set k v => P k v
  | .write k v => P k v
  | .mod k f => (∀ v, P k v → P k (f v true)) ∧ P k (f default false)
  | .all f => ∀ log k v, P k v → P k (f log k v).1
  | _ => True

/-- What the call `op` answers satisfies `P`. -/
def MOp.Answers (P : K → V → Prop) : MOp K V → MOut K V → Prop
  | .get k, o => ∀ v, o = .pair v true → P k v
  | .ptr k, o => ∀ v, o = .opt (some v) → P k v
  | .mod k _, o => ∀ l, o = .calls l → ∀ v, (v, true) ∈ l → P k v
  | .all _, o => ∀ l, o = .log l → ∀ e ∈ l, P e.1 e.2
  | _, _ => True

def Holds (P : K → V → Prop) (m : FMap K V) : Prop := ∀ e ∈ m, P e.1 e.2

theorem Holds.get {P : K → V → Prop} {m : FMap K V} (h : Holds P m) {k : K} {v : V} (hg : m.get k = some v) : P k v := by
  induction m with
  | nil => cases hg
  | cons e m ih =>
    obtain ⟨a, w⟩ := e
    rw [FMap.get] at hg
    split at hg
    · rename_i hk
      cases hg; subst hk
      exact h _ (List.mem_cons_self ..)
    · exact ih (fun e he => h e (List.mem_cons_of_mem _ he)) hg

theorem Holds.seen {P : K → V → Prop} {E : Marked K V} (h : Holds P (stored E)) : Holds P (seen E) := by
  rintro e he
  obtain ⟨a, h1, h2⟩ := List.mem_map.1 he
  exact h e (List.mem_map.2 ⟨a, (List.mem_filter.1 h1).1, h2⟩)

theorem Holds.renew {P : K → V → Prop} {E : Marked K V} {k : K} {v : V} (h : Holds P (stored E)) (hv : P k v) :
    Holds P (stored (renew E k v)) := by
  intro e he
  obtain ⟨a, h1, h2⟩ := List.mem_map.1 he
  obtain ⟨b, h3, h4⟩ := List.mem_map.1 h1
  split at h4
  · rw [← h2, ← h4]; exact hv
  · rw [← h2, ← h4]; exact h _ (List.mem_map.2 ⟨b, h3, rfl⟩)

theorem Holds.puts {P : K → V → Prop} {H : K → Nat → BitVec 64} {wrong : K → Nat → BitVec 64} {E E' : Marked K V} {k : K} {v : V}
    (h : Holds P (stored E)) (hp : Puts H wrong E k v E') (hv : P k v) : Holds P (stored E') := by
  rw [Puts] at hp
  split at hp
  · rw [hp]; exact h.renew hv
  · obtain ⟨Y, h1, h2⟩ := hp
    intro e he
    have := (stored_perm h2).mem_iff.1 he
    rcases List.mem_cons.1 this with rfl | h3
    · exact hv
    · exact h e (h1.perm.mem_iff.1 h3)

variable [Inhabited V]

theorem visit_holds {P : K → V → Prop} {f : List (K × V) → K → V → V × Bool} (hf : ∀ log k v, P k v → P k (f log k v).1)
    (es : List (K × V)) : ∀ log, Holds P es → Holds P log → Holds P (visit f log es).1 ∧ Holds P (visit f log es).2 := by
  induction es with
  | nil => intro log _ h; exact ⟨h, fun e he => by cases he⟩
  | cons e es ih =>
    intro log h1 h2
    obtain ⟨k, v⟩ := e
    have hv : P k v := h1 _ (List.mem_cons_self ..)
    have h3 : Holds P (log ++ [(k, v)]) := by
      intro e he
      rcases List.mem_append.1 he with he | he
      · exact h2 e he
      · rw [List.mem_singleton.1 he]; exact hv
    have h4 : Holds P es := fun e he => h1 e (List.mem_cons_of_mem _ he)
    rw [visit]
    split
    · obtain ⟨g1, g2⟩ := ih _ h4 h3
      refine ⟨g1, fun e he => ?_⟩
      rcases List.mem_cons.1 he with rfl | he
      · exact hf log k v hv
      · exact g2 e he
    · refine ⟨h3, fun e he => ?_⟩
      rcases List.mem_cons.1 he with rfl | he
      · exact hf log k v hv
      · exact h4 e he

theorem GStep.holds {P : K → V → Prop} {H : K → Nat → BitVec 64} {E E' : Marked K V} {op : MOp K V} {o : MOut K V}
    (h : GStep H E op o E') (hn : Holds P (stored E)) (hw : op.Writes P) : Holds P (stored E') ∧ op.Answers P o := by
  cases op with
  | get k =>
    refine ⟨by rw [h.2]; exact hn, fun v hv => ?_⟩
    have h1 := h.1
    rw [hv] at h1
    injection h1 with h1 h2
    cases hg : (seen E).get k with
    | none => rw [hg] at h2; cases h2
    | some w => rw [hg] at h1; rw [h1]; exact hn.seen.get hg
  | val k => exact ⟨by rw [h.2]; exact hn, trivial⟩
  | ptr k =>
    refine ⟨by rw [h.2]; exact hn, fun v hv => ?_⟩
    have h1 := h.1
    rw [hv] at h1
    injection h1 with h1
    exact hn.seen.get h1.symm
  | len => exact ⟨by rw [h.2]; exact hn, trivial⟩
  | dep => exact ⟨by rw [h.2]; exact hn, trivial⟩
  | set k v => exact ⟨hn.puts h.2 hw, trivial⟩
  | mod k f =>
    simp only [GStep] at h
    split at h
    · rename_i w hg
      have hw' := hn.seen.get hg
      refine ⟨hn.puts h.2 (hw.1 w hw'), fun l hl v hv => ?_⟩
      have h1 := h.1
      rw [hl] at h1
      injection h1 with h1
      rw [h1] at hv
      cases List.mem_singleton.1 hv
      exact hw'
    · refine ⟨hn.puts h.2 hw.2, fun l hl v hv => ?_⟩
      have h1 := h.1
      rw [hl] at h1
      injection h1 with h1
      rw [h1] at hv
      cases List.mem_singleton.1 hv
  | del k =>
    refine ⟨?_, trivial⟩
    obtain ⟨_, h⟩ := h
    split at h
    · intro e he
      have := h.1.perm.mem_iff.2 he
      obtain ⟨a, h1, h2⟩ := List.mem_map.1 this
      exact hn e (List.mem_map.2 ⟨a, (List.mem_filter.1 h1).1, h2⟩)
    · rw [h]; exact hn
  | write k v => exact ⟨by rw [h.2]; exact hn.renew hw, trivial⟩
  | all f =>
    obtain ⟨order, h1, h2, h3, h4⟩ := h
    have ho : Holds P (stored order) := fun e he => hn e ((stored_perm h1).mem_iff.1 he)
    obtain ⟨g1, g2⟩ := visit_holds hw (stored order) [] ho (fun e he => by cases he)
    refine ⟨by rw [h4]; exact g2, fun l hl => ?_⟩
    rw [h2] at hl
    injection hl with hl
    rw [← hl]; exact g1

theorem GRun.holds {P : K → V → Prop} {H : K → Nat → BitVec 64} {ops : List (MOp K V)} :
    ∀ {E E' : Marked K V} {os : List (MOut K V)}, GRun H E ops os E' → Holds P (stored E) → (∀ op ∈ ops, op.Writes P) →
    Holds P (stored E') ∧ ∀ (i : Nat) (op : MOp K V) (o : MOut K V), ops[i]? = some op → os[i]? = some o → op.Answers P o := by
  induction ops with
  | nil => intro E E' os h hn _; exact ⟨by rw [h.2]; exact hn, fun i op o h1 => by simp at h1⟩
  | cons op ops ih =>
    intro E E' os h hn hw
    obtain ⟨o, os', E1, rfl, h1, h2⟩ := h
    obtain ⟨g1, g2⟩ := h1.holds hn (hw op (by simp))
    obtain ⟨g3, g4⟩ := ih h2 g1 (fun op hop => hw op (by simp [hop]))
    refine ⟨g3, fun i op' o' h3 h4 => ?_⟩
    cases i with
    | zero => simp at h3 h4; rw [← h3, ← h4]; exact g2
    | succ i => exact g4 i op' o' (by simpa using h3) (by simpa using h4)

end
end Spec

/-! ### Sessions -/

namespace Amt
open Spec

section
variable {K V : Type} [DecidableEq K] [Inhabited V] (I : KeyImpl K) (heq : ∀ a b, I.equal a b = true ↔ a = b) (sd : Seed)
  {m : Nat} (hm : 0 < m) {ops : List (MOp K V)} (s : St K V)
include heq hm

theorem seen_nil_nodup : (seen ([] : Marked K V)).keys.Nodup := List.nodup_nil

/-- C50.  What `Set` stores, the next `Get` finds. -/
theorem C50_Map_set {k : K} {v : V} (hS : TwiceApart (fun k n => I.hash k sd n) (Stores (ops ++ [.set k v, .get k])) m) :
    ∃ os s', ∀ fuel, 256 ≤ fuel → (GenericMap I).session fuel sd (ops ++ [.set k v, .get k]) s
      = .ok ((some s.next, os ++ [.unit, .pair v true]), s') := by
  obtain ⟨os, s', E, hr, hs⟩ := C48_Map I heq sd hm hS s
  obtain ⟨os1, os2, E1, rfl, h1, h2⟩ := GRun.append hr
  obtain ⟨o, os3, E2, rfl, ⟨rfl, hp⟩, o', os4, E3, rfl, ⟨rfl, rfl⟩, rfl, rfl⟩ := h2
  have hg := (Puts.get hp (GRun.nodup h1 List.nodup_nil)).2.1
  refine ⟨os1, s', fun fuel hf => ?_⟩
  rw [hs fuel hf, hg]; rfl

/-- C50.  What the callback of `Mod` returns, the next `Get` finds. -/
theorem C50_Map_mod {k : K} {f : V → Bool → V}
    (hS : TwiceApart (fun k n => I.hash k sd n) (Stores (ops ++ [.mod k f, .get k])) m) :
    ∃ os v b s', ∀ fuel, 256 ≤ fuel → (GenericMap I).session fuel sd (ops ++ [.mod k f, .get k]) s
      = .ok ((some s.next, os ++ [.calls [(v, b)], .pair (f v b) true]), s') := by
  obtain ⟨os, s', E, hr, hs⟩ := C48_Map I heq sd hm hS s
  obtain ⟨os1, os2, E1, rfl, h1, h2⟩ := GRun.append hr
  obtain ⟨o, os3, E2, rfl, hst, o', os4, E3, rfl, ⟨rfl, rfl⟩, rfl, rfl⟩ := h2
  simp only [GStep] at hst
  split at hst
  · rename_i w _
    obtain ⟨rfl, hp⟩ := hst
    have hg := (Puts.get hp (GRun.nodup h1 List.nodup_nil)).2.1
    refine ⟨os1, w, true, s', fun fuel hf => ?_⟩
    rw [hs fuel hf, hg]; rfl
  · obtain ⟨rfl, hp⟩ := hst
    have hg := (Puts.get hp (GRun.nodup h1 List.nodup_nil)).2.1
    refine ⟨os1, default, false, s', fun fuel hf => ?_⟩
    rw [hs fuel hf, hg]; rfl

/-- What a `Get` answers. -/
def getOut (r : Option V) : MOut K V := .pair (r.getD default) r.isSome

/-- C51.  A call to `Set` changes what `Get` answers for at most one other key.  That key is then not found any more, and
agrees with the new one on at least two nibbles. -/
theorem C51_Map_set {k x y : K} {v : V} (hx : x ≠ k) (hy : y ≠ k) (hxy : x ≠ y)
    (hS : TwiceApart (fun k n => I.hash k sd n) (Stores (ops ++ [.get x, .get y, .set k v, .get x, .get y])) m) :
    ∃ os a b a' b' s', (∀ fuel, 256 ≤ fuel →
        (GenericMap I).session fuel sd (ops ++ [.get x, .get y, .set k v, .get x, .get y]) s
          = .ok ((some s.next, os ++ [getOut a, getOut b, .unit, getOut a', getOut b']), s')) ∧
      (a' = a ∨ b' = b) ∧ (a' = a ∨ a' = none ∧ Agree (fun k n => I.hash k sd n) k x 2) ∧
      (b' = b ∨ b' = none ∧ Agree (fun k n => I.hash k sd n) k y 2) := by
  obtain ⟨os, s', E, hr, hs⟩ := C48_Map I heq sd hm hS s
  obtain ⟨os1, os2, E1, rfl, h1, h2⟩ := GRun.append hr
  obtain ⟨o1, p1, F1, rfl, ⟨rfl, rfl⟩, o2, p2, F2, rfl, ⟨rfl, rfl⟩, o, os3, E2, rfl, ⟨rfl, hp⟩, o3, p3, F3, rfl, ⟨rfl, rfl⟩,
    o4, p4, F4, rfl, ⟨rfl, rfl⟩, rfl, rfl⟩ := h2
  refine ⟨os1, _, _, _, _, s', hs, ?_⟩
  rcases (Puts.get hp (GRun.nodup h1 List.nodup_nil)).2.2 with h | ⟨z, w, hz, ⟨d, h3, h4⟩, _, h5, h6, _, h7⟩
  · exact ⟨Or.inl (h x hx), Or.inl (h x hx), Or.inl (h y hy)⟩
  · have h8 : Agree (fun k n => I.hash k sd n) k z 2 := fun j hj => h3 j (by
      cases d with
      | zero => exact absurd rfl h4
      | succ d => omega)
    by_cases hxz : x = z
    · subst hxz
      exact ⟨Or.inr (h7 y hy (Ne.symm hxy)), Or.inr ⟨h6, h8⟩, Or.inl (h7 y hy (Ne.symm hxy))⟩
    · refine ⟨Or.inl (h7 x hx hxz), Or.inl (h7 x hx hxz), ?_⟩
      by_cases hyz : y = z
      · subst hyz; exact Or.inr ⟨h6, h8⟩
      · exact Or.inl (h7 y hy hyz)

/-- C51.  As `C51_Map_set`, for `Mod`: the key that is lost agrees with the new one on at least one nibble. -/
theorem C51_Map_mod {k x y : K} {f : V → Bool → V} (hx : x ≠ k) (hy : y ≠ k) (hxy : x ≠ y)
    (hS : TwiceApart (fun k n => I.hash k sd n) (Stores (ops ++ [.get x, .get y, .mod k f, .get x, .get y])) m) :
    ∃ os a b c a' b' s', (∀ fuel, 256 ≤ fuel →
        (GenericMap I).session fuel sd (ops ++ [.get x, .get y, .mod k f, .get x, .get y]) s
          = .ok ((some s.next, os ++ [getOut a, getOut b, c, getOut a', getOut b']), s')) ∧
      (a' = a ∨ b' = b) ∧ (a' = a ∨ a' = none ∧ Agree (fun k n => I.hash k sd n) k x 1) ∧
      (b' = b ∨ b' = none ∧ Agree (fun k n => I.hash k sd n) k y 1) := by
  obtain ⟨os, s', E, hr, hs⟩ := C48_Map I heq sd hm hS s
  obtain ⟨os1, os2, E1, rfl, h1, h2⟩ := GRun.append hr
  obtain ⟨o1, p1, F1, rfl, ⟨rfl, rfl⟩, o2, p2, F2, rfl, ⟨rfl, rfl⟩, o, os3, E2, rfl, hst, o3, p3, F3, rfl, ⟨rfl, rfl⟩,
    o4, p4, F4, rfl, ⟨rfl, rfl⟩, rfl, rfl⟩ := h2
  refine ⟨os1, _, _, _, _, _, s', hs, ?_⟩
  have hp : ∃ v, Puts (fun k n => I.hash k sd n) (fun _ d => I.hash k sd (d % 16)) F2 k v E := by
    simp only [GStep] at hst
    split at hst
    · exact ⟨_, hst.2⟩
    · exact ⟨_, hst.2⟩
  obtain ⟨v, hp⟩ := hp
  rcases (Puts.get hp (GRun.nodup h1 List.nodup_nil)).2.2 with h | ⟨z, w, hz, ⟨d, h3, h4⟩, _, h5, h6, _, h7⟩
  · exact ⟨Or.inl (h x hx), Or.inl (h x hx), Or.inl (h y hy)⟩
  · have h8 : Agree (fun k n => I.hash k sd n) k z 1 := fun j hj => h3 j (by omega)
    by_cases hxz : x = z
    · subst hxz
      exact ⟨Or.inr (h7 y hy (Ne.symm hxy)), Or.inr ⟨h6, h8⟩, Or.inl (h7 y hy (Ne.symm hxy))⟩
    · refine ⟨Or.inl (h7 x hx hxz), Or.inl (h7 x hx hxz), ?_⟩
      by_cases hyz : y = z
      · subst hyz; exact Or.inr ⟨h6, h8⟩
      · exact Or.inl (h7 y hy hyz)

/-- C51.  A call to `Del` changes what `Get` answers for at most one other key.  That key was not found before, is found
then, and agrees with the deleted one on the first nibble. -/
theorem C51_Map_del {k x y : K} (hx : x ≠ k) (hy : y ≠ k) (hxy : x ≠ y)
    (hS : TwiceApart (fun k n => I.hash k sd n) (Stores (ops ++ [.get x, .get y, .del k, .get x, .get y])) m) :
    ∃ os a b a' b' s', (∀ fuel, 256 ≤ fuel →
        (GenericMap I).session fuel sd (ops ++ [.get x, .get y, .del k, .get x, .get y]) s
          = .ok ((some s.next, os ++ [getOut a, getOut b, .unit, getOut a', getOut b']), s')) ∧
      (a' = a ∨ b' = b) ∧ (a' = a ∨ a = none ∧ Agree (fun k n => I.hash k sd n) k x 1) ∧
      (b' = b ∨ b = none ∧ Agree (fun k n => I.hash k sd n) k y 1) := by
  obtain ⟨os, s', E, hr, hs⟩ := C48_Map I heq sd hm hS s
  obtain ⟨os1, os2, E1, rfl, h1, h2⟩ := GRun.append hr
  obtain ⟨o1, p1, F1, rfl, ⟨rfl, rfl⟩, o2, p2, F2, rfl, ⟨rfl, rfl⟩, o, os3, E2, rfl, ⟨rfl, hp⟩, o3, p3, F3, rfl, ⟨rfl, rfl⟩,
    o4, p4, F4, rfl, ⟨rfl, rfl⟩, rfl, rfl⟩ := h2
  refine ⟨os1, _, _, _, _, s', hs, ?_⟩
  split at hp
  · rcases dels_get hp.1 hp.2 with h | ⟨z, w, h3, h4, h5, _, h7⟩
    · have := (h x).trans (FMap.get_del_other _ hx)
      exact ⟨Or.inl this, Or.inl this, Or.inl ((h y).trans (FMap.get_del_other _ hy))⟩
    · by_cases hxz : x = z
      · subst hxz
        rw [FMap.get_del_other _ hx] at h4
        have := (h7 y (Ne.symm hxy)).trans (FMap.get_del_other _ hy)
        exact ⟨Or.inr this, Or.inr ⟨h4, h3⟩, Or.inl this⟩
      · have := (h7 x hxz).trans (FMap.get_del_other _ hx)
        refine ⟨Or.inl this, Or.inl this, ?_⟩
        by_cases hyz : y = z
        · subst hyz
          rw [FMap.get_del_other _ hy] at h4
          exact Or.inr ⟨h4, h3⟩
        · exact Or.inl ((h7 y hyz).trans (FMap.get_del_other _ hy))
  · rw [hp]; exact ⟨Or.inl rfl, Or.inl rfl, Or.inl rfl⟩

/-- C52.  Every value that is found was written for its key: if all writes preserve `P`, all answers satisfy `P`. -/
theorem C52_Map (hS : TwiceApart (fun k n => I.hash k sd n) (Stores ops) m) (P : K → V → Prop) (hw : ∀ op ∈ ops, op.Writes P) :
    ∃ os s', (∀ fuel, 256 ≤ fuel → (GenericMap I).session fuel sd ops s = .ok ((some s.next, os), s')) ∧
      ∀ (i : Nat) (op : MOp K V) (o : MOut K V), ops[i]? = some op → os[i]? = some o → op.Answers P o := by
  obtain ⟨os, s', E, hr, hs⟩ := C48_Map I heq sd hm hS s
  exact ⟨os, s', hs, (hr.holds (fun e he => by cases he) hw).2⟩

/-- C53.  `Len` is the number of entries that `All` visits, and `All` visits every key that `Get` finds. -/
theorem C53_Map {k : K} (hS : TwiceApart (fun k n => I.hash k sd n)
      (Stores (ops ++ [.len, .get k, .all fun _ _ v => (v, true)])) m) :
    ∃ os r log s', (∀ fuel, 256 ≤ fuel → (GenericMap I).session fuel sd (ops ++ [.len, .get k, .all fun _ _ v => (v, true)]) s
        = .ok ((some s.next, os ++ [.num (BitVec.ofNat 64 log.length), getOut r, .log log]), s')) ∧
      ∀ v, r = some v → (k, v) ∈ log := by
  obtain ⟨os, s', E, hr, hs⟩ := C48_Map I heq sd hm hS s
  obtain ⟨os1, os2, E1, rfl, h1, h2⟩ := GRun.append hr
  obtain ⟨o1, p1, F1, rfl, ⟨rfl, rfl⟩, o2, p2, F2, rfl, ⟨rfl, rfl⟩, o, os3, E2, rfl, ⟨order, h3, rfl, _, _⟩, rfl, rfl⟩ := h2
  have hv := visit_all (f := fun _ _ v => (v, true)) (fun _ _ _ => rfl) [] (stored order)
  refine ⟨os1, (seen F2).get k, stored order, s', fun fuel hf => ?_, fun v hv => ?_⟩
  · rw [hs fuel hf, hv, List.nil_append]
    have : F2.length = (stored order).length := by rw [stored, List.length_map, h3.length_eq]
    rw [this]; rfl
  · have := (FMap.get_eq_some (GRun.nodup h1 List.nodup_nil)).1 hv
    rw [mem_seen] at this
    exact (stored_perm h3).mem_iff.2 (List.mem_map.2 ⟨_, this, rfl⟩)

/-- C24 for these histories: no memory fault, whatever the loop budget. -/
theorem C24_Map_twice (hS : TwiceApart (fun k n => I.hash k sd n) (Stores ops) m) (fuel : Nat) :
    (∃ r, (GenericMap I).session fuel sd ops s = .ok r) ∨ (GenericMap I).session fuel sd ops s = .error .diverge := by
  obtain ⟨os, s', E, _, hs⟩ := C48_Map I heq sd hm hS s
  exact ((MapImpl.session_ext (GenericMap_mono I) (Nat.le_max_left fuel 256) sd _).safe (hs _ (Nat.le_max_right fuel 256))).imp
    (fun h => ⟨_, h⟩) id

/-- C25 for these histories. -/
theorem C25_Map_twice (hS : TwiceApart (fun k n => I.hash k sd n) (Stores ops) m) :
    ∃ r, ∀ fuel, 256 ≤ fuel → (GenericMap I).session fuel sd ops s = .ok r := by
  obtain ⟨os, s', E, _, hs⟩ := C48_Map I heq sd hm hS s
  exact ⟨_, hs⟩

end

/-! ### Sets -/

section
variable {K : Type} [DecidableEq K]

theorem sgstep_nodup {H : K → Nat → BitVec 64} {E E' : Marked K Unit} {op : SOp K} {o : SOut K} (h : SGStep H E op o E')
    (hn : (seen E).keys.Nodup) : (seen E').keys.Nodup := by
  cases op with
  | has k => rw [h.2]; exact hn
  | len => rw [h.2]; exact hn
  | dep => rw [h.2]; exact hn
  | add k => exact (Puts.get h.2 hn).1
  | del k =>
    obtain ⟨_, h⟩ := h
    split at h
    · exact h.2
    · rw [h]; exact hn
  | all f => rw [h.1]; exact hn

theorem sgrun_nodup {H : K → Nat → BitVec 64} {ops : List (SOp K)} : ∀ {E E' : Marked K Unit} {os : List (SOut K)},
    SGRun H E ops os E' → (seen E).keys.Nodup → (seen E').keys.Nodup := by
  induction ops with
  | nil => intro E E' os h hn; rw [h.2]; exact hn
  | cons op ops ih => intro E E' os h hn; obtain ⟨o, os', E1, _, h1, h2⟩ := h; exact ih h2 (sgstep_nodup h1 hn)

theorem sgrun_append {H : K → Nat → BitVec 64} {ops ops' : List (SOp K)} : ∀ {E E' : Marked K Unit} {os : List (SOut K)},
    SGRun H E (ops ++ ops') os E' → ∃ os₁ os₂ E₁, os = os₁ ++ os₂ ∧ SGRun H E ops os₁ E₁ ∧ SGRun H E₁ ops' os₂ E' := by
  induction ops with
  | nil => intro E E' os h; exact ⟨[], os, E, rfl, ⟨rfl, rfl⟩, h⟩
  | cons op ops ih =>
    intro E E' os h
    obtain ⟨o, os', E1, rfl, h1, h2⟩ := h
    obtain ⟨os1, os2, E2, rfl, h3, h4⟩ := ih h2
    exact ⟨o :: os1, os2, E2, rfl, ⟨o, os1, E1, rfl, h1, h3⟩, h4⟩

/-- The call answers only elements that satisfy `P`. -/
def SAnswers (P : K → Prop) : SOp K → SOut K → Prop
  | .has k, o => o = .bool true → P k
  | .all _, o => ∀ l, o = .log l → ∀ k ∈ l, P k
  | _, _ => True

theorem mem_visitS {K : Type} (f : List K → K → Bool) (es : List K) : ∀ log, ∀ k ∈ visitS f log es, k ∈ log ∨ k ∈ es := by
  induction es with
  | nil => intro log k h; exact Or.inl h
  | cons e es ih =>
    intro log k h
    rw [visitS] at h
    split at h
    · rcases ih _ k h with h | h
      · rcases List.mem_append.1 h with h | h
        · exact Or.inl h
        · rw [List.mem_singleton.1 h]; exact Or.inr (by simp)
      · exact Or.inr (by simp [h])
    · rcases List.mem_append.1 h with h | h
      · exact Or.inl h
      · rw [List.mem_singleton.1 h]; exact Or.inr (by simp)

theorem sgstep_holds {P : K → Prop} {H : K → Nat → BitVec 64} {E E' : Marked K Unit} {op : SOp K} {o : SOut K}
    (h : SGStep H E op o E') (hn : Holds (fun k _ => P k) (stored E)) (hw : ∀ k ∈ op.stores, P k) :
    Holds (fun k _ => P k) (stored E') ∧ SAnswers P op o := by
  cases op with
  | has k =>
    refine ⟨by rw [h.2]; exact hn, fun ho => ?_⟩
    have h1 := h.1
    rw [ho] at h1
    injection h1 with h1
    obtain ⟨v, hv⟩ := FMap.mem_keys.1 (of_decide_eq_true h1.symm)
    exact hn.seen (k, v) hv
  | len => exact ⟨by rw [h.2]; exact hn, trivial⟩
  | dep => exact ⟨by rw [h.2]; exact hn, trivial⟩
  | add k => exact ⟨hn.puts h.2 (hw k (by simp [SOp.stores])), trivial⟩
  | del k =>
    refine ⟨?_, trivial⟩
    obtain ⟨_, h⟩ := h
    split at h
    · intro e he
      have := h.1.perm.mem_iff.2 he
      obtain ⟨a, h1, h2⟩ := List.mem_map.1 this
      exact hn e (List.mem_map.2 ⟨a, (List.mem_filter.1 h1).1, h2⟩)
    · rw [h]; exact hn
  | all f =>
    obtain ⟨h1, order, h2, h3⟩ := h
    refine ⟨by rw [h1]; exact hn, fun l hl k hk => ?_⟩
    rw [h3] at hl
    injection hl with hl
    rw [← hl] at hk
    rcases mem_visitS _ _ _ _ hk with h | h
    · cases h
    · obtain ⟨v, hv⟩ := FMap.mem_keys.1 h
      exact hn (k, v) ((stored_perm h2).mem_iff.1 hv)

theorem sgrun_holds {P : K → Prop} {H : K → Nat → BitVec 64} {ops : List (SOp K)} :
    ∀ {E E' : Marked K Unit} {os : List (SOut K)}, SGRun H E ops os E' → Holds (fun k _ => P k) (stored E) →
    (∀ k, SStores ops k → P k) →
    ∀ (i : Nat) (op : SOp K) (o : SOut K), ops[i]? = some op → os[i]? = some o → SAnswers P op o := by
  induction ops with
  | nil => intro E E' os h hn _ i op o h1; simp at h1
  | cons op ops ih =>
    intro E E' os h hn hw
    obtain ⟨o, os', E1, rfl, h1, h2⟩ := h
    obtain ⟨g1, g2⟩ := sgstep_holds h1 hn (fun k hk => hw k ⟨op, by simp, hk⟩)
    have g4 := ih h2 g1 (fun k ⟨op', a, b⟩ => hw k ⟨op', by simp [a], b⟩)
    intro i op' o' h3 h4
    cases i with
    | zero => simp at h3 h4; rw [← h3, ← h4]; exact g2
    | succ i => exact g4 i op' o' (by simpa using h3) (by simpa using h4)

theorem has_iff_get {m : FMap K Unit} {k : K} : decide (k ∈ m.keys) = (m.get k).isSome := by
  cases h : m.get k with
  | none => rw [decide_eq_false (FMap.get_eq_none.1 h)]; rfl
  | some v => rw [decide_eq_true (Classical.byContradiction fun hn => by rw [FMap.get_eq_none.2 hn] at h; cases h)]; rfl

variable (I : KeyImpl K) (heq : ∀ a b, I.equal a b = true ↔ a = b) (sd : Seed) {m : Nat} (hm : 0 < m) {ops : List (SOp K)} (s : St K Unit)
include heq hm

/-- C50.  What `Add` stores, the next `Has` finds. -/
theorem C50_Set {k : K} (hS : TwiceApart (fun k n => I.hash k sd n) (SStores (ops ++ [.add k, .has k])) m) :
    ∃ os s', ∀ fuel, 256 ≤ fuel → (GenericSet I).session fuel sd (ops ++ [.add k, .has k]) s
      = .ok ((some s.next, os ++ [.unit, .bool true]), s') := by
  obtain ⟨os, s', E, hr, hs⟩ := C49_Set I heq sd hm hS s
  obtain ⟨os1, os2, E1, rfl, h1, h2⟩ := sgrun_append hr
  obtain ⟨o, os3, E2, rfl, ⟨rfl, hp⟩, o', os4, E3, rfl, ⟨rfl, rfl⟩, rfl, rfl⟩ := h2
  have hg := (Puts.get hp (sgrun_nodup h1 List.nodup_nil)).2.1
  refine ⟨os1, s', fun fuel hf => ?_⟩
  rw [hs fuel hf, has_iff_get, hg]; rfl

/-- C51.  A call to `Add` changes what `Has` answers for at most one other element, from true to false, and that one
agrees with the new one on at least two nibbles. -/
theorem C51_Set_add {k x y : K} (hx : x ≠ k) (hy : y ≠ k) (hxy : x ≠ y)
    (hS : TwiceApart (fun k n => I.hash k sd n) (SStores (ops ++ [.has x, .has y, .add k, .has x, .has y])) m) :
    ∃ os a b a' b' s', (∀ fuel, 256 ≤ fuel → (GenericSet I).session fuel sd (ops ++ [.has x, .has y, .add k, .has x, .has y]) s
          = .ok ((some s.next, os ++ [.bool a, .bool b, .unit, .bool a', .bool b']), s')) ∧
      (a' = a ∨ b' = b) ∧ (a' = a ∨ a' = false ∧ Agree (fun k n => I.hash k sd n) k x 2) ∧
      (b' = b ∨ b' = false ∧ Agree (fun k n => I.hash k sd n) k y 2) := by
  obtain ⟨os, s', E, hr, hs⟩ := C49_Set I heq sd hm hS s
  obtain ⟨os1, os2, E1, rfl, h1, h2⟩ := sgrun_append hr
  obtain ⟨o1, p1, F1, rfl, ⟨rfl, rfl⟩, o2, p2, F2, rfl, ⟨rfl, rfl⟩, o, os3, E2, rfl, ⟨rfl, hp⟩, o3, p3, F3, rfl, ⟨rfl, rfl⟩,
    o4, p4, F4, rfl, ⟨rfl, rfl⟩, rfl, rfl⟩ := h2
  refine ⟨os1, _, _, _, _, s', hs, ?_⟩
  simp only [has_iff_get]
  rcases (Puts.get hp (sgrun_nodup h1 List.nodup_nil)).2.2 with h | ⟨z, w, hz, ⟨d, h3, h4⟩, _, h5, h6, _, h7⟩
  · simp only [h x hx, h y hy, true_or, true_and]
  · have h8 : Agree (fun k n => I.hash k sd n) k z 2 := fun j hj => h3 j (by
      cases d with
      | zero => exact absurd rfl h4
      | succ d => omega)
    by_cases hxz : x = z
    · subst hxz
      rw [h7 y hy (Ne.symm hxy), h6]
      exact ⟨Or.inr rfl, Or.inr ⟨rfl, h8⟩, Or.inl rfl⟩
    · rw [h7 x hx hxz]
      refine ⟨Or.inl rfl, Or.inl rfl, ?_⟩
      by_cases hyz : y = z
      · subst hyz; rw [h6]; exact Or.inr ⟨rfl, h8⟩
      · rw [h7 y hy hyz]; exact Or.inl rfl

/-- C51.  A call to `Del` changes what `Has` answers for at most one other element, from false to true, and that one
agrees with the deleted one on the first nibble. -/
theorem C51_Set_del {k x y : K} (hx : x ≠ k) (hy : y ≠ k) (hxy : x ≠ y)
    (hS : TwiceApart (fun k n => I.hash k sd n) (SStores (ops ++ [.has x, .has y, .del k, .has x, .has y])) m) :
    ∃ os a b a' b' s', (∀ fuel, 256 ≤ fuel → (GenericSet I).session fuel sd (ops ++ [.has x, .has y, .del k, .has x, .has y]) s
          = .ok ((some s.next, os ++ [.bool a, .bool b, .unit, .bool a', .bool b']), s')) ∧
      (a' = a ∨ b' = b) ∧ (a' = a ∨ a = false ∧ Agree (fun k n => I.hash k sd n) k x 1) ∧
      (b' = b ∨ b = false ∧ Agree (fun k n => I.hash k sd n) k y 1) := by
  obtain ⟨os, s', E, hr, hs⟩ := C49_Set I heq sd hm hS s
  obtain ⟨os1, os2, E1, rfl, h1, h2⟩ := sgrun_append hr
  obtain ⟨o1, p1, F1, rfl, ⟨rfl, rfl⟩, o2, p2, F2, rfl, ⟨rfl, rfl⟩, o, os3, E2, rfl, ⟨rfl, hp⟩, o3, p3, F3, rfl, ⟨rfl, rfl⟩,
    o4, p4, F4, rfl, ⟨rfl, rfl⟩, rfl, rfl⟩ := h2
  refine ⟨os1, _, _, _, _, s', hs, ?_⟩
  split at hp
  · simp only [has_iff_get]
    rcases dels_get hp.1 hp.2 with h | ⟨z, w, h3, h4, h5, _, h7⟩
    · rw [(h x).trans (FMap.get_del_other _ hx), (h y).trans (FMap.get_del_other _ hy)]
      exact ⟨Or.inl rfl, Or.inl rfl, Or.inl rfl⟩
    · by_cases hxz : x = z
      · subst hxz
        rw [FMap.get_del_other _ hx] at h4
        rw [(h7 y (Ne.symm hxy)).trans (FMap.get_del_other _ hy), h4]
        exact ⟨Or.inr rfl, Or.inr ⟨rfl, h3⟩, Or.inl rfl⟩
      · rw [(h7 x hxz).trans (FMap.get_del_other _ hx)]
        refine ⟨Or.inl rfl, Or.inl rfl, ?_⟩
        by_cases hyz : y = z
        · subst hyz
          rw [FMap.get_del_other _ hy] at h4
          rw [h4]; exact Or.inr ⟨rfl, h3⟩
        · rw [(h7 y hyz).trans (FMap.get_del_other _ hy)]; exact Or.inl rfl
  · rw [hp]; exact ⟨Or.inl rfl, Or.inl rfl, Or.inl rfl⟩

/-- C52.  Every element that is found or visited was added. -/
theorem C52_Set (hS : TwiceApart (fun k n => I.hash k sd n) (SStores ops) m) :
    ∃ os s', (∀ fuel, 256 ≤ fuel → (GenericSet I).session fuel sd ops s = .ok ((some s.next, os), s')) ∧
      ∀ (i : Nat) (op : SOp K) (o : SOut K), ops[i]? = some op → os[i]? = some o → SAnswers (SStores ops) op o := by
  obtain ⟨os, s', E, hr, hs⟩ := C49_Set I heq sd hm hS s
  exact ⟨os, s', hs, sgrun_holds hr (fun e he => by cases he) fun _ h => h⟩

/-- C53.  `Len` is the number of elements that `All` visits, and `All` visits every element that `Has` finds. -/
theorem C53_Set {k : K} (hS : TwiceApart (fun k n => I.hash k sd n) (SStores (ops ++ [.len, .has k, .all fun _ _ => true])) m) :
    ∃ os b log s', (∀ fuel, 256 ≤ fuel → (GenericSet I).session fuel sd (ops ++ [.len, .has k, .all fun _ _ => true]) s
        = .ok ((some s.next, os ++ [.num (BitVec.ofNat 64 log.length), .bool b, .log log]), s')) ∧ (b = true → k ∈ log) := by
  obtain ⟨os, s', E, hr, hs⟩ := C49_Set I heq sd hm hS s
  obtain ⟨os1, os2, E1, rfl, h1, h2⟩ := sgrun_append hr
  obtain ⟨o1, p1, F1, rfl, ⟨rfl, rfl⟩, o2, p2, F2, rfl, ⟨rfl, rfl⟩, o, os3, E2, rfl, ⟨rfl, order, h3, rfl⟩, rfl, rfl⟩ := h2
  have hv : ∀ (es log : List K), visitS (fun _ _ => true) log es = log ++ es := by
    intro es
    induction es with
    | nil => intro log; simp [visitS]
    | cons e es ih => intro log; rw [visitS, if_pos rfl, ih]; simp
  refine ⟨os1, decide (k ∈ (seen E).keys), (stored order).keys, s', fun fuel hf => ?_, fun hk => ?_⟩
  · rw [hs fuel hf, hv, List.nil_append]
    have : E.length = ((stored order).keys).length := by rw [stored, FMap.keys, List.length_map, List.length_map, h3.length_eq]
    rw [this]
  · obtain ⟨v, hv⟩ := FMap.mem_keys.1 (of_decide_eq_true hk)
    rw [mem_seen] at hv
    exact FMap.mem_keys.2 ⟨v, (stored_perm h3).mem_iff.2 (List.mem_map.2 ⟨_, hv, rfl⟩)⟩

/-- C24 for these histories. -/
theorem C24_Set_twice (hS : TwiceApart (fun k n => I.hash k sd n) (SStores ops) m) (fuel : Nat) :
    (∃ r, (GenericSet I).session fuel sd ops s = .ok r) ∨ (GenericSet I).session fuel sd ops s = .error .diverge := by
  obtain ⟨os, s', E, _, hs⟩ := C49_Set I heq sd hm hS s
  exact ((SetImpl.session_ext (GenericSet_mono I) (Nat.le_max_left fuel 256) sd _).safe (hs _ (Nat.le_max_right fuel 256))).imp
    (fun h => ⟨_, h⟩) id

/-- C25 for these histories. -/
theorem C25_Set_twice (hS : TwiceApart (fun k n => I.hash k sd n) (SStores ops) m) :
    ∃ r, ∀ fuel, 256 ≤ fuel → (GenericSet I).session fuel sd ops s = .ok r := by
  obtain ⟨os, s', E, _, hs⟩ := C49_Set I heq sd hm hS s
  exact ⟨_, hs⟩

end

end Amt
