/- Elementary facts about the abstract maps and sets of `Verif/Spec.lean`. -/
import Verif.Spec

namespace Spec

section
variable {K V : Type} [DecidableEq K]

theorem FMap.get_eq_none {m : FMap K V} {k : K} : m.get k = none ↔ k ∉ m.keys := by
  induction m with
  | nil => simp [FMap.get, FMap.keys]
  | cons e m ih =>
    obtain ⟨k', v⟩ := e
    simp only [FMap.get, FMap.keys, List.map_cons, List.mem_cons, not_or] at ih ⊢
    by_cases h : k = k'
    · simp [h]
    · rw [if_neg h, ih]; simp [h]

theorem FMap.get_eq_some {m : FMap K V} (hn : m.keys.Nodup) {k : K} {v : V} : m.get k = some v ↔ (k, v) ∈ m := by
  induction m with
  | nil => simp [FMap.get]
  | cons e m ih =>
    obtain ⟨k', v'⟩ := e
    simp only [FMap.keys, List.map_cons, List.nodup_cons] at hn
    simp only [FMap.get, List.mem_cons, Prod.mk.injEq]
    by_cases h : k = k'
    · subst h
      simp only [if_true, Option.some.injEq, true_and]
      constructor
      · intro h; exact Or.inl h.symm
      · rintro (h | h)
        · exact h.symm
        · exact absurd (List.mem_map_of_mem (f := fun e : K × V => e.1) h) hn.1
    · rw [if_neg h, ih hn.2]; simp [h]

theorem FMap.mem_keys {m : FMap K V} {k : K} : k ∈ m.keys ↔ ∃ v, (k, v) ∈ m := by
  simp [FMap.keys]

theorem FMap.keys_perm {m m' : FMap K V} (h : m.Perm m') : m.keys.Perm m'.keys := h.map _

theorem FMap.get_perm {m m' : FMap K V} (h : m.Perm m') (hn : m.keys.Nodup) (k : K) : m.get k = m'.get k := by
  have hn' : m'.keys.Nodup := (FMap.keys_perm h).nodup_iff.1 hn
  cases hg : m'.get k with
  | none => rw [FMap.get_eq_none] at hg ⊢; rwa [(FMap.keys_perm h).mem_iff]
  | some v => rw [FMap.get_eq_some hn'] at hg; rw [FMap.get_eq_some hn]; exact h.mem_iff.2 hg

theorem FMap.del_perm {m m' : FMap K V} (h : m.Perm m') (k : K) : (m.del k).Perm (m'.del k) := h.filter _

theorem FMap.set_perm {m m' : FMap K V} (h : m.Perm m') (k : K) (v : V) : (m.set k v).Perm (m'.set k v) :=
  (FMap.del_perm h k).cons _

theorem FMap.mem_keys_del {m : FMap K V} {k x : K} : x ∈ (m.del k).keys ↔ x ∈ m.keys ∧ x ≠ k := by
  simp only [FMap.mem_keys, FMap.del, List.mem_filter, decide_eq_true_eq]
  constructor
  · rintro ⟨v, h1, h2⟩; exact ⟨⟨v, h1⟩, h2⟩
  · rintro ⟨⟨v, h1⟩, h2⟩; exact ⟨v, h1, h2⟩

theorem FMap.mem_keys_set {m : FMap K V} {k x : K} {v : V} : x ∈ (m.set k v).keys ↔ x = k ∨ x ∈ m.keys := by
  have : x ∈ (m.set k v).keys ↔ x = k ∨ x ∈ (m.del k).keys := by simp [FMap.set, FMap.keys]
  rw [this, FMap.mem_keys_del]
  by_cases h : x = k <;> simp [h]

theorem FMap.nodup_del {m : FMap K V} (hn : m.keys.Nodup) (k : K) : (m.del k).keys.Nodup :=
  (List.filter_sublist.map _).nodup hn

theorem FMap.nodup_set {m : FMap K V} (hn : m.keys.Nodup) (k : K) (v : V) : (m.set k v).keys.Nodup := by
  have : (m.set k v).keys = k :: (m.del k).keys := rfl
  rw [this, List.nodup_cons, FMap.mem_keys_del]
  exact ⟨fun h => h.2 rfl, FMap.nodup_del hn k⟩

theorem FMap.del_absent {m : FMap K V} {k : K} (h : k ∉ m.keys) : m.del k = m := by
  rw [FMap.del, List.filter_eq_self]
  intro e he
  simp only [decide_eq_true_eq]
  rintro rfl
  exact h (FMap.mem_keys.2 ⟨e.2, he⟩)

theorem FMap.get_set_same (m : FMap K V) (k : K) (v : V) : (m.set k v).get k = some v := by
  simp [FMap.set, FMap.get]

theorem FMap.get_del_same (m : FMap K V) (k : K) : (m.del k).get k = none := by
  rw [FMap.get_eq_none, FMap.mem_keys_del]; exact fun h => h.2 rfl

theorem FMap.get_del_other (m : FMap K V) {k x : K} (h : x ≠ k) : (m.del k).get x = m.get x := by
  induction m with
  | nil => rfl
  | cons e m ih =>
    obtain ⟨k', v'⟩ := e
    simp only [FMap.del, List.filter_cons] at ih ⊢
    by_cases h1 : k' = k
    · subst h1
      simp only [ne_eq, not_true_eq_false, decide_false, Bool.false_eq_true, if_false, ih, FMap.get, if_neg h]
    · simp only [ne_eq, h1, not_false_eq_true, decide_true, if_true, FMap.get, ih]

theorem FMap.get_set_other (m : FMap K V) {k x : K} (v : V) (h : x ≠ k) : (m.set k v).get x = m.get x := by
  rw [FMap.set, FMap.get, if_neg h, FMap.get_del_other m h]

/-- A present key splits the entries. -/
theorem FMap.perm_get {m : FMap K V} (hn : m.keys.Nodup) {k : K} {v : V} (h : m.get k = some v) :
    m.Perm ((k, v) :: m.del k) := by
  induction m with
  | nil => cases h
  | cons e m ih =>
    obtain ⟨k', v'⟩ := e
    have hn' := hn
    simp only [FMap.keys, List.map_cons, List.nodup_cons] at hn
    simp only [FMap.get] at h
    by_cases h1 : k = k'
    · subst h1
      simp only [if_true, Option.some.injEq] at h
      subst h
      have : FMap.del ((k, v') :: m) k = FMap.del m k := by simp [FMap.del]
      rw [this, FMap.del_absent hn.1]
    · rw [if_neg h1] at h
      have : FMap.del ((k', v') :: m) k = (k', v') :: FMap.del m k := by
        simp [FMap.del, Ne.symm h1]
      rw [this]
      exact ((ih hn.2 h).cons _).trans (List.Perm.swap _ _ _)

theorem FMap.length_del {m : FMap K V} (hn : m.keys.Nodup) {k : K} :
    (m.del k).length = if k ∈ m.keys then m.length - 1 else m.length := by
  by_cases h : k ∈ m.keys
  · rw [if_pos h]
    cases hg : m.get k with
    | none => rw [FMap.get_eq_none] at hg; exact absurd h hg
    | some v => rw [(FMap.perm_get hn hg).length_eq]; simp
  · rw [if_neg h, FMap.del_absent h]

theorem FMap.length_set {m : FMap K V} (hn : m.keys.Nodup) {k : K} {v : V} :
    (m.set k v).length = if k ∈ m.keys then m.length else m.length + 1 := by
  rw [FMap.set, List.length_cons, FMap.length_del hn]
  by_cases h : k ∈ m.keys
  · rw [if_pos h, if_pos h]
    have : 0 < m.length := by
      obtain ⟨v', hv⟩ := FMap.mem_keys.1 h
      exact List.length_pos_of_mem hv
    omega
  · rw [if_neg h, if_neg h]

/-- Two finite maps with the same lookups have the same entries. -/
theorem FMap.perm_of_get {m m' : FMap K V} (hn : m.keys.Nodup) (hn' : m'.keys.Nodup)
    (h : ∀ k, m.get k = m'.get k) : m.Perm m' := by
  induction m generalizing m' with
  | nil =>
    cases m' with
    | nil => exact List.Perm.refl _
    | cons e m' => have := h e.1; simp [FMap.get] at this
  | cons e m ih =>
    obtain ⟨k, v⟩ := e
    have h1 : m'.get k = some v := by rw [← h k]; simp [FMap.get]
    refine (List.Perm.cons _ ?_).trans (FMap.perm_get hn' h1).symm
    simp only [FMap.keys, List.map_cons, List.nodup_cons] at hn
    apply ih hn.2 (FMap.nodup_del hn' k)
    intro x
    by_cases hx : x = k
    · subst hx; rw [FMap.get_del_same, FMap.get_eq_none]; exact hn.1
    · rw [FMap.get_del_other m' hx, ← h x, FMap.get, if_neg hx]

/-! ### Visiting -/

omit [DecidableEq K] in
theorem visit_keys (f : List (K × V) → K → V → V × Bool) (log es : List (K × V)) :
    FMap.keys (visit f log es).2 = FMap.keys es := by
  induction es generalizing log with
  | nil => rfl
  | cons e es ih =>
    obtain ⟨k, v⟩ := e
    simp only [visit]
    split
    · simp only [FMap.keys, List.map_cons] at ih ⊢; rw [ih]
    · rfl

omit [DecidableEq K] in
/-- A callback that always continues sees every entry, in order. -/
theorem visit_all {f : List (K × V) → K → V → V × Bool} (hf : ∀ l k v, (f l k v).2 = true) (log es : List (K × V)) :
    (visit f log es).1 = log ++ es := by
  induction es generalizing log with
  | nil => simp [visit]
  | cons e es ih =>
    obtain ⟨k, v⟩ := e
    simp only [visit, hf, if_true, ih]
    simp

omit [DecidableEq K] in
/-- The calls made are a prefix of the visiting order. -/
theorem visit_prefix (f : List (K × V) → K → V → V × Bool) (log es : List (K × V)) :
    ∃ n, n ≤ es.length ∧ (visit f log es).1 = log ++ es.take n ∧
      (∀ i e, i + 1 < n → es[i]? = some e → (f (log ++ es.take i) e.1 e.2).2 = true) ∧
      (n < es.length → ∃ i e, n = i + 1 ∧ es[i]? = some e ∧ (f (log ++ es.take i) e.1 e.2).2 = false) := by
  induction es generalizing log with
  | nil => exact ⟨0, by simp, by simp [visit], fun i e h => by omega, fun h => by simp at h⟩
  | cons e es ih =>
    obtain ⟨k, v⟩ := e
    simp only [visit]
    split
    · rename_i hc
      obtain ⟨n, h1, h2, h3, h4⟩ := ih (log ++ [(k, v)])
      refine ⟨n + 1, by simpa using h1, by rw [h2]; simp, ?_, ?_⟩
      · intro i e hi he
        cases i with
        | zero => simp only [List.getElem?_cons_zero, Option.some.injEq] at he; subst he; simpa using hc
        | succ i =>
          simp only [List.getElem?_cons_succ] at he
          have := h3 i e (by omega) he
          simpa using this
      · intro hl
        simp only [List.length_cons, Nat.add_lt_add_iff_right] at hl
        obtain ⟨i, e, g1, g2, g3⟩ := h4 hl
        exact ⟨i + 1, e, by omega, by simpa using g2, by simpa using g3⟩
    · rename_i hc
      refine ⟨1, by simp, by simp, fun i e hi => by omega, fun _ => ⟨0, (k, v), rfl, rfl, by simpa using hc⟩⟩

end

/-! ### Steps and runs -/

section
variable {K V : Type} [DecidableEq K] [Inhabited V]

theorem MStep.perm {m₁ m₂ m₁' : FMap K V} {op : MOp K V} {o : MOut K V} (hp : m₁.Perm m₂) (hn : m₁.keys.Nodup)
    (h : MStep m₁ op o m₁') : ∃ m₂', MStep m₂ op o m₂' ∧ m₁'.Perm m₂' := by
  have hg := FMap.get_perm hp hn
  cases op with
  | get k => obtain ⟨rfl, rfl⟩ := h; exact ⟨m₂, ⟨by rw [hg], rfl⟩, hp⟩
  | val k => obtain ⟨rfl, rfl⟩ := h; exact ⟨m₂, ⟨by rw [hg], rfl⟩, hp⟩
  | ptr k => obtain ⟨rfl, rfl⟩ := h; exact ⟨m₂, ⟨by rw [hg], rfl⟩, hp⟩
  | set k v => obtain ⟨rfl, rfl⟩ := h; exact ⟨m₂.set k v, ⟨rfl, rfl⟩, FMap.set_perm hp k v⟩
  | mod k f =>
    simp only [MStep] at h ⊢
    rw [← hg k]
    cases hk : m₁.get k with
    | none => rw [hk] at h; obtain ⟨rfl, rfl⟩ := h; exact ⟨_, ⟨rfl, rfl⟩, FMap.set_perm hp k _⟩
    | some v => rw [hk] at h; obtain ⟨rfl, rfl⟩ := h; exact ⟨_, ⟨rfl, rfl⟩, FMap.set_perm hp k _⟩
  | del k => obtain ⟨rfl, rfl⟩ := h; exact ⟨m₂.del k, ⟨rfl, rfl⟩, FMap.del_perm hp k⟩
  | len => obtain ⟨rfl, rfl⟩ := h; exact ⟨m₂, ⟨by rw [hp.length_eq], rfl⟩, hp⟩
  | dep => obtain ⟨h, rfl⟩ := h; exact ⟨m₂, ⟨h, rfl⟩, hp⟩
  | write k v =>
    obtain ⟨rfl, rfl⟩ := h
    refine ⟨_, ⟨rfl, rfl⟩, ?_⟩
    rw [hg k]
    split
    · exact FMap.set_perm hp k v
    · exact hp
  | all f =>
    obtain ⟨order, h1, rfl, rfl⟩ := h
    exact ⟨_, ⟨order, h1.trans hp, rfl, rfl⟩, List.Perm.refl _⟩

theorem MStep.nodup {m m' : FMap K V} {op : MOp K V} {o : MOut K V} (hn : m.keys.Nodup) (h : MStep m op o m') :
    m'.keys.Nodup := by
  cases op with
  | get k => obtain ⟨rfl, rfl⟩ := h; exact hn
  | val k => obtain ⟨rfl, rfl⟩ := h; exact hn
  | ptr k => obtain ⟨rfl, rfl⟩ := h; exact hn
  | set k v => obtain ⟨rfl, rfl⟩ := h; exact FMap.nodup_set hn k v
  | mod k f =>
    simp only [MStep] at h
    split at h
    · obtain ⟨rfl, rfl⟩ := h; exact FMap.nodup_set hn k _
    · obtain ⟨rfl, rfl⟩ := h; exact FMap.nodup_set hn k _
  | del k => obtain ⟨rfl, rfl⟩ := h; exact FMap.nodup_del hn k
  | len => obtain ⟨rfl, rfl⟩ := h; exact hn
  | dep => obtain ⟨_, rfl⟩ := h; exact hn
  | write k v =>
    obtain ⟨rfl, rfl⟩ := h
    split
    · exact FMap.nodup_set hn k v
    · exact hn
  | all f =>
    obtain ⟨order, h1, rfl, rfl⟩ := h
    rw [visit_keys]
    exact (FMap.keys_perm h1).nodup_iff.2 hn

theorem MStep.keys {m m' : FMap K V} {op : MOp K V} {o : MOut K V} (h : MStep m op o m') {x : K}
    (hx : x ∈ m'.keys) : x ∈ m.keys ∨ x ∈ op.stores := by
  cases op with
  | get k => obtain ⟨rfl, rfl⟩ := h; exact Or.inl hx
  | val k => obtain ⟨rfl, rfl⟩ := h; exact Or.inl hx
  | ptr k => obtain ⟨rfl, rfl⟩ := h; exact Or.inl hx
  | set k v =>
    obtain ⟨rfl, rfl⟩ := h
    rcases FMap.mem_keys_set.1 hx with h | h
    · right; simp [MOp.stores, h]
    · exact Or.inl h
  | mod k f =>
    simp only [MStep] at h
    split at h <;> obtain ⟨rfl, rfl⟩ := h <;> rcases FMap.mem_keys_set.1 hx with h | h
    · right; simp [MOp.stores, h]
    · exact Or.inl h
    · right; simp [MOp.stores, h]
    · exact Or.inl h
  | del k => obtain ⟨rfl, rfl⟩ := h; exact Or.inl (FMap.mem_keys_del.1 hx).1
  | len => obtain ⟨rfl, rfl⟩ := h; exact Or.inl hx
  | dep => obtain ⟨_, rfl⟩ := h; exact Or.inl hx
  | write k v =>
    obtain ⟨rfl, rfl⟩ := h
    split at hx
    · rename_i hk
      rcases FMap.mem_keys_set.1 hx with h | h
      · left
        subst h
        exact Classical.byContradiction fun hn => by rw [FMap.get_eq_none.2 hn] at hk; cases hk
      · exact Or.inl h
    · exact Or.inl hx
  | all f =>
    obtain ⟨order, h1, rfl, rfl⟩ := h
    rw [visit_keys] at hx
    exact Or.inl ((FMap.keys_perm h1).mem_iff.1 hx)

theorem mem_after {ks ks' : List K} (h : ∀ x, x ∈ ks ↔ x ∈ ks') {op : MOp K V} {x : K} :
    x ∈ op.after ks ↔ x ∈ op.after ks' := by
  cases op <;> simp only [MOp.after, h, List.mem_filter]
  all_goals
    split <;> simp [h]

omit [Inhabited V] in
theorem mem_insert_keys {m : FMap K V} {k x : K} :
    (x = k ∨ x ∈ m.keys) ↔ x ∈ if k ∈ m.keys then m.keys else k :: m.keys := by
  split
  · rename_i hk
    constructor
    · rintro (rfl | h) <;> assumption
    · exact Or.inr
  · simp

theorem MStep.after_keys {m m' : FMap K V} {op : MOp K V} {o : MOut K V} (h : MStep m op o m') {x : K} :
    x ∈ m'.keys ↔ x ∈ op.after m.keys := by
  cases op with
  | get k => obtain ⟨rfl, rfl⟩ := h; rfl
  | val k => obtain ⟨rfl, rfl⟩ := h; rfl
  | ptr k => obtain ⟨rfl, rfl⟩ := h; rfl
  | set k v => obtain ⟨rfl, rfl⟩ := h; rw [FMap.mem_keys_set, mem_insert_keys]; rfl
  | mod k f =>
    simp only [MStep] at h
    split at h <;> obtain ⟨rfl, rfl⟩ := h <;> rw [FMap.mem_keys_set, mem_insert_keys] <;> rfl
  | del k => obtain ⟨rfl, rfl⟩ := h; rw [FMap.mem_keys_del]; simp [MOp.after]
  | len => obtain ⟨rfl, rfl⟩ := h; rfl
  | dep => obtain ⟨_, rfl⟩ := h; rfl
  | write k v =>
    obtain ⟨rfl, rfl⟩ := h
    split
    · rename_i hk
      rw [FMap.mem_keys_set]
      simp only [MOp.after]
      constructor
      · rintro (rfl | h)
        · cases hg : m.get x with
          | none => rw [hg] at hk; cases hk
          | some v => exact Classical.byContradiction fun hn => by rw [FMap.get_eq_none.2 hn] at hg; cases hg
        · exact h
      · exact Or.inr
    · rfl
  | all f =>
    obtain ⟨order, h1, rfl, rfl⟩ := h
    rw [visit_keys]
    exact (FMap.keys_perm h1).mem_iff

/-! ### Order and depth -/

section
omit [DecidableEq K] [Inhabited V]

theorem Agree.symm {H : K → Nat → BitVec 64} {a b : K} {d : Nat} (h : Agree H a b d) : Agree H b a d :=
  fun j hj => (h j hj).symm

theorem Agree.trans {H : K → Nat → BitVec 64} {a b c : K} {d : Nat} (h : Agree H a b d) (h' : Agree H b c d) :
    Agree H a c d := fun j hj => (h j hj).trans (h' j hj)

theorem Agree.mono {H : K → Nat → BitVec 64} {a b : K} {d d' : Nat} (h : Agree H a b d) (hd : d' ≤ d) : Agree H a b d' :=
  fun j hj => h j (by omega)

theorem Before.asymm {H : K → Nat → BitVec 64} {a b : K} (h : Before H a b) (h' : Before H b a) : False := by
  obtain ⟨j, h1, h2⟩ := h
  obtain ⟨j', h1', h2'⟩ := h'
  rcases Nat.lt_trichotomy j j' with hj | hj | hj
  · have := h1' j hj; omega
  · subst hj; omega
  · have := h1 j' hj; omega

theorem perm_sorted_eq {α : Type} {R : α → α → Prop} (hR : ∀ a b, R a b → R b a → False) :
    ∀ {l l' : List α}, l.Perm l' → l.Pairwise R → l'.Pairwise R → l = l' := by
  intro l
  induction l with
  | nil => intro l' hp _ _; exact (List.nil_perm.1 hp).symm
  | cons a l ih =>
    intro l' hp h1 h2
    cases l' with
    | nil => exact absurd hp (by simp)
    | cons b l' =>
      have hab : a = b := by
        have ha : a ∈ b :: l' := hp.mem_iff.1 (by simp)
        have hb : b ∈ a :: l := hp.mem_iff.2 (by simp)
        rcases List.mem_cons.1 ha with h | h
        · exact h
        · rcases List.mem_cons.1 hb with h' | h'
          · exact h'.symm
          · exact (hR a b ((List.pairwise_cons.1 h1).1 b h') ((List.pairwise_cons.1 h2).1 a h)).elim
      subst hab
      rw [ih ((List.perm_cons a).1 hp) (List.pairwise_cons.1 h1).2 (List.pairwise_cons.1 h2).2]

theorem foldr_max_perm {l l' : List Nat} (h : l.Perm l') : l.foldr max 0 = l'.foldr max 0 := by
  induction h with
  | nil => rfl
  | cons x _ ih => simp only [List.foldr_cons, ih]
  | swap x y l => simp only [List.foldr_cons]; omega
  | trans _ _ ih1 ih2 => exact ih1.trans ih2

theorem le_foldr_max {l : List Nat} {x : Nat} (h : x ∈ l) : x ≤ l.foldr max 0 := by
  induction l with
  | nil => cases h
  | cons y l ih =>
    simp only [List.foldr_cons]
    rcases List.mem_cons.1 h with rfl | h
    · omega
    · have := ih h; omega

theorem foldr_max_le {l : List Nat} {n : Nat} (h : ∀ x ∈ l, x ≤ n) : l.foldr max 0 ≤ n := by
  induction l with
  | nil => simp
  | cons y l ih =>
    simp only [List.foldr_cons]
    have := h y (by simp)
    have := ih (fun x hx => h x (by simp [hx]))
    omega

theorem takeWhile_range_length (p : Nat → Bool) (n : Nat) :
    ∀ i, i ≤ ((List.range n).takeWhile p).length ↔ i ≤ n ∧ ∀ j, j < i → p j = true := by
  induction n with
  | zero =>
    intro i
    constructor
    · intro h; exact ⟨by simpa using h, fun j hj => by simp at h; omega⟩
    · rintro ⟨h, _⟩; omega
  | succ n ih =>
    intro i
    rw [List.range_succ]
    by_cases hall : ∀ j, j < n → p j = true
    · rw [List.takeWhile_append_of_pos (by intro j hj; exact hall j (List.mem_range.1 hj))]
      by_cases hp : p n = true
      · simp only [List.takeWhile_cons, hp, if_true, List.takeWhile_nil, List.length_append, List.length_range, List.length_singleton]
        constructor
        · intro h; refine ⟨h, fun j hj => ?_⟩
          by_cases hj' : j = n
          · rw [hj']; exact hp
          · exact hall j (by omega)
        · exact fun h => h.1
      · simp only [List.takeWhile_cons, hp]
        simp only [Bool.false_eq_true, if_false, List.append_nil, List.length_range]
        constructor
        · intro h; exact ⟨by omega, fun j hj => hall j (by omega)⟩
        · rintro ⟨h1, h2⟩
          rcases Nat.lt_or_ge n i with h | h
          · exact absurd (h2 n h) hp
          · exact h
    · have : ∃ j, j < n ∧ ¬ p j = true := Classical.byContradiction fun h => hall fun j hj =>
        Classical.byContradiction fun h' => h ⟨j, hj, h'⟩
      obtain ⟨j, hj, hp⟩ := this
      have hne : ((List.range n).takeWhile p).length ≠ (List.range n).length := by
        intro h
        have := ((ih n).1 (by rw [h]; simp)).2 j hj
        exact hp this
      rw [List.takeWhile_append, if_neg hne, ih]
      constructor
      · rintro ⟨h1, h2⟩; exact ⟨by omega, h2⟩
      · rintro ⟨h1, h2⟩
        refine ⟨?_, h2⟩
        rcases Nat.lt_or_ge n i with h | h
        · exact absurd (h2 j (by omega)) hp
        · exact h

theorem le_sharedLen {H : K → Nat → BitVec 64} {a b : K} {i : Nat} :
    i ≤ sharedLen H a b ↔ i ≤ 256 ∧ Agree H a b i := by
  rw [sharedLen, takeWhile_range_length]
  simp only [decide_eq_true_eq, Agree]

end

section
omit [Inhabited V]

theorem le_depthIn {H : K → Nat → BitVec 64} {ks : List K} {k x : K} (hx : x ∈ ks) (hne : x ≠ k) :
    sharedLen H k x ≤ depthIn H ks k := by
  apply le_foldr_max
  exact List.mem_map_of_mem (List.mem_filter.2 ⟨hx, by simpa using hne⟩)

theorem depthIn_le {H : K → Nat → BitVec 64} {ks : List K} {k : K} {n : Nat}
    (h : ∀ x ∈ ks, x ≠ k → sharedLen H k x ≤ n) : depthIn H ks k ≤ n := by
  apply foldr_max_le
  intro y hy
  obtain ⟨x, hx, rfl⟩ := List.mem_map.1 hy
  have := List.mem_filter.1 hx
  exact h x this.1 (by simpa using this.2)

theorem depthIn_perm {H : K → Nat → BitVec 64} {ks ks' : List K} (h : ks.Perm ks') (k : K) :
    depthIn H ks k = depthIn H ks' k := foldr_max_perm ((h.filter _).map _)

theorem depthSum_perm {H : K → Nat → BitVec 64} {ks ks' : List K} (h : ks.Perm ks') :
    depthSum H ks = depthSum H ks' := by
  unfold depthSum
  rw [show depthIn H ks = depthIn H ks' from funext (fun k => depthIn_perm h k)]
  exact (h.map _).sum_nat

theorem meanDepth64_perm {H : K → Nat → BitVec 64} {ks ks' : List K} (h : ks.Perm ks') :
    meanDepth64 H ks = meanDepth64 H ks' := by
  unfold meanDepth64; rw [depthSum_perm h, h.length_eq]

end

/-! ### Exact steps -/

omit [DecidableEq K] in
/-- Which keys collide does not depend on the order of the entries. -/
theorem CollidesWith.congr {H : K → Nat → BitVec 64} {ks ks' : List K} {k k' : K} (h : ∀ x, x ∈ ks ↔ x ∈ ks')
    (hc : CollidesWith H ks k k') : CollidesWith H ks' k k' := by
  obtain ⟨d, h1, h2, h3, h4⟩ := hc
  exact ⟨d, h1, (h _).1 h2, h3, fun k'' hk => h4 k'' ((h _).2 hk)⟩

omit [DecidableEq K] in
theorem Collides.congr {H : K → Nat → BitVec 64} {ks ks' : List K} {k : K} (h : ∀ x, x ∈ ks ↔ x ∈ ks')
    (hc : Collides H ks k) : Collides H ks' k := by
  obtain ⟨k', hc⟩ := hc
  exact ⟨k', hc.congr h⟩

omit [DecidableEq K] in
theorem Near.apart {H : K → Nat → BitVec 64} {a b : K} (h : Near H a b) : Apart H a b := by
  obtain ⟨j, h1, h2⟩ := h
  exact ⟨j, by omega, h2⟩

omit [DecidableEq K] in
theorem Near.lt {H : K → Nat → BitVec 64} {a b : K} {d : Nat} (h : Near H a b) (hd : Agree H a b (d + 1)) : d < 240 := by
  obtain ⟨j, h1, h2⟩ := h
  exact Nat.lt_of_not_le fun hle => h2 (hd j (by omega))

omit [DecidableEq K] in
theorem ByteFits.of_near {H : K → Nat → BitVec 64} {ks : List K} {k : K} (h : ∀ k' ∈ ks, Near H k k') : ByteFits H ks k :=
  ⟨fun k' hk' => (h k' hk').apart, fun k' d hc => (h k' hc.1).lt hc.2.1⟩

omit [DecidableEq K] in
theorem CollidesAt.congr {H : K → Nat → BitVec 64} {ks ks' : List K} {k k' : K} {d : Nat} (h : ∀ x, x ∈ ks ↔ x ∈ ks')
    (hc : CollidesAt H ks k k' d) : CollidesAt H ks' k k' d := by
  obtain ⟨h1, h2, h3, h4⟩ := hc
  refine ⟨(h _).1 h1, h2, fun k'' hk => h3 k'' ((h _).2 hk), h4.imp id ?_⟩
  rintro ⟨k'', g1, g2⟩
  exact ⟨k'', (h _).1 g1, g2⟩

omit [DecidableEq K] in
theorem ByteFits.congr {H : K → Nat → BitVec 64} {ks ks' : List K} {k : K} (h : ∀ x, x ∈ ks ↔ x ∈ ks')
    (hf : ByteFits H ks k) : ByteFits H ks' k :=
  ⟨fun k' hk' => hf.1 k' ((h k').2 hk'), fun k' d hc => hf.2 k' d (CollidesAt.congr (fun x => (h x).symm) hc)⟩

omit [DecidableEq K] in
/-- A collision happens at some depth. -/
theorem CollidesWith.at {H : K → Nat → BitVec 64} {ks : List K} {k k' : K} (h : CollidesWith H ks k k') :
    ∃ d, CollidesAt H ks k k' d := by
  obtain ⟨d, h1, h2, h3, h4⟩ := h
  obtain ⟨d, rfl⟩ : ∃ e, d = e + 1 := ⟨d - 1, by omega⟩
  clear h1
  induction d with
  | zero => exact ⟨0, h2, h3, h4, Or.inl rfl⟩
  | succ d ih =>
    by_cases h : ∀ k'' ∈ ks, Agree H k k'' (d + 1) → k'' = k'
    · exact ih (h3.mono (by omega)) h
    · refine ⟨d + 1, h2, h3, h4, Or.inr ?_⟩
      simp only [Classical.not_forall] at h
      obtain ⟨k'', g1, g2, g3⟩ := h
      exact ⟨k'', g1, g3, g2⟩

omit [DecidableEq K] in
theorem CollidesAt.with {H : K → Nat → BitVec 64} {ks : List K} {k k' : K} {d : Nat} (h : CollidesAt H ks k k' d) :
    CollidesWith H ks k k' := ⟨d + 1, by omega, h.1, h.2.1, h.2.2.1⟩

omit [DecidableEq K] in
/-- The key a new key collides with is unique. -/
theorem CollidesWith.unique {H : K → Nat → BitVec 64} {ks : List K} {k a b : K}
    (ha : CollidesWith H ks k a) (hb : CollidesWith H ks k b) : a = b := by
  obtain ⟨d, _, h2, h3, h4⟩ := ha
  obtain ⟨e, _, g2, g3, g4⟩ := hb
  rcases Nat.le_total d e with h | h
  · exact (h4 b g2 (g3.mono h)).symm
  · exact g4 a h2 (h3.mono h)

variable {H : K → Nat → BitVec 64} {ex : Prop} {lossy : V → V}

/-- The calls that `MStepX` treats like `MStep`. -/
def MOp.plain : MOp K V → Bool
  | .set _ _ => false
  | .all _ => false
  | .dep => false
  | _ => true

theorem MStepX_plain {m m' : FMap K V} {op : MOp K V} {o : MOut K V} (hp : op.plain = true) :
    MStepX H ex lossy m op o m' ↔ MStep m op o m' := by
  cases op <;> first | exact Iff.rfl | exact absurd hp (by simp [MOp.plain])

theorem MStepX.toStep (hl : ∀ v, lossy v = v) {m m' : FMap K V} {op : MOp K V} {o : MOut K V} :
    MStepX H ex lossy m op o m' → MStep m op o m' := by
  cases op with
  | set k v =>
    rintro ⟨h1, ⟨_, _, h2⟩ | ⟨_, h2⟩⟩
    · exact ⟨h1, by rw [h2, hl]⟩
    · exact ⟨h1, h2⟩
  | all f => rintro ⟨order, ⟨h1, _⟩, h3⟩; exact ⟨order, h1, h3⟩
  | dep => rintro ⟨⟨q, h1, _⟩, h2⟩; exact ⟨⟨q, h1⟩, h2⟩
  | _ => exact (MStepX_plain rfl).1

/-- A lossy step is a step, possibly with another value for `Set`. -/
theorem MStepX.exStep {m m' : FMap K V} {op : MOp K V} {o : MOut K V} (h : MStepX H ex lossy m op o m') :
    MStep m op o m' ∨ ∃ k v, op = .set k v ∧ MStep m (.set k (lossy v)) o m' := by
  cases op with
  | set k v =>
    obtain ⟨h1, ⟨_, _, h2⟩ | ⟨_, h2⟩⟩ := h
    · exact Or.inr ⟨k, v, rfl, h1, h2⟩
    · exact Or.inl ⟨h1, h2⟩
  | all f => obtain ⟨order, ⟨h1, _⟩, h3⟩ := h; exact Or.inl ⟨order, h1, h3⟩
  | dep => obtain ⟨⟨q, h1, _⟩, h2⟩ := h; exact Or.inl ⟨⟨q, h1⟩, h2⟩
  | _ => exact Or.inl ((MStepX_plain rfl).1 h)

theorem MStepX.perm {m₁ m₂ m₁' : FMap K V} {op : MOp K V} {o : MOut K V} (hp : m₁.Perm m₂)
    (hn : m₁.keys.Nodup) (h : MStepX H ex lossy m₁ op o m₁') : ∃ m₂', MStepX H ex lossy m₂ op o m₂' ∧ m₁'.Perm m₂' := by
  have hk := fun x => (FMap.keys_perm hp).mem_iff (a := x)
  cases op with
  | set k v =>
    have hg := FMap.get_perm hp hn k
    have hcc : Collides H m₁.keys k ↔ Collides H m₂.keys k :=
      ⟨Collides.congr hk, Collides.congr (fun x => (hk x).symm)⟩
    simp only [MStepX, ← hg, ← hcc]
    obtain ⟨h0, ⟨h1, h2, rfl⟩ | ⟨h1, rfl⟩⟩ := h
    · exact ⟨_, ⟨h0, Or.inl ⟨h1, h2, rfl⟩⟩, FMap.set_perm hp k _⟩
    · exact ⟨_, ⟨h0, Or.inr ⟨h1, rfl⟩⟩, FMap.set_perm hp k _⟩
  | all f =>
    obtain ⟨order, ⟨h1, h2⟩, rfl, rfl⟩ := h
    exact ⟨_, ⟨order, ⟨h1.trans hp, h2⟩, rfl, rfl⟩, List.Perm.refl _⟩
  | dep =>
    obtain ⟨⟨q, h1, h2⟩, rfl⟩ := h
    exact ⟨m₂, ⟨⟨q, h1, fun e => by rw [h2 e, meanDepth64_perm (FMap.keys_perm hp)]⟩, rfl⟩, hp⟩
  | _ => exact MStep.perm (op := _) hp hn ((MStepX_plain rfl).1 h)

theorem MStepX.nodup {m m' : FMap K V} {op : MOp K V} {o : MOut K V} (hn : m.keys.Nodup)
    (h : MStepX H ex lossy m op o m') : m'.keys.Nodup := by
  rcases h.exStep with h' | ⟨k, v, rfl, h'⟩
  · exact MStep.nodup hn h'
  · exact MStep.nodup hn h'

theorem MStepX.keys {m m' : FMap K V} {op : MOp K V} {o : MOut K V} (h : MStepX H ex lossy m op o m') {x : K}
    (hx : x ∈ m'.keys) : x ∈ m.keys ∨ x ∈ op.stores := by
  rcases h.exStep with h' | ⟨k, v, rfl, h'⟩
  · exact MStep.keys h' hx
  · exact MStep.keys (op := .set k (lossy v)) h' hx

theorem MStepX.after_keys {m m' : FMap K V} {op : MOp K V} {o : MOut K V} (h : MStepX H ex lossy m op o m') {x : K} :
    x ∈ m'.keys ↔ x ∈ op.after m.keys := by
  rcases h.exStep with h' | ⟨k, v, rfl, h'⟩
  · exact MStep.after_keys h'
  · exact MStep.after_keys (op := .set k (lossy v)) h'

/-- The answer and the new contents are determined by the contents. -/
theorem MStepX.det (hex : ex) {m₁ m₂ m₁' m₂' : FMap K V} {op : MOp K V} {o₁ o₂ : MOut K V} (hp : m₁.Perm m₂)
    (hn : m₁.keys.Nodup) (h₁ : MStepX H ex lossy m₁ op o₁ m₁') (h₂ : MStepX H ex lossy m₂ op o₂ m₂') :
    o₁ = o₂ ∧ m₁'.Perm m₂' := by
  have hg := FMap.get_perm hp hn
  have hk := fun x => (FMap.keys_perm hp).mem_iff (a := x)
  cases op with
  | set k v =>
    have hcc : Collides H m₁.keys k ↔ Collides H m₂.keys k :=
      ⟨Collides.congr hk, Collides.congr (fun x => (hk x).symm)⟩
    obtain ⟨rfl, h⟩ := h₁
    obtain ⟨rfl, g⟩ := h₂
    rw [← hg k, ← hcc] at g
    refine ⟨rfl, ?_⟩
    rcases h with ⟨a1, a2, rfl⟩ | ⟨a1, rfl⟩ <;> rcases g with ⟨b1, b2, rfl⟩ | ⟨b1, rfl⟩
    · exact FMap.set_perm hp k _
    · exact absurd ⟨a1, a2⟩ b1
    · exact absurd ⟨b1, b2⟩ a1
    · exact FMap.set_perm hp k _
  | all f =>
    obtain ⟨o1, ⟨h1, h2⟩, rfl, rfl⟩ := h₁
    obtain ⟨o2, ⟨g1, g2⟩, rfl, rfl⟩ := h₂
    obtain rfl : o1 = o2 := perm_sorted_eq (fun a b => Before.asymm) ((h1.trans hp).trans g1.symm) h2 g2
    exact ⟨rfl, List.Perm.refl _⟩
  | dep =>
    obtain ⟨⟨q, rfl, h1⟩, rfl⟩ := h₁
    obtain ⟨⟨q', rfl, h2⟩, rfl⟩ := h₂
    exact ⟨by rw [h1 hex, h2 hex, meanDepth64_perm (FMap.keys_perm hp)], hp⟩
  | get k => obtain ⟨rfl, rfl⟩ := h₁; obtain ⟨rfl, rfl⟩ := h₂; exact ⟨by rw [hg], hp⟩
  | val k => obtain ⟨rfl, rfl⟩ := h₁; obtain ⟨rfl, rfl⟩ := h₂; exact ⟨by rw [hg], hp⟩
  | ptr k => obtain ⟨rfl, rfl⟩ := h₁; obtain ⟨rfl, rfl⟩ := h₂; exact ⟨by rw [hg], hp⟩
  | mod k f =>
    simp only [MStepX, MStep] at h₁ h₂
    rw [← hg k] at h₂
    split at h₁ <;> rename_i hgk <;> rw [hgk] at h₂ <;> obtain ⟨rfl, rfl⟩ := h₁ <;> obtain ⟨rfl, rfl⟩ := h₂ <;>
      exact ⟨rfl, FMap.set_perm hp k _⟩
  | del k => obtain ⟨rfl, rfl⟩ := h₁; obtain ⟨rfl, rfl⟩ := h₂; exact ⟨rfl, FMap.del_perm hp k⟩
  | len => obtain ⟨rfl, rfl⟩ := h₁; obtain ⟨rfl, rfl⟩ := h₂; exact ⟨by rw [hp.length_eq], hp⟩
  | write k v =>
    obtain ⟨rfl, rfl⟩ := h₁; obtain ⟨rfl, rfl⟩ := h₂
    refine ⟨rfl, ?_⟩
    rw [hg k]
    split
    · exact FMap.set_perm hp k v
    · exact hp

theorem RunBy.det (hex : ex) {m₁ m₂ m₁' m₂' : FMap K V} {ops : List (MOp K V)} {os₁ os₂ : List (MOut K V)}
    (hp : m₁.Perm m₂) (hn : m₁.keys.Nodup) (h₁ : RunBy (MStepX H ex lossy) m₁ ops os₁ m₁')
    (h₂ : RunBy (MStepX H ex lossy) m₂ ops os₂ m₂') : os₁ = os₂ ∧ m₁'.Perm m₂' := by
  induction ops generalizing m₁ m₂ os₁ os₂ with
  | nil => obtain ⟨rfl, rfl⟩ := h₁; obtain ⟨rfl, rfl⟩ := h₂; exact ⟨rfl, hp⟩
  | cons op ops ih =>
    obtain ⟨o, os, m, rfl, a2, a3⟩ := h₁
    obtain ⟨o', os', m', rfl, b2, b3⟩ := h₂
    obtain ⟨rfl, hp'⟩ := a2.det hex hp hn b2
    obtain ⟨rfl, hp''⟩ := ih hp' (a2.nodup hn) a3 b3
    exact ⟨rfl, hp''⟩

theorem RunBy.perm {m₁ m₂ m₁' : FMap K V} {ops : List (MOp K V)} {os : List (MOut K V)}
    (hp : m₁.Perm m₂) (hn : m₁.keys.Nodup) (h : RunBy (MStepX H ex lossy) m₁ ops os m₁') :
    ∃ m₂', RunBy (MStepX H ex lossy) m₂ ops os m₂' ∧ m₁'.Perm m₂' := by
  induction ops generalizing m₁ m₂ os with
  | nil => obtain ⟨rfl, rfl⟩ := h; exact ⟨m₂, ⟨rfl, rfl⟩, hp⟩
  | cons op ops ih =>
    obtain ⟨o, os', m, rfl, h2, h3⟩ := h
    obtain ⟨m', g1, g2⟩ := h2.perm hp hn
    obtain ⟨m'', g3, g4⟩ := ih g2 (h2.nodup hn) h3
    exact ⟨m'', ⟨o, os', m', rfl, g1, g3⟩, g4⟩

theorem RunBy.nodup {m m' : FMap K V} {ops : List (MOp K V)} {os : List (MOut K V)} (hn : m.keys.Nodup)
    (h : RunBy (MStepX H ex lossy) m ops os m') : m'.keys.Nodup := by
  induction ops generalizing m os with
  | nil => obtain ⟨rfl, rfl⟩ := h; exact hn
  | cons op ops ih =>
    obtain ⟨o, os', m1, rfl, h2, h3⟩ := h
    exact ih (h2.nodup hn) h3

theorem mem_keysAfter {ks ks' : List K} (h : ∀ x, x ∈ ks ↔ x ∈ ks') (ops : List (MOp K V)) (x : K) :
    x ∈ keysAfter ks ops ↔ x ∈ keysAfter ks' ops := by
  induction ops generalizing ks ks' with
  | nil => exact h x
  | cons op ops ih => exact ih (fun x => mem_after h)

theorem RunBy.keysAfter {m m' : FMap K V} {ops : List (MOp K V)} {os : List (MOut K V)}
    (h : RunBy (MStepX H ex lossy) m ops os m') (x : K) : x ∈ m'.keys ↔ x ∈ Spec.keysAfter m.keys ops := by
  induction ops generalizing m os with
  | nil => obtain ⟨rfl, rfl⟩ := h; rfl
  | cons op ops ih =>
    obtain ⟨o, os', m1, rfl, h2, h3⟩ := h
    rw [ih h3]
    exact mem_keysAfter (fun x => h2.after_keys) ops x

omit [Inhabited V] in
theorem nodup_after {ks : List K} (hn : ks.Nodup) (op : MOp K V) : (op.after ks).Nodup := by
  cases op with
  | set k v => simp only [MOp.after]; split; exact hn; exact List.nodup_cons.2 ⟨by assumption, hn⟩
  | mod k f => simp only [MOp.after]; split; exact hn; exact List.nodup_cons.2 ⟨by assumption, hn⟩
  | del k => exact hn.filter _
  | _ => exact hn

omit [Inhabited V] in
theorem nodup_keysAfter {ks : List K} (hn : ks.Nodup) (ops : List (MOp K V)) : (keysAfter ks ops).Nodup := by
  induction ops generalizing ks with
  | nil => exact hn
  | cons op ops ih => exact ih (nodup_after hn op)

omit [DecidableEq K] in
theorem perm_of_nodup {l l' : List K} (hn : l.Nodup) (hn' : l'.Nodup) (h : ∀ x, x ∈ l ↔ x ∈ l') : l.Perm l' :=
  (List.perm_ext_iff_of_nodup hn hn').2 h

theorem RunBy.mono {st st' : FMap K V → MOp K V → MOut K V → FMap K V → Prop} (h : ∀ m op o m', st m op o m' → st' m op o m')
    {m m' : FMap K V} {ops : List (MOp K V)} {os : List (MOut K V)} (hr : RunBy st m ops os m') : RunBy st' m ops os m' := by
  induction ops generalizing m os with
  | nil => exact hr
  | cons op ops ih =>
    obtain ⟨o, os', m₁, h1, h2, h3⟩ := hr
    exact ⟨o, os', m₁, h1, h _ _ _ _ h2, ih h3⟩

theorem RunBy.split {st : FMap K V → MOp K V → MOut K V → FMap K V → Prop} {m m'' : FMap K V}
    {ops ops' : List (MOp K V)} {os : List (MOut K V)} (h : RunBy st m (ops ++ ops') os m'') :
    ∃ os₁ os₂ m', os = os₁ ++ os₂ ∧ RunBy st m ops os₁ m' ∧ RunBy st m' ops' os₂ m'' := by
  induction ops generalizing m os with
  | nil => exact ⟨[], os, m, rfl, ⟨rfl, rfl⟩, h⟩
  | cons op ops ih =>
    obtain ⟨o, os', m₁, rfl, h2, h3⟩ := h
    obtain ⟨a, b, m', rfl, g2, g3⟩ := ih h3
    exact ⟨o :: a, b, m', rfl, ⟨o, a, m₁, rfl, h2, g2⟩, g3⟩

theorem RunBy.length {st : FMap K V → MOp K V → MOut K V → FMap K V → Prop} {m m' : FMap K V}
    {ops : List (MOp K V)} {os : List (MOut K V)} (h : RunBy st m ops os m') : os.length = ops.length := by
  induction ops generalizing m os with
  | nil => obtain ⟨rfl, rfl⟩ := h; rfl
  | cons op ops ih =>
    obtain ⟨o, os', m₁, rfl, h2, h3⟩ := h
    simp [ih h3]

theorem RunBy.append {st : FMap K V → MOp K V → MOut K V → FMap K V → Prop} {m m' m'' : FMap K V}
    {ops ops' : List (MOp K V)} {os os' : List (MOut K V)} (h1 : RunBy st m ops os m') (h2 : RunBy st m' ops' os' m'') :
    RunBy st m (ops ++ ops') (os ++ os') m'' := by
  induction ops generalizing m os with
  | nil => obtain ⟨rfl, rfl⟩ := h1; exact h2
  | cons op ops ih =>
    obtain ⟨o, os₁, m₁, rfl, g2, g3⟩ := h1
    exact ⟨o, os₁ ++ os', m₁, rfl, g2, ih g3⟩

end

section
variable {K V : Type} [DecidableEq K]

theorem length_keysAfter (ks : List K) (ops : List (MOp K V)) : (keysAfter ks ops).length ≤ ks.length + ops.length := by
  induction ops generalizing ks with
  | nil => simp [keysAfter]
  | cons op ops ih =>
    have h1 : (op.after ks).length ≤ ks.length + 1 := by
      cases op <;> simp only [MOp.after]
      case set k v => split <;> simp
      case mod k f => split <;> simp
      case del k => exact Nat.le_succ_of_le (List.length_filter_le _ _)
      all_goals omega
    have h2 := ih (op.after ks)
    simp only [keysAfter, List.foldl_cons, List.length_cons] at h2 ⊢
    omega

theorem sharedLen_le (H : K → Nat → BitVec 64) (a b : K) : sharedLen H a b ≤ 256 := (le_sharedLen.1 (Nat.le_refl _)).1

theorem depthSum_le (H : K → Nat → BitVec 64) (ks : List K) : depthSum H ks ≤ 256 * ks.length := by
  have : ∀ l : List K, (l.map (depthIn H ks)).sum ≤ 256 * l.length := by
    intro l
    induction l with
    | nil => simp
    | cons k l ih =>
      have : depthIn H ks k ≤ 256 := foldr_max_le fun x hx => by
        obtain ⟨b, _, rfl⟩ := List.mem_map.1 hx
        exact sharedLen_le H k b
      simp only [List.map_cons, List.sum_cons, List.length_cons]
      omega
  exact this ks

/-- With fewer than `2^56` keys the counters do not overflow. -/
theorem meanDepth64_eq {H : K → Nat → BitVec 64} {ks : List K} (h : ks.length < 2 ^ 56) :
    meanDepth64 H ks = meanDepth H ks := by
  have h1 := depthSum_le H ks
  have h2 : ks.length % 2 ^ 64 = ks.length := Nat.mod_eq_of_lt (by omega)
  have h3 : depthSum H ks % 2 ^ 64 = depthSum H ks := Nat.mod_eq_of_lt (by omega)
  rw [meanDepth64, meanDepth, h2, h3]
  simp only [List.length_eq_zero_iff]

end

/-! ### Reading off the answers to concrete calls -/

section
variable {K V : Type} [DecidableEq K] [Inhabited V] {H : K → Nat → BitVec 64} {ex : Prop} {lossy : V → V}
  {m m' : FMap K V} {ops : List (MOp K V)} {os : List (MOut K V)}

theorem run_nil : RunBy (MStepX H ex lossy) m [] os m' ↔ os = [] ∧ m' = m := Iff.rfl

theorem run_cons {op : MOp K V} : RunBy (MStepX H ex lossy) m (op :: ops) os m' ↔
    ∃ o m₁, MStepX H ex lossy m op o m₁ ∧ ∃ os', RunBy (MStepX H ex lossy) m₁ ops os' m' ∧ os = o :: os' :=
  ⟨fun ⟨o, os', m₁, h1, h2, h3⟩ => ⟨o, m₁, h2, os', h3, h1⟩, fun ⟨o, m₁, h2, os', h3, h1⟩ => ⟨o, os', m₁, h1, h2, h3⟩⟩

theorem run_get {k : K} : RunBy (MStepX H ex lossy) m (.get k :: ops) os m' ↔
    ∃ os', RunBy (MStepX H ex lossy) m ops os' m' ∧ os = .pair ((m.get k).getD default) (m.get k).isSome :: os' := by
  simp only [run_cons, MStepX, MStep, and_assoc, exists_and_left, exists_eq_left]

theorem run_val {k : K} : RunBy (MStepX H ex lossy) m (.val k :: ops) os m' ↔
    ∃ os', RunBy (MStepX H ex lossy) m ops os' m' ∧ os = .one ((m.get k).getD default) :: os' := by
  simp only [run_cons, MStepX, MStep, and_assoc, exists_and_left, exists_eq_left]

theorem run_ptr {k : K} : RunBy (MStepX H ex lossy) m (.ptr k :: ops) os m' ↔
    ∃ os', RunBy (MStepX H ex lossy) m ops os' m' ∧ os = .opt (m.get k) :: os' := by
  simp only [run_cons, MStepX, MStep, and_assoc, exists_and_left, exists_eq_left]

theorem run_del {k : K} : RunBy (MStepX H ex lossy) m (.del k :: ops) os m' ↔
    ∃ os', RunBy (MStepX H ex lossy) (FMap.del m k) ops os' m' ∧ os = .unit :: os' := by
  simp only [run_cons, MStepX, MStep, and_assoc, exists_and_left, exists_eq_left]

theorem run_len : RunBy (MStepX H ex lossy) m (.len :: ops) os m' ↔
    ∃ os', RunBy (MStepX H ex lossy) m ops os' m' ∧ os = .num (BitVec.ofNat 64 m.length) :: os' := by
  simp only [run_cons, MStepX, MStep, and_assoc, exists_and_left, exists_eq_left]

theorem run_write {k : K} {v : V} : RunBy (MStepX H ex lossy) m (.write k v :: ops) os m' ↔
    ∃ os', RunBy (MStepX H ex lossy) (if (m.get k).isSome then m.set k v else m) ops os' m' ∧ os = .unit :: os' := by
  simp only [run_cons, MStepX, MStep, and_assoc, exists_and_left, exists_eq_left]

theorem run_mod {k : K} {f : V → Bool → V} : RunBy (MStepX H ex lossy) m (.mod k f :: ops) os m' ↔
    ∃ os', RunBy (MStepX H ex lossy) (m.set k (f ((m.get k).getD default) (m.get k).isSome)) ops os' m' ∧
      os = .calls [((m.get k).getD default, (m.get k).isSome)] :: os' := by
  cases hg : m.get k <;> simp only [run_cons, MStepX, MStep, hg, and_assoc, exists_and_left, exists_eq_left, Option.getD, Option.isSome]

theorem run_all {f : List (K × V) → K → V → V × Bool} : RunBy (MStepX H ex lossy) m (.all f :: ops) os m' ↔
    ∃ order, order.Perm m ∧ order.Pairwise (fun a b => Before H a.1 b.1) ∧
      ∃ os', RunBy (MStepX H ex lossy) (visit f [] order).2 ops os' m' ∧ os = .log (visit f [] order).1 :: os' := by
  simp only [run_cons, MStepX]
  constructor
  · rintro ⟨_, _, ⟨order, h1, rfl, rfl⟩, h2⟩; exact ⟨order, h1.1, h1.2, h2⟩
  · rintro ⟨order, h1, h2, h3⟩; exact ⟨_, _, ⟨order, ⟨h1, h2⟩, rfl, rfl⟩, h3⟩

theorem run_dep (hex : ex) : RunBy (MStepX H ex lossy) m (.dep :: ops) os m' ↔
    ∃ os', RunBy (MStepX H ex lossy) m ops os' m' ∧ os = .rat (meanDepth64 H m.keys) :: os' := by
  simp only [run_cons, MStepX, hex, true_implies]
  constructor
  · rintro ⟨_, _, ⟨⟨q, rfl, rfl⟩, rfl⟩, h2⟩; exact h2
  · intro h; exact ⟨_, _, ⟨⟨_, rfl, rfl⟩, rfl⟩, h⟩

/-- `Set` of a key that is present or does not collide. -/
theorem run_set {k : K} {v : V} (hl : lossy v = v ∨ k ∈ m.keys ∨ ¬ Collides H m.keys k) :
    RunBy (MStepX H ex lossy) m (.set k v :: ops) os m' ↔
    ∃ os', RunBy (MStepX H ex lossy) (m.set k v) ops os' m' ∧ os = .unit :: os' := by
  have : ∀ m₁ : FMap K V, ((m.get k = none ∧ Collides H m.keys k ∧ m₁ = m.set k (lossy v)) ∨
      (¬ (m.get k = none ∧ Collides H m.keys k) ∧ m₁ = m.set k v)) ↔ m₁ = m.set k v := by
    intro m₁
    by_cases hc : m.get k = none ∧ Collides H m.keys k
    · have hlv : lossy v = v := by
        rcases hl with h | h | h
        · exact h
        · exact absurd h (FMap.get_eq_none.1 hc.1)
        · exact absurd hc.2 h
      simp [hc, hlv]
    · have : ¬ (m.get k = none ∧ Collides H m.keys k ∧ m₁ = m.set k (lossy v)) := fun h => hc ⟨h.1, h.2.1⟩
      simp [hc, this]
  simp only [run_cons, MStepX, this, and_assoc, exists_and_left, exists_eq_left]

end

/-! ### Sets -/

section
variable {K : Type} [DecidableEq K]

theorem SStep.perm {m₁ m₂ m₁' : List K} {op : SOp K} {o : SOut K} (hp : m₁.Perm m₂)
    (h : SStep m₁ op o m₁') : ∃ m₂', SStep m₂ op o m₂' ∧ m₁'.Perm m₂' := by
  cases op with
  | has k =>
    obtain ⟨rfl, rfl⟩ := h
    exact ⟨m₂, ⟨by rw [decide_eq_decide.2 hp.mem_iff], rfl⟩, hp⟩
  | add k =>
    obtain ⟨rfl, rfl⟩ := h
    refine ⟨_, ⟨rfl, rfl⟩, ?_⟩
    by_cases hk : k ∈ m₁
    · rw [if_pos hk, if_pos (hp.mem_iff.1 hk)]; exact hp
    · rw [if_neg hk, if_neg (fun h => hk (hp.mem_iff.2 h))]; exact hp.cons k
  | del k => obtain ⟨rfl, rfl⟩ := h; exact ⟨_, ⟨rfl, rfl⟩, hp.filter _⟩
  | len => obtain ⟨rfl, rfl⟩ := h; exact ⟨m₂, ⟨by rw [hp.length_eq], rfl⟩, hp⟩
  | dep => obtain ⟨h, rfl⟩ := h; exact ⟨m₂, ⟨h, rfl⟩, hp⟩
  | all f => obtain ⟨rfl, order, h1, rfl⟩ := h; exact ⟨m₂, ⟨rfl, order, h1.trans hp, rfl⟩, hp⟩

theorem SStep.nodup {m m' : List K} {op : SOp K} {o : SOut K} (hn : m.Nodup) (h : SStep m op o m') : m'.Nodup := by
  cases op with
  | has k => obtain ⟨rfl, rfl⟩ := h; exact hn
  | add k =>
    obtain ⟨rfl, rfl⟩ := h
    split
    · exact hn
    · exact List.nodup_cons.2 ⟨by assumption, hn⟩
  | del k => obtain ⟨rfl, rfl⟩ := h; exact hn.filter _
  | len => obtain ⟨rfl, rfl⟩ := h; exact hn
  | dep => obtain ⟨_, rfl⟩ := h; exact hn
  | all f => obtain ⟨rfl, _⟩ := h; exact hn

theorem SStep.keys {m m' : List K} {op : SOp K} {o : SOut K} (h : SStep m op o m') {x : K} (hx : x ∈ m') :
    x ∈ m ∨ x ∈ op.stores := by
  cases op with
  | has k => obtain ⟨rfl, rfl⟩ := h; exact Or.inl hx
  | add k =>
    obtain ⟨rfl, rfl⟩ := h
    split at hx
    · exact Or.inl hx
    · rcases List.mem_cons.1 hx with h | h
      · right; simp [SOp.stores, h]
      · exact Or.inl h
  | del k => obtain ⟨rfl, rfl⟩ := h; exact Or.inl (List.mem_filter.1 hx).1
  | len => obtain ⟨rfl, rfl⟩ := h; exact Or.inl hx
  | dep => obtain ⟨_, rfl⟩ := h; exact Or.inl hx
  | all f => obtain ⟨rfl, _⟩ := h; exact Or.inl hx

variable {H : K → Nat → BitVec 64} {ex : Prop} {inv : Bool}

theorem SStepX.toStep {m m' : List K} {op : SOp K} {o : SOut K} (h : SStepX H ex false m op o m') : SStep m op o m' := by
  cases op with
  | del k => exact h
  | all f => obtain ⟨h0, order, ⟨h1, _⟩, h2⟩ := h; exact ⟨h0, order, h1, h2⟩
  | dep => obtain ⟨⟨q, h1, _⟩, h2⟩ := h; exact ⟨⟨q, h1⟩, h2⟩
  | has k => exact h
  | add k => exact h
  | len => exact h

theorem SStepX.perm {m₁ m₂ m₁' : List K} {op : SOp K} {o : SOut K} (hp : m₁.Perm m₂)
    (h : SStepX H ex inv m₁ op o m₁') : ∃ m₂', SStepX H ex inv m₂ op o m₂' ∧ m₁'.Perm m₂' := by
  cases op with
  | del k =>
    obtain ⟨rfl, h⟩ := h
    cases inv with
    | false => simp only [Bool.false_eq_true, if_false] at h; subst h; exact ⟨_, ⟨rfl, rfl⟩, hp.filter _⟩
    | true =>
      simp only [if_true] at h
      have hm := fun x => hp.mem_iff (a := x)
      rcases h with ⟨rfl, h⟩ | ⟨h1, k', hc, rfl⟩
      · refine ⟨m₂, ⟨rfl, Or.inl ⟨rfl, ?_⟩⟩, hp⟩
        exact h.imp (hm k).1 (fun h h' => h (h'.congr (fun x => (hm x).symm)))
      · exact ⟨_, ⟨rfl, Or.inr ⟨fun h => h1 ((hm k).2 h), k', hc.congr hm, rfl⟩⟩, hp.filter _⟩
  | all f =>
    obtain ⟨rfl, order, ⟨h1, h2⟩, rfl⟩ := h
    exact ⟨m₂, ⟨rfl, order, ⟨h1.trans hp, h2⟩, rfl⟩, hp⟩
  | dep =>
    obtain ⟨⟨q, h1, h2⟩, rfl⟩ := h
    exact ⟨m₂, ⟨⟨q, h1, fun e => by rw [h2 e, meanDepth64_perm hp]⟩, rfl⟩, hp⟩
  | has k => exact SStep.perm (op := .has k) hp h
  | add k => exact SStep.perm (op := .add k) hp h
  | len => exact SStep.perm (op := .len) hp h

theorem SStepX.nodup {m m' : List K} {op : SOp K} {o : SOut K} (hn : m.Nodup) (h : SStepX H ex inv m op o m') : m'.Nodup := by
  cases op with
  | del k =>
    obtain ⟨rfl, h⟩ := h
    split at h
    · rcases h with ⟨rfl, _⟩ | ⟨_, k', _, rfl⟩
      · exact hn
      · exact hn.filter _
    · subst h; exact hn.filter _
  | all f => obtain ⟨rfl, _⟩ := h; exact hn
  | dep => obtain ⟨_, rfl⟩ := h; exact hn
  | has k => exact SStep.nodup (op := .has k) hn h
  | add k => exact SStep.nodup (op := .add k) hn h
  | len => exact SStep.nodup (op := .len) hn h

theorem SStepX.keys {m m' : List K} {op : SOp K} {o : SOut K} (h : SStepX H ex inv m op o m') {x : K} (hx : x ∈ m') :
    x ∈ m ∨ x ∈ op.stores := by
  cases op with
  | del k =>
    obtain ⟨rfl, h⟩ := h
    split at h
    · rcases h with ⟨rfl, _⟩ | ⟨_, k', _, rfl⟩
      · exact Or.inl hx
      · exact Or.inl (List.mem_filter.1 hx).1
    · subst h; exact Or.inl (List.mem_filter.1 hx).1
  | all f => obtain ⟨rfl, _⟩ := h; exact Or.inl hx
  | dep => obtain ⟨_, rfl⟩ := h; exact Or.inl hx
  | has k => exact SStep.keys (op := .has k) h hx
  | add k => exact SStep.keys (op := .add k) h hx
  | len => exact SStep.keys (op := .len) h hx

theorem SStep.after_keys {m m' : List K} {op : SOp K} {o : SOut K} (h : SStep m op o m') : m' = op.after m := by
  cases op with
  | has k => exact h.2
  | add k => exact h.2
  | del k => exact h.2
  | len => exact h.2
  | dep => exact h.2
  | all f => exact h.1

theorem SStepX.det (hex : ex) {m₁ m₂ m₁' m₂' : List K} {op : SOp K} {o₁ o₂ : SOut K} (hp : m₁.Perm m₂)
    (h₁ : SStepX H ex inv m₁ op o₁ m₁') (h₂ : SStepX H ex inv m₂ op o₂ m₂') : o₁ = o₂ ∧ m₁'.Perm m₂' := by
  have hm := fun x => hp.mem_iff (a := x)
  cases op with
  | del k =>
    obtain ⟨rfl, h⟩ := h₁
    obtain ⟨rfl, g⟩ := h₂
    refine ⟨rfl, ?_⟩
    cases inv with
    | false =>
      simp only [Bool.false_eq_true, if_false] at h g
      subst h; subst g; exact hp.filter _
    | true =>
      simp only [if_true] at h g
      rcases h with ⟨rfl, h⟩ | ⟨h1, k', hc, rfl⟩ <;> rcases g with ⟨rfl, g⟩ | ⟨g1, k'', gc, rfl⟩
      · exact hp
      · rcases h with h | h
        · exact absurd ((hm k).1 h) g1
        · exact absurd ⟨k'', gc.congr (fun x => (hm x).symm)⟩ h
      · rcases g with g | g
        · exact absurd ((hm k).2 g) h1
        · exact absurd ⟨k', hc.congr hm⟩ g
      · obtain rfl := (hc.congr hm).unique gc
        exact hp.filter _
  | all f =>
    obtain ⟨rfl, o1, ⟨h1, h2⟩, rfl⟩ := h₁
    obtain ⟨rfl, o2, ⟨g1, g2⟩, rfl⟩ := h₂
    obtain rfl : o1 = o2 := perm_sorted_eq (fun a b => Before.asymm) ((h1.trans hp).trans g1.symm) h2 g2
    exact ⟨rfl, hp⟩
  | dep =>
    obtain ⟨⟨q, rfl, h1⟩, rfl⟩ := h₁
    obtain ⟨⟨q', rfl, h2⟩, rfl⟩ := h₂
    exact ⟨by rw [h1 hex, h2 hex, meanDepth64_perm hp], hp⟩
  | has k =>
    obtain ⟨rfl, rfl⟩ := h₁; obtain ⟨rfl, rfl⟩ := h₂
    exact ⟨by rw [decide_eq_decide.2 (hm k)], hp⟩
  | add k =>
    obtain ⟨rfl, rfl⟩ := h₁; obtain ⟨rfl, rfl⟩ := h₂
    refine ⟨rfl, ?_⟩
    by_cases hk : k ∈ m₁
    · rw [if_pos hk, if_pos ((hm k).1 hk)]; exact hp
    · rw [if_neg hk, if_neg (fun h => hk ((hm k).2 h))]; exact hp.cons k
  | len => obtain ⟨rfl, rfl⟩ := h₁; obtain ⟨rfl, rfl⟩ := h₂; exact ⟨by rw [hp.length_eq], hp⟩

theorem SRunBy.det (hex : ex) {m₁ m₂ m₁' m₂' : List K} {ops : List (SOp K)} {os₁ os₂ : List (SOut K)}
    (hp : m₁.Perm m₂) (h₁ : SRunBy (SStepX H ex inv) m₁ ops os₁ m₁') (h₂ : SRunBy (SStepX H ex inv) m₂ ops os₂ m₂') :
    os₁ = os₂ ∧ m₁'.Perm m₂' := by
  induction ops generalizing m₁ m₂ os₁ os₂ with
  | nil => obtain ⟨rfl, rfl⟩ := h₁; obtain ⟨rfl, rfl⟩ := h₂; exact ⟨rfl, hp⟩
  | cons op ops ih =>
    obtain ⟨o, os, m, rfl, a2, a3⟩ := h₁
    obtain ⟨o', os', m', rfl, b2, b3⟩ := h₂
    obtain ⟨rfl, hp'⟩ := a2.det hex hp b2
    obtain ⟨rfl, hp''⟩ := ih hp' a3 b3
    exact ⟨rfl, hp''⟩

theorem SRunBy.perm {m₁ m₂ m₁' : List K} {ops : List (SOp K)} {os : List (SOut K)} (hp : m₁.Perm m₂)
    (h : SRunBy (SStepX H ex inv) m₁ ops os m₁') : ∃ m₂', SRunBy (SStepX H ex inv) m₂ ops os m₂' ∧ m₁'.Perm m₂' := by
  induction ops generalizing m₁ m₂ os with
  | nil => obtain ⟨rfl, rfl⟩ := h; exact ⟨m₂, ⟨rfl, rfl⟩, hp⟩
  | cons op ops ih =>
    obtain ⟨o, os', m, rfl, h2, h3⟩ := h
    obtain ⟨m', g1, g2⟩ := h2.perm hp
    obtain ⟨m'', g3, g4⟩ := ih g2 h3
    exact ⟨m'', ⟨o, os', m', rfl, g1, g3⟩, g4⟩

theorem SRunBy.nodup {m m' : List K} {ops : List (SOp K)} {os : List (SOut K)} (hn : m.Nodup)
    (h : SRunBy (SStepX H ex inv) m ops os m') : m'.Nodup := by
  induction ops generalizing m os with
  | nil => obtain ⟨rfl, rfl⟩ := h; exact hn
  | cons op ops ih =>
    obtain ⟨o, os', m1, rfl, h2, h3⟩ := h
    exact ih (h2.nodup hn) h3

theorem SRunBy.mono {st st' : List K → SOp K → SOut K → List K → Prop} (h : ∀ m op o m', st m op o m' → st' m op o m')
    {m m' : List K} {ops : List (SOp K)} {os : List (SOut K)} (hr : SRunBy st m ops os m') : SRunBy st' m ops os m' := by
  induction ops generalizing m os with
  | nil => exact hr
  | cons op ops ih =>
    obtain ⟨o, os', m₁, h1, h2, h3⟩ := hr
    exact ⟨o, os', m₁, h1, h _ _ _ _ h2, ih h3⟩

theorem SRunBy.split {st : List K → SOp K → SOut K → List K → Prop} {m m'' : List K}
    {ops ops' : List (SOp K)} {os : List (SOut K)} (h : SRunBy st m (ops ++ ops') os m'') :
    ∃ os₁ os₂ m', os = os₁ ++ os₂ ∧ SRunBy st m ops os₁ m' ∧ SRunBy st m' ops' os₂ m'' := by
  induction ops generalizing m os with
  | nil => exact ⟨[], os, m, rfl, ⟨rfl, rfl⟩, h⟩
  | cons op ops ih =>
    obtain ⟨o, os', m₁, rfl, h2, h3⟩ := h
    obtain ⟨a, b, m', rfl, g2, g3⟩ := ih h3
    exact ⟨o :: a, b, m', rfl, ⟨o, a, m₁, rfl, h2, g2⟩, g3⟩

theorem SRunBy.elemsAfter {m m' : List K} {ops : List (SOp K)} {os : List (SOut K)}
    (h : SRunBy SStep m ops os m') : m' = Spec.elemsAfter m ops := by
  induction ops generalizing m os with
  | nil => exact h.2
  | cons op ops ih =>
    obtain ⟨o, os', m1, rfl, h2, h3⟩ := h
    rw [ih h3, h2.after_keys]; rfl

theorem mem_safter {ks ks' : List K} (h : ∀ x, x ∈ ks ↔ x ∈ ks') {op : SOp K} {x : K} :
    x ∈ op.after ks ↔ x ∈ op.after ks' := by
  cases op <;> simp only [SOp.after, h, List.mem_filter]
  all_goals
    split <;> simp [h]

theorem SOp.afterX_false (H : K → Nat → BitVec 64) (ks : List K) (op : SOp K) : op.afterX H false ks = op.after ks := by
  cases op <;> rfl

theorem elemsAfterX_false (H : K → Nat → BitVec 64) (ks : List K) (ops : List (SOp K)) :
    elemsAfterX H false ks ops = elemsAfter ks ops := by
  induction ops generalizing ks with
  | nil => rfl
  | cons op ops ih => exact (congrArg (fun x => elemsAfterX H false x ops) (SOp.afterX_false H ks op)).trans (ih _)

theorem mem_afterX {H : K → Nat → BitVec 64} {inv : Bool} {ks ks' : List K} (h : ∀ x, x ∈ ks ↔ x ∈ ks') {op : SOp K} {x : K} :
    x ∈ op.afterX H inv ks ↔ x ∈ op.afterX H inv ks' := by
  cases op with
  | del k =>
    cases inv with
    | false => exact mem_safter h (op := .del k)
    | true =>
      have hc : CollidesWith H ks k x ↔ CollidesWith H ks' k x :=
        ⟨CollidesWith.congr h, CollidesWith.congr fun x => (h x).symm⟩
      simp only [SOp.afterX, if_true, h k]
      split
      · exact h x
      · simp only [List.mem_filter, h x, decide_eq_true_eq, hc]
  | add k => exact mem_safter h (op := .add k)
  | _ => exact h x

/-- The elements after one call. -/
theorem SStepX.mem_afterX {m m' : List K} {op : SOp K} {o : SOut K} (h : SStepX H ex inv m op o m') (x : K) :
    x ∈ m' ↔ x ∈ op.afterX H inv m := by
  cases inv with
  | false => rw [SOp.afterX_false, h.toStep.after_keys]
  | true =>
    cases op with
    | del k =>
      obtain ⟨_, h⟩ := h
      simp only [if_true] at h
      simp only [SOp.afterX, if_true]
      rcases h with ⟨rfl, h⟩ | ⟨h1, k', h2, rfl⟩
      · split
        · rfl
        · rename_i hk
          simp only [List.mem_filter, decide_eq_true_eq]
          exact ⟨fun hx => ⟨hx, fun hc => (h.resolve_left hk) ⟨x, hc⟩⟩, fun hx => hx.1⟩
      · rw [if_neg h1]
        simp only [List.mem_filter, decide_eq_true_eq]
        constructor
        · rintro ⟨g1, g2⟩; exact ⟨g1, fun hc => g2 (hc.unique h2)⟩
        · rintro ⟨g1, g2⟩; exact ⟨g1, fun hc => g2 (hc ▸ h2)⟩
    | add k => obtain ⟨_, rfl⟩ := h; rfl
    | has k => obtain ⟨_, rfl⟩ := h; rfl
    | len => obtain ⟨_, rfl⟩ := h; rfl
    | dep => obtain ⟨_, rfl⟩ := h; rfl
    | all f => obtain ⟨rfl, _⟩ := h; rfl

theorem mem_elemsAfterX {H : K → Nat → BitVec 64} {inv : Bool} {ks ks' : List K} (h : ∀ x, x ∈ ks ↔ x ∈ ks')
    (ops : List (SOp K)) (x : K) : x ∈ elemsAfterX H inv ks ops ↔ x ∈ elemsAfterX H inv ks' ops := by
  induction ops generalizing ks ks' with
  | nil => exact h x
  | cons op ops ih => exact ih (fun x => mem_afterX h)

theorem SRunBy.elemsAfterX {m m' : List K} {ops : List (SOp K)} {os : List (SOut K)}
    (h : SRunBy (SStepX H ex inv) m ops os m') (x : K) : x ∈ m' ↔ x ∈ Spec.elemsAfterX H inv m ops := by
  induction ops generalizing m os with
  | nil => obtain ⟨rfl, rfl⟩ := h; rfl
  | cons op ops ih =>
    obtain ⟨o, os', m1, rfl, h2, h3⟩ := h
    rw [ih h3]
    exact mem_elemsAfterX (fun x => h2.mem_afterX x) ops x

/-! ### Insertions -/

theorem SEachNew.append {inv : Bool} {P : List K → K → Prop} {ks : List K} {ops ops' : List (SOp K)} :
    SEachNew H inv P ks (ops ++ ops') ↔ SEachNew H inv P ks ops ∧ SEachNew H inv P (Spec.elemsAfterX H inv ks ops) ops' := by
  induction ops generalizing ks with
  | nil => simp [SEachNew, Spec.elemsAfterX]
  | cons op ops ih => simp only [List.cons_append, SEachNew, ih, Spec.elemsAfterX, List.foldl_cons, and_assoc]

theorem SEachNew.mono {inv : Bool} {P P' : List K → K → Prop} (h : ∀ ks k, P ks k → P' ks k) {ks : List K}
    {ops : List (SOp K)} (hn : SEachNew H inv P ks ops) : SEachNew H inv P' ks ops := by
  induction ops generalizing ks with
  | nil => trivial
  | cons op ops ih => exact ⟨fun k hk hk' => h _ _ (hn.1 k hk hk'), ih hn.2⟩

theorem EachNew.append {V : Type} {P : Bool → List K → K → Prop} {ks : List K} {ops ops' : List (MOp K V)} :
    EachNew P ks (ops ++ ops') ↔ EachNew P ks ops ∧ EachNew P (Spec.keysAfter ks ops) ops' := by
  induction ops generalizing ks with
  | nil => simp [EachNew, Spec.keysAfter]
  | cons op ops ih => simp only [List.cons_append, EachNew, ih, Spec.keysAfter, List.foldl_cons, and_assoc]

theorem EachNew.mono {V : Type} {P P' : Bool → List K → K → Prop} (h : ∀ m ks k, P m ks k → P' m ks k) {ks : List K}
    {ops : List (MOp K V)} (hn : EachNew P ks ops) : EachNew P' ks ops := by
  induction ops generalizing ks with
  | nil => trivial
  | cons op ops ih => exact ⟨fun k hk hk' => h _ _ _ (hn.1 k hk hk'), ih hn.2⟩

theorem mem_after_stores {V : Type} {ks : List K} {op : MOp K V} {x : K} (h : x ∈ op.after ks) : x ∈ ks ∨ x ∈ op.stores := by
  cases op with
  | set k v =>
    simp only [MOp.after] at h
    split at h
    · exact Or.inl h
    · rcases List.mem_cons.1 h with rfl | h
      · exact Or.inr (by simp [MOp.stores])
      · exact Or.inl h
  | mod k v =>
    simp only [MOp.after] at h
    split at h
    · exact Or.inl h
    · rcases List.mem_cons.1 h with rfl | h
      · exact Or.inr (by simp [MOp.stores])
      · exact Or.inl h
  | del k => exact Or.inl (List.mem_filter.1 h).1
  | _ => exact Or.inl h

/-- If `P` follows from pairwise conditions on the keys that may be inserted, it holds at each insertion. -/
theorem EachNew.of_pairs {V : Type} {S : K → Prop} {P : Bool → List K → K → Prop} {ops : List (MOp K V)}
    (h : ∀ m ks k, (∀ k' ∈ ks, S k') → S k → k ∉ ks → P m ks k) {ks : List K} (hks : ∀ k ∈ ks, S k)
    (hops : ∀ k, Stores ops k → S k) : EachNew P ks ops := by
  induction ops generalizing ks with
  | nil => trivial
  | cons op ops ih =>
    refine ⟨fun k hk hk' => h _ _ _ hks (hops k ⟨op, by simp, hk⟩) hk', ih (fun k hk => ?_) ?_⟩
    · rcases mem_after_stores hk with h1 | h1
      · exact hks k h1
      · exact hops k ⟨op, by simp, h1⟩
    · rintro k ⟨op', h1, h2⟩; exact hops k ⟨op', by simp [h1], h2⟩

theorem Separated.eachNew {V : Type} {ops : List (MOp K V)} (h : Separated H (Stores ops)) :
    EachNew (fun _ => ByteFits H) [] ops :=
  EachNew.of_pairs (S := Stores ops) (fun m ks k h1 h2 h3 => ByteFits.of_near fun k' hk' => h k k' h2 (h1 k' hk') (fun e => h3 (e ▸ hk')))
    (by simp) (fun _ h => h)

theorem mem_safterX_stores {inv : Bool} {ks : List K} {op : SOp K} {x : K} (h : x ∈ op.afterX H inv ks) :
    x ∈ ks ∨ x ∈ op.stores := by
  cases op with
  | add k =>
    simp only [SOp.afterX, SOp.after] at h
    split at h
    · exact Or.inl h
    · rcases List.mem_cons.1 h with rfl | h
      · exact Or.inr (by simp [SOp.stores])
      · exact Or.inl h
  | del k =>
    simp only [SOp.afterX] at h
    split at h
    · split at h
      · exact Or.inl h
      · exact Or.inl (List.mem_filter.1 h).1
    · exact Or.inl (List.mem_filter.1 h).1
  | _ => exact Or.inl h

theorem SEachNew.of_pairs {inv : Bool} {S : K → Prop} {P : List K → K → Prop} {ops : List (SOp K)}
    (h : ∀ ks k, (∀ k' ∈ ks, S k') → S k → k ∉ ks → P ks k) {ks : List K} (hks : ∀ k ∈ ks, S k)
    (hops : ∀ k, SStores ops k → S k) : SEachNew H inv P ks ops := by
  induction ops generalizing ks with
  | nil => trivial
  | cons op ops ih =>
    refine ⟨fun k hk hk' => h _ _ hks (hops k ⟨op, by simp, hk⟩) hk', ih (fun k hk => ?_) ?_⟩
    · rcases mem_safterX_stores hk with h1 | h1
      · exact hks k h1
      · exact hops k ⟨op, by simp, h1⟩
    · rintro k ⟨op', h1, h2⟩; exact hops k ⟨op', by simp [h1], h2⟩

theorem Separated.seachNew {inv : Bool} {ops : List (SOp K)} (h : Separated H (SStores ops)) :
    SEachNew H inv (ByteFits H) [] ops :=
  SEachNew.of_pairs (S := SStores ops) (fun ks k h1 h2 h3 => ByteFits.of_near fun k' hk' => h k k' h2 (h1 k' hk') (fun e => h3 (e ▸ hk')))
    (by simp) (fun _ h => h)

end

/-! ### Reading off the answers of a set to concrete calls -/

section
variable {K : Type} [DecidableEq K] {H : K → Nat → BitVec 64} {ex : Prop} {inv : Bool}
  {m m' : List K} {ops : List (SOp K)} {os : List (SOut K)}

theorem srun_nil : SRunBy (SStepX H ex inv) m [] os m' ↔ os = [] ∧ m' = m := Iff.rfl

theorem srun_cons {op : SOp K} : SRunBy (SStepX H ex inv) m (op :: ops) os m' ↔
    ∃ o m₁, SStepX H ex inv m op o m₁ ∧ ∃ os', SRunBy (SStepX H ex inv) m₁ ops os' m' ∧ os = o :: os' :=
  ⟨fun ⟨o, os', m₁, h1, h2, h3⟩ => ⟨o, m₁, h2, os', h3, h1⟩, fun ⟨o, m₁, h2, os', h3, h1⟩ => ⟨o, os', m₁, h1, h2, h3⟩⟩

theorem srun_has {k : K} : SRunBy (SStepX H ex inv) m (.has k :: ops) os m' ↔
    ∃ os', SRunBy (SStepX H ex inv) m ops os' m' ∧ os = .bool (decide (k ∈ m)) :: os' := by
  simp only [srun_cons, SStepX, SStep, and_assoc, exists_and_left, exists_eq_left]

theorem srun_add {k : K} : SRunBy (SStepX H ex inv) m (.add k :: ops) os m' ↔
    ∃ os', SRunBy (SStepX H ex inv) (if k ∈ m then m else k :: m) ops os' m' ∧ os = .unit :: os' := by
  simp only [srun_cons, SStepX, SStep, and_assoc, exists_and_left, exists_eq_left]

theorem srun_len : SRunBy (SStepX H ex inv) m (.len :: ops) os m' ↔
    ∃ os', SRunBy (SStepX H ex inv) m ops os' m' ∧ os = .num (BitVec.ofNat 64 m.length) :: os' := by
  simp only [srun_cons, SStepX, SStep, and_assoc, exists_and_left, exists_eq_left]

theorem srun_del {k : K} : SRunBy (SStepX H ex false) m (.del k :: ops) os m' ↔
    ∃ os', SRunBy (SStepX H ex false) (m.filter (fun x => decide (x ≠ k))) ops os' m' ∧ os = .unit :: os' := by
  simp only [srun_cons, SStepX, Bool.false_eq_true, if_false, and_assoc, exists_and_left, exists_eq_left]

theorem srun_all {f : List K → K → Bool} : SRunBy (SStepX H ex inv) m (.all f :: ops) os m' ↔
    ∃ order, order.Perm m ∧ order.Pairwise (Before H) ∧
      ∃ os', SRunBy (SStepX H ex inv) m ops os' m' ∧ os = .log (visitS f [] order) :: os' := by
  simp only [srun_cons, SStepX]
  constructor
  · rintro ⟨_, _, ⟨rfl, order, h1, rfl⟩, h2⟩; exact ⟨order, h1.1, h1.2, h2⟩
  · rintro ⟨order, h1, h2, h3⟩; exact ⟨_, _, ⟨rfl, order, ⟨h1, h2⟩, rfl⟩, h3⟩

theorem srun_dep (hex : ex) : SRunBy (SStepX H ex inv) m (.dep :: ops) os m' ↔
    ∃ os', SRunBy (SStepX H ex inv) m ops os' m' ∧ os = .rat (meanDepth64 H m) :: os' := by
  simp only [srun_cons, SStepX, hex, true_implies]
  constructor
  · rintro ⟨_, _, ⟨⟨q, rfl, rfl⟩, rfl⟩, h2⟩; exact h2
  · intro h; exact ⟨_, _, ⟨⟨_, rfl, rfl⟩, rfl⟩, h⟩

theorem visitS_all {f : List K → K → Bool} (hf : ∀ l k, f l k = true) (log ks : List K) :
    visitS f log ks = log ++ ks := by
  induction ks generalizing log with
  | nil => simp [visitS]
  | cons k ks ih => simp [visitS, hf, ih]

theorem visitS_prefix (f : List K → K → Bool) (log ks : List K) :
    ∃ n, n ≤ ks.length ∧ visitS f log ks = log ++ ks.take n ∧
      (∀ i k, i + 1 < n → ks[i]? = some k → f (log ++ ks.take i) k = true) ∧
      (n < ks.length → ∃ i k, n = i + 1 ∧ ks[i]? = some k ∧ f (log ++ ks.take i) k = false) := by
  induction ks generalizing log with
  | nil => exact ⟨0, by simp [visitS]⟩
  | cons k ks ih =>
    simp only [visitS]
    split
    · rename_i hg
      obtain ⟨n, h1, h2, h3, h4⟩ := ih (log ++ [k])
      refine ⟨n + 1, by simpa using h1, by rw [h2]; simp, ?_, ?_⟩
      · intro i e hi he
        cases i with
        | zero => simp only [List.getElem?_cons_zero, Option.some.injEq] at he; subst he; simpa using hg
        | succ i =>
          simp only [List.getElem?_cons_succ] at he
          simpa using h3 i e (by omega) he
      · intro hn
        obtain ⟨i, e, g1, g2, g3⟩ := h4 (by simpa using hn)
        exact ⟨i + 1, e, by omega, by simpa using g2, by simpa using g3⟩
    · rename_i hg
      refine ⟨1, by simp, by simp, fun i e hi => by omega, fun _ => ⟨0, k, rfl, by simp, by simpa using hg⟩⟩

theorem length_afterX (inv : Bool) (ks : List K) (op : SOp K) : (op.afterX H inv ks).length ≤ ks.length + 1 := by
  cases op with
  | add k => simp only [SOp.afterX, SOp.after]; split <;> simp
  | del k =>
    simp only [SOp.afterX]
    split
    · split
      · omega
      · exact Nat.le_succ_of_le (List.length_filter_le _ _)
    · exact Nat.le_succ_of_le (List.length_filter_le _ _)
  | _ => simp [SOp.afterX, SOp.after]

theorem length_elemsAfterX (inv : Bool) (ks : List K) (ops : List (SOp K)) :
    (elemsAfterX H inv ks ops).length ≤ ks.length + ops.length := by
  induction ops generalizing ks with
  | nil => simp [elemsAfterX]
  | cons op ops ih =>
    have h1 := length_afterX (H := H) inv ks op
    have h2 := ih (op.afterX H inv ks)
    simp only [elemsAfterX, List.foldl_cons, List.length_cons] at h2 ⊢
    omega

theorem nodup_afterX (inv : Bool) {ks : List K} (hn : ks.Nodup) (op : SOp K) : (op.afterX H inv ks).Nodup := by
  cases op with
  | add k => simp only [SOp.afterX, SOp.after]; split; exact hn; exact List.nodup_cons.2 ⟨by assumption, hn⟩
  | del k =>
    simp only [SOp.afterX]
    split
    · split
      · exact hn
      · exact hn.filter _
    · exact hn.filter _
  | _ => exact hn

theorem nodup_elemsAfterX (inv : Bool) {ks : List K} (hn : ks.Nodup) (ops : List (SOp K)) : (elemsAfterX H inv ks ops).Nodup := by
  induction ops generalizing ks with
  | nil => exact hn
  | cons op ops ih => exact ih (nodup_afterX inv hn op)

end

end Spec
