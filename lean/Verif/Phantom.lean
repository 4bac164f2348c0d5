/-
Insertion into the tries of the integer containers, for all 64-bit keys.  `IntMap` and `IntSet` keep the upper half
of a displaced key in the type bits of the branch that takes its place (int_map.go:166-176, int_set.go:113-123).  If
one of these bits is the one of the only item of the branch, and that item is a branch too, the item is from then on
read as a key: a phantom.  Used only in proofs.
-/
import Verif.Loose

set_option linter.unusedVariables false
set_option linter.unusedSectionVars false

namespace Amt

namespace T
variable {K P V : Type} [DecidableEq K]

section
variable (nb : K → Nat → Nat)

/-- The key in the way of `key` has a type bit that hides the branches which should hold the two. -/
def Shadows (sb : K → BitVec 32) (key : K) (t : T K P V) (d : Nat) : Prop :=
  ∃ e, slot nb key t d = some e ∧ key ≠ e.1 ∧ nb key (lev nb key t d) = nb e.1 (lev nb key t d) ∧
    (sb e.1).getLsbD (nb key (lev nb key t d)) = true

/-- Insert or update, as `ins`; but where the branches are hidden there is the phantom `g`. -/
def insP (sb : K → BitVec 32) (n : Nat) (key : K) (p : P) (v : V) (f : V → V) (g : K × P × V) : T K P V → Nat → T K P V
  | empty, _ => leaf key p v
  | leaf k' p' v', d =>
    if key = k' then leaf k' p' (f v')
    else if nb key d = nb k' d ∧ (sb k').getLsbD (nb key d) = true then
      node (sb k' &&& ~~~(1#32 <<< nb key d)) (upd (fun _ => empty) (nb key d) (leaf g.1 g.2.1 g.2.2))
    else splitT nb key p v k' p' v' (sb k') n d
  | node st ch, d =>
    node (st &&& ~~~(1#32 <<< nb key d)) (upd ch (nb key d) (insP sb n key p v f g (ch (nb key d)) (d + 1)))

/-- What an insertion needs of the key in its slot. -/
def Parts (B : Nat) (key : K) (t : T K P V) (d : Nat) : Prop :=
  ∀ e, slot nb key t d = some e → key ≠ e.1 → ∃ j, lev nb key t d ≤ j ∧ j ≤ B ∧ nb key j ≠ nb e.1 j

end

variable {nb : K → Nat → Nat} {sb : K → BitVec 32} {B n : Nat} {key : K} {p : P} {v : V} {f : V → V} {g : K × P × V}

/-- A new key that is not hidden is found afterwards, and nothing else changes. -/
theorem tagged_insP_new (hnb : ∀ k d, nb k d < 16) (hn : B < n) {t : T K P V} {d : Nat} {pre : K → Bool}
    (hp : pre key = true) (hs : Parts nb B key t d) (h : find nb key t d = none) (hsh : ¬ Shadows nb sb key t d) :
    (tagged nb (insP nb sb n key p v f g t d) d pre).Perm ((true, key, p, v) :: tagged nb t d pre) := by
  induction t generalizing d pre with
  | empty => simp [insP, tagged, hp]
  | leaf k' p' v' =>
    have hne : key ≠ k' := by
      intro hk; rw [find, if_pos hk] at h; cases h
    rw [insP, if_neg hne, if_neg (fun hc => hsh ⟨(k', p', v'), rfl, hne, hc.1, hc.2⟩)]
    obtain ⟨j, h1, h2, h3⟩ := hs (k', p', v') rfl hne
    rw [lev] at h1
    obtain ⟨b, h4, h5, h6⟩ := tagged_splitT (nb := nb) (nb' := nb) hnb hnb p v k' p' v' (sb k') n d
      (fun j _ => rfl) hp ⟨j, h1, by omega, h3⟩
    have : b = pre k' := by
      cases hb : b with
      | true => exact (h5 hb).symm
      | false =>
        cases hpk : pre k' with
        | false => rfl
        | true => obtain ⟨j, _, hj⟩ := h6 hpk hb; exact absurd rfl hj
    rw [this] at h4
    exact h4
  | node st ch ih =>
    rw [insP]
    have h1 := ih (nb key d) (d := d + 1) (pre := fun k => pre k && decide (nb k d = nb key d)) (by simp [hp]) hs h hsh
    obtain ⟨A, C, hu⟩ := tagged_upd (nb := nb) ch (hnb key d) d pre
    have h0 := hu st (ch (nb key d))
    rw [upd_self] at h0
    rw [hu, h0]
    refine ((h1.append_left A).append_right C).trans ?_
    simp only [List.append_assoc, List.cons_append]
    exact List.perm_middle

/-- The entry in the slot of a key is in reach exactly if it agrees with the key on the way there. -/
theorem tagged_slot (hnb : ∀ k d, nb k d < 16) {t : T K P V} {d : Nat} {pre : K → Bool} {e : K × P × V}
    (h : slot nb key t d = some e) :
    ∃ A C b, tagged nb t d pre = A ++ (b, e) :: C ∧
      (b = true ↔ pre e.1 = true ∧ ∀ j, d ≤ j → j < lev nb key t d → nb e.1 j = nb key j) := by
  induction t generalizing d pre with
  | empty => cases h
  | leaf k' p' v' =>
    simp only [slot, Option.some.injEq] at h
    subst h
    refine ⟨[], [], pre k', rfl, fun h => ⟨h, fun j h1 h2 => ?_⟩, fun h => h.1⟩
    rw [lev] at h2; omega
  | node st ch ih =>
    obtain ⟨A', C', b, h1, h2⟩ := ih (nb key d) (d := d + 1) (pre := fun k => pre k && decide (nb k d = nb key d)) h
    obtain ⟨A, C, hu⟩ := tagged_upd (nb := nb) ch (hnb key d) d pre
    have h0 := hu st (ch (nb key d))
    rw [upd_self] at h0
    have hge := lev_ge nb key (ch (nb key d)) (d + 1)
    refine ⟨A ++ A', C' ++ C, b, by rw [h0, h1]; simp, h2.trans ?_⟩
    simp only [Bool.and_eq_true, decide_eq_true_eq, lev]
    constructor
    · rintro ⟨⟨h3, h4⟩, h5⟩
      refine ⟨h3, fun j h6 h7 => ?_⟩
      rcases Nat.eq_or_lt_of_le h6 with h8 | h8
      · subst h8; exact h4
      · exact h5 j h8 h7
    · rintro ⟨h3, h4⟩
      exact ⟨⟨h3, h4 d (Nat.le_refl _) (by omega)⟩, fun j h6 h7 => h4 j (by omega) h7⟩

/-- A new key that is hidden takes the key in its slot with it, and a phantom appears there. -/
theorem tagged_insP_hid (hnb : ∀ k d, nb k d < 16) {t : T K P V} {d : Nat} {pre : K → Bool}
    (hsh : Shadows nb sb key t d) :
    ∃ A C b b' e, slot nb key t d = some e ∧ tagged nb t d pre = A ++ (b, e) :: C ∧
      tagged nb (insP nb sb n key p v f g t d) d pre = A ++ (b', g) :: C ∧
      (b = true ↔ pre e.1 = true ∧ ∀ j, d ≤ j → j < lev nb key t d → nb e.1 j = nb key j) ∧
      (b' = true ↔ pre g.1 = true ∧ ∀ j, d ≤ j → j ≤ lev nb key t d → nb g.1 j = nb key j) := by
  induction t generalizing d pre with
  | empty => obtain ⟨e, h1, _⟩ := hsh; cases h1
  | leaf k' p' v' =>
    obtain ⟨e, h1, hne, h2, h3⟩ := hsh
    simp only [slot, Option.some.injEq] at h1
    subst h1
    rw [lev] at h2 h3
    rw [insP, if_neg hne, if_pos ⟨h2, h3⟩, tagged_upd_empty _ _ (hnb key d)]
    refine ⟨[], [], pre k', pre g.1 && decide (nb g.1 d = nb key d), (k', p', v'), rfl, rfl, rfl, ?_, ?_⟩
    · refine ⟨fun h => ⟨h, fun j h1 h2 => ?_⟩, fun h => h.1⟩
      rw [lev] at h2; omega
    · simp only [Bool.and_eq_true, decide_eq_true_eq, lev]
      constructor
      · rintro ⟨h4, h5⟩
        refine ⟨h4, fun j h6 h7 => ?_⟩
        have : j = d := by omega
        subst this; exact h5
      · rintro ⟨h4, h5⟩; exact ⟨h4, h5 d (Nat.le_refl _) (Nat.le_refl _)⟩
  | node st ch ih =>
    obtain ⟨A', C', b, b', e, h1, h2, h3, h4, h5⟩ := ih (nb key d) (d := d + 1)
      (pre := fun k => pre k && decide (nb k d = nb key d)) hsh
    obtain ⟨A, C, hu⟩ := tagged_upd (nb := nb) ch (hnb key d) d pre
    have h0 := hu st (ch (nb key d))
    rw [upd_self] at h0
    have hge := lev_ge nb key (ch (nb key d)) (d + 1)
    refine ⟨A ++ A', C' ++ C, b, b', e, h1, by rw [h0, h2]; simp, by rw [insP, hu, h3]; simp, h4.trans ?_, h5.trans ?_⟩
    · simp only [Bool.and_eq_true, decide_eq_true_eq, lev]
      constructor
      · rintro ⟨⟨h3, h4⟩, h5⟩
        refine ⟨h3, fun j h6 h7 => ?_⟩
        rcases Nat.eq_or_lt_of_le h6 with h8 | h8
        · subst h8; exact h4
        · exact h5 j h8 h7
      · rintro ⟨h3, h4⟩
        exact ⟨⟨h3, h4 d (Nat.le_refl _) (by omega)⟩, fun j h6 h7 => h4 j (by omega) h7⟩
    · simp only [Bool.and_eq_true, decide_eq_true_eq, lev]
      constructor
      · rintro ⟨⟨h3, h4⟩, h5⟩
        refine ⟨h3, fun j h6 h7 => ?_⟩
        rcases Nat.eq_or_lt_of_le h6 with h8 | h8
        · subst h8; exact h4
        · exact h5 j h8 h7
      · rintro ⟨h3, h4⟩
        exact ⟨⟨h3, h4 d (Nat.le_refl _) (by omega)⟩, fun j h6 h7 => h4 j (by omega) h7⟩

/-- Updating a key that is found changes its value and nothing else. -/
theorem tagged_insP_old (hnb : ∀ k d, nb k d < 16) {t : T K P V} {d : Nat} {pre : K → Bool} (hp : pre key = true)
    {p' : P} {v' : V} (h : find nb key t d = some (p', v')) :
    ∃ A C, tagged nb t d pre = A ++ (true, key, p', v') :: C ∧
      tagged nb (insP nb sb n key p v f g t d) d pre = A ++ (true, key, p', f v') :: C := by
  induction t generalizing d pre with
  | empty => cases h
  | leaf k q w =>
    rw [find] at h
    split at h
    · rename_i hk; cases h; subst hk
      exact ⟨[], [], by simp [tagged, hp], by simp [insP, tagged, hp]⟩
    · cases h
  | node st ch ih =>
    obtain ⟨A', C', h1, h2⟩ := ih (nb key d) (d := d + 1) (pre := fun k => pre k && decide (nb k d = nb key d))
      (by simp [hp]) h
    obtain ⟨A, C, hu⟩ := tagged_upd (nb := nb) ch (hnb key d) d pre
    have h0 := hu st (ch (nb key d))
    rw [upd_self] at h0
    refine ⟨A ++ A', C' ++ C, ?_, ?_⟩
    · rw [h0, h1]; simp
    · rw [insP, hu, h2]; simp

theorem Ht_insP (hnb : ∀ k d, nb k d < 16) {t : T K P V} {d : Nat} (hs : Parts nb B key t d) (h : Ht B t d) :
    Ht B (insP nb sb n key p v f g t d) d := by
  induction t generalizing d with
  | empty => trivial
  | leaf k' p' v' =>
    rw [insP]; split
    · trivial
    · rename_i hne
      obtain ⟨j, h1, h2, h3⟩ := hs (k', p', v') rfl hne
      rw [lev] at h1
      split
      · refine ⟨by omega, fun i _ => ?_⟩
        simp only [upd]; split <;> trivial
      · exact Ht_splitT _ _ _ _ _ _ _ _ _ ⟨j, h1, h2, h3⟩
  | node st ch ih =>
    rw [insP]
    exact Ht_upd h (ih (nb key d) hs (h.2 _ (hnb key d)))

theorem mem_insP (hnb : ∀ k d, nb k d < 16) {t : T K P V} {d : Nat} {e : K × P × V}
    (h : e ∈ leaves (insP nb sb n key p v f g t d)) : e.1 = key ∨ e ∈ leaves t ∨ (e = g ∧ Shadows nb sb key t d) := by
  induction t generalizing d with
  | empty => simp [insP, leaves] at h; exact Or.inl (by rw [h])
  | leaf k' p' v' =>
    rw [insP] at h
    split at h
    · rename_i heq; simp [leaves] at h; left; rw [h]; exact heq.symm
    · rename_i hne
      split at h
      · rename_i hc
        obtain ⟨i, hi, he⟩ := mem_leaves_node.1 h
        simp only [upd] at he
        split at he
        · simp only [leaves, List.mem_singleton] at he
          exact Or.inr (Or.inr ⟨he, (k', p', v'), rfl, hne, hc.1, hc.2⟩)
        · simp [leaves] at he
      · rcases mem_splitT hnb h with rfl | rfl
        · exact Or.inl rfl
        · right; left; simp [leaves]
  | node st ch ih =>
    rw [insP] at h
    obtain ⟨i, hi, he⟩ := mem_leaves_node.1 h
    by_cases hji : i = nb key d
    · subst hji
      rw [upd_same] at he
      rcases ih _ he with h1 | h1 | h1
      · exact Or.inl h1
      · exact Or.inr (Or.inl (mem_leaves_node.2 ⟨_, hi, h1⟩))
      · exact Or.inr (Or.inr h1)
    · rw [upd_other _ _ hji] at he
      exact Or.inr (Or.inl (mem_leaves_node.2 ⟨_, hi, he⟩))

end T

end Amt
