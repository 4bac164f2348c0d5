/- The order of the entries of a trie and the level of each of them. -/
import Verif.Inst
import Verif.SpecLemmas

set_option linter.unusedVariables false
set_option linter.unusedSectionVars false

namespace Amt
open T Spec

variable {K P V : Type}

namespace T

/-- The entries come in the lexicographic order of their nibbles. -/
theorem leaves_sorted {nb : K → Nat → Nat} {t : T K P V} {d : Nat} (hw : WF nb t d)
    (hp : ∀ a ∈ leaves t, ∀ b ∈ leaves t, ∀ j, j < d → nb a.1 j = nb b.1 j) :
    (leaves t).Pairwise (fun a b => ∃ j, (∀ i, i < j → nb a.1 i = nb b.1 i) ∧ nb a.1 j < nb b.1 j) := by
  induction t generalizing d with
  | empty => exact List.Pairwise.nil
  | leaf => exact List.pairwise_singleton _ _
  | node st ch ih =>
    rw [leaves_node, List.pairwise_flatMap]
    constructor
    · intro i hi
      have hi := List.mem_range.1 hi
      refine ih i (hw.2 i hi).2 (fun a ha b hb j hj => ?_)
      rcases Nat.lt_or_ge j d with h | h
      · exact hp a (mem_leaves_node.2 ⟨i, hi, ha⟩) b (mem_leaves_node.2 ⟨i, hi, hb⟩) j h
      · obtain rfl : j = d := by omega
        rw [(hw.2 i hi).1 a ha, (hw.2 i hi).1 b hb]
    · refine List.pairwise_lt_range.imp_of_mem (fun {i j} hi hj hlt a ha b hb => ?_)
      have hi := List.mem_range.1 hi
      have hj := List.mem_range.1 hj
      refine ⟨d, fun n hn => hp a (mem_leaves_node.2 ⟨i, hi, ha⟩) b (mem_leaves_node.2 ⟨j, hj, hb⟩) n hn, ?_⟩
      rw [(hw.2 i hi).1 a ha, (hw.2 j hj).1 b hb]
      exact hlt

/-- The level at which the nibbles of a key lead to an entry or to an absent slot. -/
def lev (nb : K → Nat → Nat) (key : K) : T K P V → Nat → Nat
  | empty, d => d
  | leaf _ _ _, d => d
  | node _ ch, d => lev nb key (ch (nb key d)) (d + 1)

theorem lev_ge (nb : K → Nat → Nat) (key : K) (t : T K P V) (d : Nat) : d ≤ lev nb key t d := by
  induction t generalizing d with
  | empty => exact Nat.le_refl _
  | leaf => exact Nat.le_refl _
  | node st ch ih => exact Nat.le_of_succ_le (ih _ (d + 1))

theorem lev_le {nb : K → Nat → Nat} (hnb : ∀ k d, nb k d < 16) {B : Nat} (key : K) {t : T K P V} {d : Nat} (h : Ht B t d)
    (hd : d ≤ B + 1) : lev nb key t d ≤ B + 1 := by
  induction t generalizing d with
  | empty => exact hd
  | leaf => exact hd
  | node st ch ih => exact ih _ (h.2 _ (hnb key d)) (by have := h.1; omega)

theorem tsum_eq {nb : K → Nat → Nat} (g : Nat → Nat) {t : T K P V} {d : Nat} (hw : WF nb t d) :
    tsum g t d = ((leaves t).map (fun e => g (lev nb e.1 t d))).sum := by
  induction t generalizing d with
  | empty => rfl
  | leaf => simp [tsum, leaves, lev]
  | node st ch ih =>
    rw [tsum_node, leaves_node, List.map_flatMap]
    have key : ∀ l : List Nat, (∀ i ∈ l, i < 16) →
        (l.map (fun i => tsum g (ch i) (d + 1))).sum
          = (l.flatMap (fun i => (leaves (ch i)).map (fun e => g (lev nb e.1 (node st ch) d)))).sum := by
      intro l
      induction l with
      | nil => intro _; rfl
      | cons i l ihl =>
        intro hl
        have hi := hl i (by simp)
        rw [List.map_cons, List.sum_cons, List.flatMap_cons, List.sum_append, ihl (fun j hj => hl j (by simp [hj])),
          ih i (hw.2 i hi).2]
        congr 2
        apply List.map_congr_left
        intro e he
        rw [lev, (hw.2 i hi).1 e he]
    exact key _ (fun i hi => List.mem_range.1 hi)

section
variable [DecidableEq K] {nb : K → Nat → Nat}

/-- The entry in the slot of `key` is the only one with the first nibbles of `key`, as many as its level says. -/
theorem slot_lev (hnb : ∀ k d, nb k d < 16) {key : K} {t : T K P V} {d : Nat} {e : K × P × V}
    (hp : Pre nb key t d) (hw : WF nb t d) (h : slot nb key t d = some e) :
    (∀ i, i < lev nb key t d → nb key i = nb e.1 i) ∧
      ∀ e' ∈ leaves t, (∀ i, i < lev nb key t d → nb key i = nb e'.1 i) → e'.1 = e.1 := by
  induction t generalizing d with
  | empty => cases h
  | leaf k p v =>
    simp only [slot, Option.some.injEq] at h
    subst h
    exact ⟨fun i hi => (hp (k, p, v) (by simp [leaves]) i hi).symm,
      fun e' he' _ => by simp only [leaves, List.mem_singleton] at he'; rw [he']⟩
  | node st ch ih =>
    obtain ⟨h1, h2⟩ := ih (nb key d) (hp.child hnb hw) (hw.2 _ (hnb key d)).2 h
    refine ⟨h1, fun e' he' h' => ?_⟩
    obtain ⟨i, hi, he''⟩ := mem_leaves_node.1 he'
    have : i = nb key d := by
      rw [h' d (lev_ge nb key (ch (nb key d)) (d + 1))]; exact ((hw.2 i hi).1 e' he'').symm
    subst this
    exact h2 e' he'' h'

/-- In a canonical trie, below the first level there is another entry with all but the last of these nibbles. -/
theorem slot_lev_canon (hnb : ∀ k d, nb k d < 16) {key : K} {t : T K P V} {d : Nat} {e : K × P × V}
    (hp : Pre nb key t d) (hw : WF nb t d) (hc : Canon t) (h : slot nb key t d = some e) :
    lev nb key t d = d ∨ ∃ e' ∈ leaves t, e'.1 ≠ e.1 ∧ ∀ i, i < lev nb key t d - 1 → nb key i = nb e'.1 i := by
  induction t generalizing d with
  | empty => cases h
  | leaf k p v => exact Or.inl rfl
  | node st ch ih =>
    right
    rcases ih (nb key d) (hp.child hnb hw) (hw.2 _ (hnb key d)).2 (hc.2 _ (hnb key d)) h with h1 | ⟨e', he', h1, h2⟩
    · -- the entry is a child of this branch, which holds another one
      have hl : lev nb key (node st ch) d = d + 1 := h1
      rw [hl]
      have hn := nodup_keys hw
      have hlen := hc.1.2
      have : ∃ e' ∈ leaves (node st ch), e'.1 ≠ e.1 := by
        cases hlv : leaves (node st ch) with
        | nil => rw [hlv] at hlen; simp at hlen
        | cons a l =>
          cases l with
          | nil => rw [hlv] at hlen; simp at hlen
          | cons b l =>
            rw [hlv] at hn
            simp only [List.map_cons, List.nodup_cons, List.mem_cons, not_or] at hn
            by_cases ha : a.1 = e.1
            · exact ⟨b, by simp, fun hb => hn.1.1 (ha.trans hb.symm)⟩
            · exact ⟨a, by simp, ha⟩
      obtain ⟨e', he', hne⟩ := this
      exact ⟨e', he', hne, fun i hi => (hp e' he' i (by omega)).symm⟩
    · exact ⟨e', mem_leaves_node.2 ⟨_, hnb key d, he'⟩, h1, h2⟩

end
end T

/-! ### In terms of the specification -/

theorem leaves_before {H : K → Nat → BitVec 64} {t : T K P V} (hw : WF (nbOf H) t 0) :
    (leaves t).Pairwise (fun a b => Before H a.1 b.1) := by
  refine (leaves_sorted hw (fun _ _ _ _ j hj => by omega)).imp (fun {a b} h => ?_)
  obtain ⟨j, h1, h2⟩ := h
  exact ⟨j, fun i hi => by rw [← nbOf_eq_nibble, ← nbOf_eq_nibble]; exact h1 i hi,
    by rw [← nbOf_eq_nibble, ← nbOf_eq_nibble]; exact h2⟩

variable [DecidableEq K]

/-- What the slot of a key says about the stored keys. -/
theorem slot_collidesAt {H : K → Nat → BitVec 64} {t : T K P V} (hn : t.isNode = true) (hw : WF (nbOf H) t 0)
    (hc : CanonRoot t) {key : K} {e : K × P × V} (h : slot (nbOf H) key t 0 = some e) :
    CollidesAt H ((leaves t).map (fun e => e.1)) key e.1 (lev (nbOf H) key t 0 - 1) := by
  have hnb := nbOf_lt H
  cases t with
  | empty => cases hn
  | leaf => cases hn
  | node st ch =>
    have hpre : Pre (nbOf H) key (node st ch) 0 := fun e he j hj => by omega
    have hl : 1 ≤ lev (nbOf H) key (node st ch) 0 := lev_ge (nbOf H) key (ch (nbOf H key 0)) 1
    have hl' : lev (nbOf H) key (node st ch) 0 - 1 + 1 = lev (nbOf H) key (node st ch) 0 := by omega
    obtain ⟨h1, h2⟩ := slot_lev hnb hpre hw h
    simp only [CollidesAt, hl', Agree, ← nbOf_eq_nibble, List.mem_map]
    refine ⟨⟨e, slot_mem hnb h, rfl⟩, h1, ?_, ?_⟩
    · rintro k'' ⟨e', he', rfl⟩ h'
      exact h2 e' he' h'
    · rcases slot_lev_canon hnb (hpre.child hnb hw) (hw.2 _ (hnb key 0)).2 (hc.2 _ (hnb key 0)) h with g | ⟨e', he', g1, g2⟩
      · left
        have : lev (nbOf H) key (node st ch) 0 = 0 + 1 := g
        omega
      · exact Or.inr ⟨e'.1, ⟨e', mem_leaves_node.2 ⟨_, hnb key 0, he'⟩, rfl⟩, g1, g2⟩

theorem slot_agree {H : K → Nat → BitVec 64} {t : T K P V} (hn : t.isNode = true) (hw : WF (nbOf H) t 0)
    {key : K} {e : K × P × V} (h : slot (nbOf H) key t 0 = some e) : Agree H key e.1 (lev (nbOf H) key t 0 - 1 + 1) := by
  cases t with
  | empty => cases hn
  | leaf => cases hn
  | node st ch =>
    have hl : 1 ≤ lev (nbOf H) key (node st ch) 0 := lev_ge (nbOf H) key (ch (nbOf H key 0)) 1
    rw [Nat.sub_add_cancel hl]
    intro j hj
    rw [← nbOf_eq_nibble, ← nbOf_eq_nibble]
    exact (slot_lev (nbOf_lt H) (fun e he j hj => by omega) hw h).1 j hj

/-- The level of a stored key, in a canonical trie. -/
theorem depthIn_eq {H : K → Nat → BitVec 64} {t : T K P V} (hn : t.isNode = true) (hw : WF (nbOf H) t 0)
    (hh : Ht 255 t 0) (hc : CanonRoot t) {e : K × P × V} (he : e ∈ leaves t) :
    depthIn H ((leaves t).map (fun e => e.1)) e.1 = lev (nbOf H) e.1 t 0 - 1 := by
  have hnb := nbOf_lt H
  have hf := (find_eq_some hnb hw (key := e.1) (p := e.2.1) (v := e.2.2)).2 he
  have hle := lev_le hnb e.1 hh (by omega)
  rw [find_slot] at hf
  cases hs : slot (nbOf H) e.1 t 0 with
  | none => rw [hs] at hf; cases hf
  | some e' =>
    have hk : e.1 = e'.1 := by
      rw [hs, Option.bind_some] at hf
      by_cases h : e.1 = e'.1
      · exact h
      · rw [if_neg h] at hf; cases hf
    have hca := slot_collidesAt hn hw hc hs
    rw [← hk] at hca
    generalize lev (nbOf H) e.1 t 0 = l at hca hle
    obtain ⟨h1, h2, h3, h4⟩ := hca
    apply Nat.le_antisymm
    · apply depthIn_le
      intro x hx hne
      rcases Nat.lt_or_ge (l - 1) (sharedLen H e.1 x) with h | h
      · exact absurd (h3 x hx (le_sharedLen.1 (show l - 1 + 1 ≤ _ from h)).2) hne
      · exact h
    · rcases h4 with h4 | ⟨x, hx, hne, h4⟩
      · omega
      · exact Nat.le_trans (le_sharedLen.2 ⟨by omega, h4⟩) (le_depthIn hx hne)

/-- The sum of the depths kept by a canonical trie. -/
theorem dsum_eq {H : K → Nat → BitVec 64} {t : T K P V} (hn : t.isNode = true) (hw : WF (nbOf H) t 0)
    (hh : Ht 255 t 0) (hc : CanonRoot t) : dsum t 0 = depthSum H ((leaves t).map (fun e => e.1)) := by
  rw [dsum, tsum_eq _ hw, depthSum, List.map_map]
  congr 1
  apply List.map_congr_left
  intro e he
  exact (depthIn_eq hn hw hh hc he).symm

end Amt
