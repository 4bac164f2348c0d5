/-
Who owns what: the objects reached through a link, and the place of a link in its container.  Used only in proofs; the statements that
follow are in `PropsTree.lean`.  Nothing here refers to keys or hashes: the invariant holds in every state that a container can get into.
-/
import Verif.GoTidy
import Verif.PropsAny

set_option linter.unusedVariables false
set_option linter.unusedSectionVars false

namespace Amt.Tree
open Go (ok_bind load_inv store_inv store_run load_put modLink_inv grow run_bind run_load_state)

/-! ### Counting bits -/

theorem popcount_cnt (x : BitVec 32) : popcount x = cnt (fun i => x.getLsbD i) 32 := rfl

theorem rank_lt {x : BitVec 32} {r : Nat} (hr : r < 32) (h : x &&& bitOf r ≠ 0#32) : rankOf x r < popcount x := by
  rw [rankOf_cnt x hr, popcount_cnt]
  exact cnt_lt _ hr ((and_bitOf_ne_zero hr).1 h)

theorem rank_le {x : BitVec 32} {r : Nat} (hr : r < 32) : rankOf x r ≤ popcount x := by
  rw [rankOf_cnt x hr, popcount_cnt]
  exact cnt_mono _ (by omega)

theorem cnt_add_one {f g : Nat → Bool} {r n : Nat} (hr : r < n) (hf : f r = false) (hg : g r = true) (ho : ∀ i, i ≠ r → g i = f i) :
    cnt g n = cnt f n + 1 := by
  induction n with
  | zero => omega
  | succ n ih =>
    rw [cnt_succ, cnt_succ]
    by_cases hn : n = r
    · subst hn
      rw [hf, hg, cnt_congr (f := g) (g := f) fun i hi => ho i (by omega)]
      simp
    · rw [ih (by omega), ho n hn]; omega

theorem popcount_or {x : BitVec 32} {r : Nat} (hr : r < 32) (h : x &&& bitOf r = 0#32) : popcount (x ||| bitOf r) = popcount x + 1 := by
  rw [popcount_cnt, popcount_cnt]
  refine cnt_add_one hr ((and_bitOf_eq_zero hr).1 h) ?_ fun i hi => ?_
  · rw [getLsbD_or_bitOf hr]; simp
  · rw [getLsbD_or_bitOf hr]; simp [hi]

theorem popcount_andNot {x : BitVec 32} {r : Nat} (hr : r < 32) (h : x &&& bitOf r ≠ 0#32) : popcount x = popcount (x &&& ~~~bitOf r) + 1 := by
  rw [popcount_cnt, popcount_cnt]
  refine cnt_add_one hr ?_ ((and_bitOf_ne_zero hr).1 h) fun i hi => ?_
  · rw [getLsbD_andNot_bitOf hr]; simp
  · rw [getLsbD_andNot_bitOf hr]; simp [hi]

/-! ### Ownership -/

section
variable {K V : Type}

/-- `Own m x F`: going down from link `x` one meets objects in `F` only, each of them once. -/
inductive Own (m : Nat → Option (Obj K V)) : Link → (Nat → Prop) → Prop
  | nil {x : Link} {F : Nat → Prop} : x.ptr = .nil → Own m x F
  | cell {x : Link} {F : Nat → Prop} {b : Nat} {k : Option K} {v : V} : x.ptr = .blk b → m b = some (.kv k v) → F b → Own m x F
  | arr {x : Link} {F : Nat → Prop} {b : Nat} {xs : List Link} {G : Nat → Nat → Prop} : x.ptr = .blk b → m b = some (.links xs) → F b →
      (∀ i y, i < popcount x.pmap → xs[i]? = some y → Own m y (G i)) → (∀ i a, G i a → F a ∧ a ≠ b) →
      (∀ i j a, G i a → G j a → i = j) → Own m x F

/-- The first `n` links of `xs`, likewise. -/
def Kids (m : Nat → Option (Obj K V)) (xs : List Link) (n : Nat) (F : Nat → Prop) : Prop :=
  ∃ G : Nat → Nat → Prop, (∀ i y, i < n → xs[i]? = some y → Own m y (G i)) ∧ (∀ i a, G i a → F a) ∧ ∀ i j a, G i a → G j a → i = j

/-- The objects are the same, but for the values in the cells. -/
def SameBut (o o' : Option (Obj K V)) : Prop := o' = o ∨ ∃ k v k' v', o = some (.kv k v) ∧ o' = some (.kv k' v')

theorem SameBut.refl (o : Option (Obj K V)) : SameBut o o := .inl rfl

theorem SameBut.links {o : Option (Obj K V)} {xs : List Link} (h : SameBut (some (.links xs)) o) : o = some (.links xs) := by
  rcases h with h | ⟨k, v, k', v', h, _⟩
  · exact h
  · cases h

variable {m m' : Nat → Option (Obj K V)} {x y : Link} {F F' : Nat → Prop} {xs ys : List Link} {n : Nat}

theorem Own.mk {b : Nat} (hp : x.ptr = .blk b) (hm : m b = some (.links xs)) (hb : F b) (hk : Kids m xs (popcount x.pmap) fun a => F a ∧ a ≠ b) :
    Own m x F := by
  obtain ⟨G, h1, h2, h3⟩ := hk
  exact .arr hp hm hb h1 h2 h3

theorem Own.kids {b : Nat} (h : Own m x F) (hp : x.ptr = .blk b) (hm : m b = some (.links xs)) :
    F b ∧ Kids m xs (popcount x.pmap) fun a => F a ∧ a ≠ b := by
  cases h with
  | nil h => rw [hp] at h; cases h
  | cell h1 h2 h3 => rw [hp] at h1; cases h1; rw [hm] at h2; cases h2
  | arr h1 h2 h3 h4 h5 h6 => rw [hp] at h1; cases h1; rw [hm] at h2; cases h2; exact ⟨h3, _, h4, h5, h6⟩

theorem Own.mono (h : Own m x F) (hF : ∀ a, F a → F' a) : Own m x F' := by
  cases h with
  | nil h => exact .nil h
  | cell h1 h2 h3 => exact .cell h1 h2 (hF _ h3)
  | arr h1 h2 h3 h4 h5 h6 => exact .arr h1 h2 (hF _ h3) h4 (fun i a ha => ⟨hF _ (h5 i a ha).1, (h5 i a ha).2⟩) h6

theorem Kids.mono (h : Kids m xs n F) (hF : ∀ a, F a → F' a) : Kids m xs n F' := by
  obtain ⟨G, h1, h2, h3⟩ := h
  exact ⟨G, h1, fun i a ha => hF _ (h2 i a ha), h3⟩

theorem Own.frame (h : Own m x F) (hs : ∀ a, F a → SameBut (m a) (m' a)) : Own m' x F := by
  induction h with
  | nil h => exact .nil h
  | cell h1 h2 h3 =>
    rcases hs _ h3 with h | ⟨k, v, k', v', _, h⟩
    · exact .cell h1 (h.trans h2) h3
    · exact .cell h1 h h3
  | arr h1 h2 h3 h4 h5 h6 ih =>
    refine .arr h1 ?_ h3 (fun i y hi hy => ih i y hi hy fun a ha => hs a (h5 i a ha).1) h5 h6
    have := hs _ h3
    rw [h2] at this
    exact this.links

theorem Kids.frame (h : Kids m xs n F) (hs : ∀ a, F a → SameBut (m a) (m' a)) : Kids m' xs n F := by
  obtain ⟨G, h1, h2, h3⟩ := h
  exact ⟨G, fun i y hi hy => (h1 i y hi hy).frame fun a ha => hs a (h2 i a ha), h2, h3⟩

/-- What matters is the pointer and the number of items. -/
theorem Own.link (h : Own m x F) (hp : y.ptr = x.ptr) (hn : popcount y.pmap ≤ popcount x.pmap) : Own m y F := by
  cases h with
  | nil h => exact .nil (hp.trans h)
  | cell h1 h2 h3 => exact .cell (hp.trans h1) h2 h3
  | arr h1 h2 h3 h4 h5 h6 => exact .arr (hp.trans h1) h2 h3 (fun i y hi hy => h4 i y (by omega) hy) h5 h6

theorem Kids.none : Kids m xs 0 F := ⟨fun _ _ => False, fun i _ hi => by omega, fun _ _ h => h.elim, fun _ _ _ h => h.elim⟩

/-- One more link among them. -/
theorem Kids.insert (h : Kids m xs n F) (hx : Own m x F') (hd : ∀ a, F a → F' a → False) {i : Nat} (hi : i ≤ n)
    (hys : ∀ j, j ≤ n → ys[j]? = if j < i then xs[j]? else if j = i then some x else xs[j - 1]?) : Kids m ys (n + 1) fun a => F a ∨ F' a := by
  obtain ⟨G, h1, h2, h3⟩ := h
  refine ⟨fun j => if j < i then G j else if j = i then F' else G (j - 1), fun j y hj hy => ?_, fun j a ha => ?_, fun j j' a ha ha' => ?_⟩
  · rw [hys j (by omega)] at hy
    dsimp only
    split at hy
    · rw [if_pos (by omega)]; exact h1 j y (by omega) hy
    · split at hy
      · rw [if_neg (by omega), if_pos (by omega)]; cases hy; exact hx
      · rw [if_neg (by omega), if_neg (by omega)]; exact h1 _ y (by omega) hy
  · dsimp only at ha
    split at ha
    · exact .inl (h2 _ _ ha)
    · split at ha
      · exact .inr ha
      · exact .inl (h2 _ _ ha)
  · dsimp only at ha ha'
    split at ha <;> split at ha'
    · exact h3 _ _ _ ha ha'
    · split at ha'
      · exact (hd a (h2 _ _ ha) ha').elim
      · have := h3 _ _ _ ha ha'; omega
    · split at ha
      · exact (hd a (h2 _ _ ha') ha).elim
      · have := h3 _ _ _ ha ha'; omega
    · split at ha <;> split at ha'
      · omega
      · exact (hd a (h2 _ _ ha') ha).elim
      · exact (hd a (h2 _ _ ha) ha').elim
      · have := h3 _ _ _ ha ha'; omega

/-- One link less. -/
theorem Kids.remove (h : Kids m xs (n + 1) F) {i : Nat} (hi : i ≤ n)
    (hys : ∀ j, j < n → ys[j]? = if j < i then xs[j]? else xs[j + 1]?) : Kids m ys n F := by
  obtain ⟨G, h1, h2, h3⟩ := h
  refine ⟨fun j => if j < i then G j else G (j + 1), fun j y hj hy => ?_, fun j a ha => ?_, fun j j' a ha ha' => ?_⟩
  · rw [hys j hj] at hy
    dsimp only
    split at hy
    · rw [if_pos (by omega)]; exact h1 j y (by omega) hy
    · rw [if_neg (by omega)]; exact h1 _ y (by omega) hy
  · dsimp only at ha
    split at ha <;> exact h2 _ _ ha
  · dsimp only at ha ha'
    split at ha <;> split at ha' <;> have := h3 _ _ _ ha ha' <;> omega

/-! ### The place of a link -/

/-- There is link `x` at `r`. -/
def Slot (m : Nat → Option (Obj K V)) (r : Ref) (x : Link) : Prop := ∃ b xs, r.base = .blk b ∧ m b = some (.links xs) ∧ xs[r.idx]? = some x

theorem Slot.unique {r : Ref} (h : Slot m r x) (h' : Slot m r y) : x = y := by
  obtain ⟨b, xs, h1, h2, h3⟩ := h
  obtain ⟨b', xs', h1', h2', h3'⟩ := h'
  rw [h1] at h1'; cases h1'
  rw [h2] at h2'; cases h2'
  rw [h3] at h3'; cases h3'
  rfl

theorem slot_load {r : Ref} {s t : St K V} (h : Go.run (load r) s = .ok (x, t)) : t = s ∧ Slot s.mem r x := load_inv h

theorem Slot.load {r : Ref} {s : St K V} (h : Slot s.mem r x) : Go.run (Amt.load r) s = .ok (x, s) := by
  obtain ⟨b, xs, h1, h2, h3⟩ := h
  unfold Go.run Amt.load
  rw [h1]
  simp only [h2, h3]

/-- `Zip m h p r C`: from the root at `h`, the path `p` leads to the place `r`; everything on the way and beside it is in `C`.  An entry of
the path is the nibble taken and the place of the link it was taken at. -/
inductive Zip (m : Nat → Option (Obj K V)) (h : Nat) : List (Nat × Ref) → Ref → (Nat → Prop) → Prop
  | root {C : Nat → Prop} : C h → Zip m h [] ⟨.blk h, 0⟩ C
  | child {p : List (Nat × Ref)} {r : Ref} {C D : Nat → Prop} {x : Link} {b n i : Nat} {xs : List Link} {G : Nat → Nat → Prop} :
      Zip m h p r C → Slot m r x → x.ptr = .blk b → m b = some (.links xs) → n < 32 → x.pmap &&& bitOf n ≠ 0#32 → i = rankOf x.pmap n →
      (∀ j y, j < popcount x.pmap → j ≠ i → xs[j]? = some y → Own m y (G j)) → (∀ j a, G j a → D a ∧ a ≠ b ∧ ¬ C a) →
      (∀ j k a, G j a → G k a → j = k) → (∀ a, C a → D a) → D b → ¬ C b → Zip m h (p ++ [(n, r)]) ⟨.blk b, i⟩ D

/-- The place is in an object on the way. -/
theorem Zip.base {h : Nat} {p : List (Nat × Ref)} {r : Ref} {C : Nat → Prop} (hz : Zip m h p r C) : ∃ b, r.base = .blk b ∧ C b := by
  cases hz with
  | root h => exact ⟨_, rfl, h⟩
  | child _ _ _ _ _ _ _ _ _ _ _ hD _ => exact ⟨_, rfl, hD⟩

/-- Everything but the link at the place is as it was. -/
theorem Zip.frame {h : Nat} {p : List (Nat × Ref)} {r : Ref} {C : Nat → Prop} (hz : Zip m h p r C)
    (hs : ∀ a, C a → r.base ≠ .blk a → SameBut (m a) (m' a))
    (hr : ∀ b xs, r.base = .blk b → m b = some (.links xs) → ∃ ys, m' b = some (.links ys) ∧ ∀ j, j ≠ r.idx → ys[j]? = xs[j]?) : Zip m' h p r C := by
  induction hz with
  | root h => exact .root h
  | @child p r C D x b n i xs G hz h1 h2 h3 h4 h5 h6 h7 h8 h9 h10 h11 h12 ih =>
    obtain ⟨ys, hy1, hy2⟩ := hr b xs rfl h3
    have hsame : ∀ a, C a → SameBut (m a) (m' a) := fun a ha => hs a (h10 a ha) fun he => by
      cases he; exact h12 ha
    have hblk : ∀ c zs, r.base = .blk c → m c = some (.links zs) → m' c = some (.links zs) := by
      intro c zs hc hm
      obtain ⟨c', hc', hC⟩ := hz.base
      rw [hc] at hc'; cases hc'
      have := hsame c hC
      rw [hm] at this
      exact this.links
    refine .child (ih (fun a ha _ => hsame a ha) fun c zs hc hm => ⟨zs, hblk c zs hc hm, fun _ _ => rfl⟩) ?_ h2 hy1 h4 h5 h6
      (fun j y hj hji hy => ?_) h8 h9 h10 h11 h12
    · obtain ⟨c, zs, g1, g2, g3⟩ := h1
      exact ⟨c, zs, g1, hblk c zs g1 g2, g3⟩
    · refine (h7 j y hj hji (by rw [← hy2 j hji]; exact hy)).frame fun a ha => hs a (h8 j a ha).1 fun he => ?_
      cases he
      exact (h8 j b ha).2.1 rfl

/-- The container seen from a place in it. -/
structure At (s : St K V) (h : Nat) (p : List (Nat × Ref)) (r : Ref) (x : Link) (C F : Nat → Prop) : Prop where
  zip : Zip s.mem h p r C
  slot : Slot s.mem r x
  own : Own s.mem x F
  apart : ∀ a, C a → F a → False
  below : ∀ a, C a ∨ F a → a < s.next

variable {s t : St K V} {h : Nat} {p : List (Nat × Ref)} {r : Ref} {C D G : Nat → Prop}

/-- One step down. -/
theorem At.down (ha : At s h p r x C F) {n : Nat} (hn : n < 32) (hbit : x.pmap &&& bitOf n ≠ 0#32) (hy : Slot s.mem ⟨x.ptr, rankOf x.pmap n⟩ y) :
    ∃ D G, At s h (p ++ [(n, r)]) ⟨x.ptr, rankOf x.pmap n⟩ y D G ∧ ∀ a, D a ∨ G a → C a ∨ F a := by
  obtain ⟨b, xs, h1, h2, h3⟩ := hy
  dsimp only at h1 h3
  obtain ⟨hFb, E, k1, k2, k3⟩ := ha.own.kids h1 h2
  have hi := rank_lt hn hbit
  refine ⟨fun a => C a ∨ a = b ∨ ∃ j, j ≠ rankOf x.pmap n ∧ E j a, E (rankOf x.pmap n), ⟨?_, ⟨b, xs, h1, h2, h3⟩, k1 _ y hi h3, ?_, ?_⟩, ?_⟩
  · rw [h1]
    refine .child (G := fun j a => j ≠ rankOf x.pmap n ∧ E j a) ha.zip ha.slot h1 h2 hn hbit rfl (fun j z hj hji hz => ?_) (fun j a hE => ?_) (fun j k a hj hk => k3 j k a hj.2 hk.2)
      (fun a hC => .inl hC) (.inr (.inl rfl)) fun hC => ha.apart b hC hFb
    · exact (k1 j z hj hz).mono fun a hE => ⟨hji, hE⟩
    · exact ⟨.inr (.inr ⟨j, hE⟩), (k2 j a hE.2).2, fun hC => ha.apart a hC (k2 j a hE.2).1⟩
  · rintro a (hC | rfl | ⟨j, hj, hE⟩) hE'
    · exact ha.apart a hC (k2 _ a hE').1
    · exact (k2 _ a hE').2 rfl
    · exact hj (k3 _ _ _ hE hE')
  · rintro a ((hC | rfl | ⟨j, hj, hE⟩) | hE)
    · exact ha.below a (.inl hC)
    · exact ha.below _ (.inr hFb)
    · exact ha.below a (.inr (k2 _ a hE).1)
    · exact ha.below a (.inr (k2 _ a hE).1)
  · rintro a ((hC | rfl | ⟨j, hj, hE⟩) | hE)
    · exact .inl hC
    · exact .inr hFb
    · exact .inr (k2 _ a hE).1
    · exact .inr (k2 _ a hE).1

/-- One step up. -/
theorem At.up {n : Nat} {q : Ref} (ha : At s h (p ++ [(n, q)]) r x C F) :
    ∃ y D G, At s h p q y D G ∧ n < 32 ∧ y.pmap &&& bitOf n ≠ 0#32 ∧ r = ⟨y.ptr, rankOf y.pmap n⟩ ∧ ∀ a, D a ∨ G a → C a ∨ F a := by
  obtain ⟨hz, hsl, hown, hap, hbel⟩ := ha
  generalize hp : p ++ [(n, q)] = p' at hz
  cases hz with
  | root => simp at hp
  | @child p' r' C' _ y b n' i xs E hz h1 h2 h3 h4 h5 h6 h7 h8 h9 h10 h11 h12 =>
    obtain ⟨rfl, hq⟩ := List.append_inj' hp rfl
    cases hq
    subst h6
    obtain ⟨b', xs', g1, g2, g3⟩ := hsl
    cases g1
    rw [h3] at g2; cases g2
    dsimp only at g3
    refine ⟨y, C', fun a => (C a ∧ ¬ C' a) ∨ F a, ⟨hz, h1, ?_, ?_, ?_⟩, h4, h5, by rw [h2], ?_⟩
    · refine .arr (G := fun j => if j = rankOf y.pmap n then F else E j) h2 h3 (.inl ⟨h11, h12⟩) (fun j z hj hz => ?_) (fun j a hE => ?_)
        fun j k a hj hk => ?_
      · split
        · next he =>
          subst he
          rw [g3] at hz; cases hz
          exact hown
        · next he => exact h7 j z hj he hz
      · split at hE
        · exact ⟨.inr hE, fun he => by subst he; exact hap _ h11 hE⟩
        · obtain ⟨e1, e2, e3⟩ := h8 j a hE
          exact ⟨.inl ⟨e1, e3⟩, e2⟩
      · split at hj <;> split at hk
        · omega
        · exact (hap a (h8 k a hk).1 hj).elim
        · exact (hap a (h8 j a hj).1 hk).elim
        · exact h9 j k a hj hk
    · rintro a hC (⟨_, h⟩ | h)
      · exact h hC
      · exact hap a (h10 a hC) h
    · rintro a (hC | ⟨hC, _⟩ | hF)
      · exact hbel a (.inl (h10 a hC))
      · exact hbel a (.inl hC)
      · exact hbel a (.inr hF)
    · rintro a (hC | ⟨hC, _⟩ | hF)
      · exact .inl (h10 a hC)
      · exact .inl hC
      · exact .inr hF

/-- Up to any place on the way. -/
theorem At.pop (j : Nat) : ∀ {p : List (Nat × Ref)} {r : Ref} {x : Link} {C F : Nat → Prop} {n : Nat} {q : Ref}, At s h p r x C F → p[j]? = some (n, q) →
    ∃ y D G, At s h (p.take j) q y D G ∧ n < 32 ∧ y.pmap &&& bitOf n ≠ 0#32 ∧ ∀ a, D a ∨ G a → C a ∨ F a := by
  intro p
  induction hp : p.length generalizing p with
  | zero =>
    intro r x C F n q ha hj
    rw [List.length_eq_zero_iff] at hp
    subst hp
    simp at hj
  | succ k ih =>
    intro r x C F n q ha hj
    obtain ⟨p', e, rfl⟩ : ∃ p' e, p = p' ++ [e] := ⟨p.dropLast, p.getLast (by intro h; subst h; simp at hp), (List.dropLast_concat_getLast _).symm⟩
    obtain ⟨n', q'⟩ := e
    have hl : p'.length = k := by simpa using hp
    obtain ⟨y, D, G, h1, h2, h3, _, h4⟩ := ha.up
    by_cases hjk : j = k
    · subst hjk
      rw [List.getElem?_append_right (by omega)] at hj
      simp [hl] at hj
      obtain ⟨rfl, rfl⟩ := hj
      refine ⟨y, D, G, ?_, h2, h3, h4⟩
      rw [List.take_append_of_le_length (by omega), List.take_of_length_le (by omega)]
      exact h1
    · have hlt : j < k := by
        have := (List.getElem?_eq_some_iff.1 hj).1
        simp [hl] at this
        omega
      rw [List.getElem?_append_left (by omega)] at hj
      obtain ⟨y', D', G', g1, g2, g3, g4⟩ := ih hl h1 hj
      refine ⟨y', D', G', ?_, g2, g3, fun a hh => h4 a (g4 a hh)⟩
      rw [List.take_append_of_le_length (by omega)]
      exact g1

theorem Zip.nil {r : Ref} (hz : Zip m h [] r C) : r = ⟨.blk h, 0⟩ := by
  generalize hp : ([] : List (Nat × Ref)) = p at hz
  cases hz with
  | root _ => rfl
  | child => simp at hp

/-- Up to the root. -/
theorem At.top (ha : At s h p r x C F) : ∃ y D G, At s h [] ⟨.blk h, 0⟩ y D G := by
  cases p with
  | nil => rw [← ha.zip.nil]; exact ⟨x, C, F, ha⟩
  | cons e p =>
    obtain ⟨y, D, G, h1, _⟩ := ha.pop 0 (n := e.1) (q := e.2) rfl
    rw [List.take_zero] at h1
    rw [← h1.zip.nil]
    exact ⟨y, D, G, h1⟩

/-- A container whose objects have one place each. -/
def Whole (s : St K V) (h : Nat) : Prop := ∃ x C F, At s h [] ⟨.blk h, 0⟩ x C F

theorem At.whole (ha : At s h p r x C F) : Whole s h := ha.top

end

end Amt.Tree
