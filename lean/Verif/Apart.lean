/-
Programs that use several containers, with callbacks and with pointers to values: one memory for all of them against
one memory for each.  The relation between the two, and the calls that run callbacks.
-/
import Verif.PropsRename
import Verif.Callback

set_option linter.unusedVariables false
set_option linter.unusedSectionVars false

namespace Amt
open Spec

/-- What a client holds: containers, each with its kind and its root, and pointers to values. -/
structure EnvW (ι : Type) where
  objs : List (ι × Nat)
  ptrs : List Ptr

/-- The same with a memory for each container; a pointer comes with the container in whose memory it points. -/
structure Worlds (ι K V : Type) where
  objs : List (ι × Nat)
  mem : Nat → St K V
  ptrs : List (Nat × Ptr)

namespace EnvW
variable {ι : Type}

/-- A container is created. -/
def create (e : EnvW ι) (i : ι) (h : Nat) : EnvW ι := { e with objs := e.objs ++ [(i, h)] }

/-- A pointer is kept. -/
def hold (e : EnvW ι) (p : Ptr) : EnvW ι := { e with ptrs := e.ptrs ++ [p] }

end EnvW

namespace Worlds
variable {ι K V : Type}

/-- The memory of the container `c` changes. -/
def put (w : Worlds ι K V) (c : Nat) (t : St K V) : Worlds ι K V := { w with mem := fun x => if x = c then t else w.mem x }

/-- A container is created, in a memory of its own. -/
def create (w : Worlds ι K V) (i : ι) (h : Nat) (t : St K V) : Worlds ι K V :=
  { w with objs := w.objs ++ [(i, h)], mem := fun x => if x = w.objs.length then t else w.mem x }

/-- A pointer is kept. -/
def hold (w : Worlds ι K V) (c : Nat) (p : Ptr) : Worlds ι K V := { w with ptrs := w.ptrs ++ [(c, p)] }

theorem put_put (w : Worlds ι K V) (c : Nat) (t t' : St K V) : (w.put c t).put c t' = w.put c t' := by
  unfold put
  congr 1
  funext x
  simp only
  split
  · rfl
  · rfl

theorem put_hold (w : Worlds ι K V) (c c' : Nat) (t : St K V) (p : Ptr) : (w.put c t).hold c' p = (w.hold c' p).put c t := rfl

theorem put_mem (w : Worlds ι K V) (c : Nat) (t : St K V) : (w.put c t).mem c = t := if_pos rfl

theorem put_self (w : Worlds ι K V) (c : Nat) : w.put c (w.mem c) = w := by
  unfold put
  obtain ⟨o, m, p⟩ := w
  congr 1
  funext x
  simp only
  split
  · rename_i h; rw [h]
  · rfl

end Worlds

section
variable {ι K V α β γ δ U R : Type}

/-- Each container in `s` is a copy of the one in its own memory, and they share no objects. -/
structure RelW (φ : Nat → Ren) (e : EnvW ι) (s : St K V) (w : Worlds ι K V) : Prop where
  len : e.objs.length = w.objs.length
  obj : ∀ {c : Nat} {i h}, e.objs[c]? = some (i, h) → ∃ k, w.objs[c]? = some (i, k) ∧ StR (φ c) h k s (w.mem c)
  disj : ∀ {c c' a b b'}, φ c a b → φ c' a b' → c = c'
  out : ∀ {c a b}, φ c a b → c < e.objs.length
  plen : e.ptrs.length = w.ptrs.length
  ptr : ∀ {j : Nat} {p}, e.ptrs[j]? = some p → ∃ c q, w.ptrs[j]? = some (c, q) ∧ c < e.objs.length ∧ PtrR (φ c) p q

def FLe (φ φ' : Nat → Ren) : Prop := ∀ c, Ren.Le (φ c) (φ' c)

theorem FLe.refl (φ : Nat → Ren) : FLe φ φ := fun _ => Ren.Le.refl _

theorem FLe.trans {φ φ' φ'' : Nat → Ren} (h : FLe φ φ') (h' : FLe φ' φ'') : FLe φ φ'' := fun c => (h c).trans (h' c)

/-- The outcomes correspond. -/
def OutW (φ : Nat → Ren) (Q : (Nat → Ren) → α → St K V → β → St K V → Prop) :
    Except Fault (α × St K V) → Except Fault (β × St K V) → Prop
  | .error e, .error e' => e = e'
  | .ok (a, s'), .ok (b, t') => ∃ φ', FLe φ φ' ∧ Q φ' a s' b t'
  | _, _ => False

/-- Two programs do the same, the first in the common memory, the second in the memory of the container `c`. -/
def SimW (c : Nat) (e : EnvW ι) (w : Worlds ι K V) (φ : Nat → Ren) (Q : (Nat → Ren) → α → St K V → β → St K V → Prop) (x : M K V α) (y : M K V β) : Prop :=
  ∀ s t, RelW φ e s (w.put c t) → OutW φ Q (x s) (y t)

/-- The container `c` has the root `h` in the common memory and `k` in its own. -/
def AtW (c : Nat) (e : EnvW ι) (w : Worlds ι K V) (h k : Nat) : Prop := ∃ i, e.objs[c]? = some (i, h) ∧ w.objs[c]? = some (i, k)

theorem OutW.bind {φ : Nat → Ren} {Q : (Nat → Ren) → α → St K V → β → St K V → Prop} {Q' : (Nat → Ren) → γ → St K V → δ → St K V → Prop}
    {x : M K V α} {y : M K V β} {f : α → M K V γ} {g : β → M K V δ} {s t : St K V} (h1 : OutW φ Q (x s) (y t))
    (h2 : ∀ φ' a s' b t', FLe φ φ' → Q φ' a s' b t' → OutW φ' Q' (f a s') (g b t')) : OutW φ Q' ((x >>= f) s) ((y >>= g) t) := by
  rw [bind_run, bind_run]
  cases hx : x s with
  | error e =>
    cases hy : y t with
    | error e' => rw [hx, hy] at h1; exact h1
    | ok r => rw [hx, hy] at h1; exact h1.elim
  | ok r =>
    cases hy : y t with
    | error e' => rw [hx, hy] at h1; exact h1.elim
    | ok r' =>
      rw [hx, hy] at h1
      obtain ⟨a, s1⟩ := r
      obtain ⟨b, t1⟩ := r'
      obtain ⟨φ', h4, h5⟩ := h1
      have h8 := h2 φ' a s1 b t1 h4 h5
      dsimp only
      cases hf : f a s1 with
      | error e =>
        cases hg : g b t1 with
        | error e' => rw [hf, hg] at h8; exact h8
        | ok r => rw [hf, hg] at h8; exact h8.elim
      | ok r =>
        cases hg : g b t1 with
        | error e' => rw [hf, hg] at h8; exact h8.elim
        | ok r' =>
          rw [hf, hg] at h8
          obtain ⟨φ'', h9, h10⟩ := h8
          exact ⟨φ'', h4.trans h9, h10⟩

theorem SimW.bind {c : Nat} {e : EnvW ι} {w : Worlds ι K V} {φ : Nat → Ren} {Q : (Nat → Ren) → α → St K V → β → St K V → Prop}
    {Q' : (Nat → Ren) → γ → St K V → δ → St K V → Prop} {x : M K V α} {y : M K V β} {f : α → M K V γ} {g : β → M K V δ} (h1 : SimW c e w φ Q x y)
    (h2 : ∀ φ' a s' b t', FLe φ φ' → Q φ' a s' b t' → OutW φ' Q' (f a s') (g b t')) : SimW c e w φ Q' (x >>= f) (y >>= g) :=
  fun s t h => (h1 s t h).bind h2

/-- A step on the container `c` leaves the others alone. -/
theorem RelW.step {c h k : Nat} {e : EnvW ι} {w : Worlds ι K V} {φ : Nat → Ren} {s s' t' : St K V} {ψ : Ren} (hr : RelW φ e s w) (ha : AtW c e w h k)
    (hle : Ren.Le (φ c) ψ) (hs : StR ψ h k s' t') (hf : Fr (φ c) ψ h s s') :
    ∃ φ', FLe φ φ' ∧ φ' c = ψ ∧ RelW φ' e s' (w.put c t') := by
  obtain ⟨i, a1, a2⟩ := ha
  have hc : c < e.objs.length := (List.getElem?_eq_some_iff.1 a1).1
  have key : ∀ c' i' h', c' ≠ c → e.objs[c']? = some (i', h') → ∀ k', StR (φ c') h' k' s (w.mem c') → StR (φ c') h' k' s' (w.mem c') := by
    intro c' i' h' hne he k' hst
    have hapart : ∀ a b, φ c' a b → ∀ b', ¬ φ c a b' := fun a b h1 b' h2 => hne (hr.disj h1 h2)
    refine ⟨hst.fn, hst.inj, fun {a b} hab => ?_, fun {a b} hab => ⟨Nat.lt_of_lt_of_le (hst.lt hab).1 hf.next, (hst.lt hab).2⟩, hst.root, ?_⟩
    · rw [hf.mem a (hst.lt hab).1 (hapart a b hab)]; exact hst.obj hab
    · rw [hf.roots h' ?_]; exact hst.fields
      rintro rfl
      obtain ⟨k₀, b1, b2⟩ := hr.obj a1
      exact hapart _ _ hst.root _ b2.root
  refine ⟨fun x => if x = c then ψ else φ x, fun x => ?_, if_pos rfl, ⟨hr.len, ?_, ?_, ?_, hr.plen, ?_⟩⟩
  · show Ren.Le (φ x) (if x = c then ψ else φ x)
    split
    · rename_i h1; rw [h1]; exact hle
    · exact Ren.Le.refl _
  · intro c' i' h' he
    obtain ⟨k', b1, b2⟩ := hr.obj he
    refine ⟨k', b1, ?_⟩
    show StR (if c' = c then ψ else φ c') h' k' s' (if c' = c then t' else w.mem c')
    split
    · rename_i h1
      subst h1
      rw [a1] at he; rw [show w.objs[c']? = some (i', k') from b1] at a2
      cases he; cases a2
      exact hs
    · exact key c' i' h' ‹_› he k' b2
  · intro c₁ c₂ a b b' h1 h2
    have h1 : (if c₁ = c then ψ else φ c₁) a b := h1
    have h2 : (if c₂ = c then ψ else φ c₂) a b' := h2
    have aux : ∀ c₂ b b', c₂ ≠ c → ψ a b → φ c₂ a b' → c = c₂ := by
      intro c₂ b b' e2 h3 h4
      rcases hf.new a b h3 with h5 | h5
      · exact hr.disj h5 h4
      · have h6 : e.objs[c₂]? = some (e.objs[c₂]'(hr.out h4)) := List.getElem?_eq_getElem _
        obtain ⟨k₂, _, b2⟩ := hr.obj (i := (e.objs[c₂]'(hr.out h4)).1) (h := (e.objs[c₂]'(hr.out h4)).2) h6
        exact absurd (b2.lt h4).1 (by omega)
    split at h1 <;> split at h2
    · rename_i e1 e2; rw [e1, e2]
    · rename_i e1 e2; rw [e1]; exact aux c₂ b b' e2 h1 h2
    · rename_i e1 e2; rw [e2]; exact (aux c₁ b' b e1 h2 h1).symm
    · exact hr.disj h1 h2
  · intro c' a b h1
    have h1 : (if c' = c then ψ else φ c') a b := h1
    split at h1
    · rename_i h2; rw [h2]; exact hc
    · exact hr.out h1
  · intro j p hp
    obtain ⟨c', q, b1, b2, b3⟩ := hr.ptr hp
    refine ⟨c', q, b1, b2, ?_⟩
    show PtrR (if c' = c then ψ else φ c') p q
    split
    · rename_i h1; subst h1; exact b3.mono hle
    · exact b3

/-- The result of a step on the container `c`. -/
def OwnW (c : Nat) (e : EnvW ι) (w : Worlds ι K V) (RA : Ren → α → β → Prop) (φ' : Nat → Ren) (a : α) (s' : St K V) (b : β) (t' : St K V) : Prop :=
  RA (φ' c) a b ∧ RelW φ' e s' (w.put c t')

theorem SimW.own {c h k : Nat} {e : EnvW ι} {w : Worlds ι K V} {φ : Nat → Ren} {RA : Ren → α → β → Prop} {x : M K V α} {y : M K V β}
    (ha : AtW c e w h k) (hs : Same h k (φ c) RA x y) : SimW c e w φ (OwnW c e w RA) x y := by
  intro s t hr
  obtain ⟨i, a1, a2⟩ := ha
  obtain ⟨k', b1, b2⟩ := hr.obj a1
  have : k' = k := by
    have b1 : w.objs[c]? = some (i, k') := b1
    rw [b1] at a2; cases a2; rfl
  subst this
  rw [Worlds.put_mem] at b2
  have h3 := hs s t b2
  cases hx : x s <;> cases hy : y t <;> rw [hx, hy] at h3
  · exact h3
  · exact h3.elim
  · exact h3.elim
  · obtain ⟨ψ, h4, h5, h6, h7⟩ := h3
    obtain ⟨φ', q1, q2, q3⟩ := hr.step (c := c) (h := h) (k := k') ⟨i, a1, a2⟩ h4 h5 h7
    rw [Worlds.put_put] at q3
    exact ⟨φ', q1, q2 ▸ h6, q3⟩

/-- A step on the container `c`, and what follows. -/
theorem SimW.seq {c h k : Nat} {e : EnvW ι} {w : Worlds ι K V} {φ : Nat → Ren} {RA : Ren → α → β → Prop} {Q : (Nat → Ren) → γ → St K V → δ → St K V → Prop}
    {x : M K V α} {y : M K V β} {f : α → M K V γ} {g : β → M K V δ} (ha : AtW c e w h k) (hs : Same h k (φ c) RA x y)
    (h2 : ∀ φ', FLe φ φ' → ∀ a b, RA (φ' c) a b → SimW c e w φ' Q (f a) (g b)) : SimW c e w φ Q (x >>= f) (y >>= g) :=
  (SimW.own ha hs).bind fun φ' a s' b t' hle hq => h2 φ' hle a b hq.1 s' t' hq.2

theorem SimW.ite {c : Nat} {e : EnvW ι} {w : Worlds ι K V} {φ : Nat → Ren} {Q : (Nat → Ren) → α → St K V → β → St K V → Prop} {p : Prop} [Decidable p]
    {x x' : M K V α} {y y' : M K V β} (h1 : p → SimW c e w φ Q x y) (h2 : ¬ p → SimW c e w φ Q x' y') :
    SimW c e w φ Q (if p then x else x') (if p then y else y') := by
  split
  · exact h1 ‹_›
  · exact h2 ‹_›

theorem SimW.fail {c : Nat} {e : EnvW ι} {w : Worlds ι K V} {φ : Nat → Ren} {Q : (Nat → Ren) → α → St K V → β → St K V → Prop} (e' : Fault) :
    SimW c e w φ Q (M.fail e') (M.fail e') := fun s t hr => rfl

/-- The containers that there were are still there. -/
structure GrowW (e e' : EnvW ι) (w w' : Worlds ι K V) : Prop where
  l : ∀ (c : Nat) o, e.objs[c]? = some o → e'.objs[c]? = some o
  r : ∀ (c : Nat) o, w.objs[c]? = some o → w'.objs[c]? = some o

theorem GrowW.refl (e : EnvW ι) (w : Worlds ι K V) : GrowW e e w w := ⟨fun _ _ h => h, fun _ _ h => h⟩

theorem GrowW.trans {e e' e'' : EnvW ι} {w w' w'' : Worlds ι K V} (h : GrowW e e' w w') (h' : GrowW e' e'' w' w'') : GrowW e e'' w w'' :=
  ⟨fun c o x => h'.l c o (h.l c o x), fun c o x => h'.r c o (h.r c o x)⟩

theorem AtW.grow {c h k : Nat} {e e' : EnvW ι} {w w' : Worlds ι K V} (ha : AtW c e w h k) (hg : GrowW e e' w w') : AtW c e' w' h k := by
  obtain ⟨i, h1, h2⟩ := ha
  exact ⟨i, hg.l _ _ h1, hg.r _ _ h2⟩

/-- The result of a program with callbacks: `r` and what the client holds afterwards. -/
def RanW (c : Nat) (e : EnvW ι) (w : Worlds ι K V) (φ' : Nat → Ren) (a : R × EnvW ι) (s' : St K V) (b : R × Worlds ι K V) (t' : St K V) : Prop :=
  a.1 = b.1 ∧ RelW φ' a.2 s' (b.2.put c t') ∧ GrowW e a.2 w b.2

/-- The same, for one call of the callback of `All`. -/
def RanU (c : Nat) (e : EnvW ι) (w : Worlds ι K V) (φ' : Nat → Ren) (a : (U × EnvW ι) × Bool) (s' : St K V) (b : (U × Worlds ι K V) × Bool)
    (t' : St K V) : Prop :=
  a.1.1 = b.1.1 ∧ a.2 = b.2 ∧ RelW φ' a.1.2 s' (b.1.2.put c t') ∧ GrowW e a.1.2 w b.1.2

/-! ### All -/

section
variable {c h k : Nat} {visit : U × EnvW ι → Link → M K V ((U × EnvW ι) × Bool)} {visit' : U × Worlds ι K V → Link → M K V ((U × Worlds ι K V) × Bool)}

theorem SimW.scanItems {rec : U × EnvW ι → Ref → M K V ((U × EnvW ι) × Bool)} {rec' : U × Worlds ι K V → Ref → M K V ((U × Worlds ι K V) × Bool)}
    (hv : ∀ {φ : Nat → Ren} {e : EnvW ι} {w : Worlds ι K V} u {x y}, AtW c e w h k → LinkR (φ c) x y → SimW c e w φ (RanU c e w) (visit (u, e) x) (visit' (u, w) y))
    (hrec : ∀ {φ : Nat → Ren} {e : EnvW ι} {w : Worlds ι K V} u {x y}, AtW c e w h k → RefR (φ c) x y → SimW c e w φ (RanU c e w) (rec (u, e) x) (rec' (u, w) y))
    (tm : BitVec 32) (n : Nat) : ∀ {φ : Nat → Ren} {e : EnvW ι} {w : Worlds ι K V} {l l' : Ref}, AtW c e w h k → RefR (φ c) l l' → ∀ i pm u,
      SimW c e w φ (RanU c e w) (scanItems visit rec l tm n i pm (u, e)) (scanItems visit' rec' l' tm n i pm (u, w)) := by
  induction n with
  | zero =>
    intro φ e w l l' ha hl i pm u s t hr
    exact ⟨φ, FLe.refl φ, rfl, rfl, hr, GrowW.refl e w⟩
  | succ n ih =>
    intro φ e w l l' ha hl i pm u
    unfold Amt.scanItems
    dsimp only
    refine SimW.seq ha (Same.load hl) fun φ1 l1 x y hxy => ?_
    have fin : ∀ {φ' : Nat → Ren}, FLe φ φ' → ∀ (a : (U × EnvW ι) × Bool) s' (b : (U × Worlds ι K V) × Bool) t', RanU c e w φ' a s' b t' → OutW φ' (RanU c e w)
        ((if a.2 = true then Amt.scanItems visit rec l tm n (i + 1) (pm &&& ~~~bitOf (trailingZeros pm)) a.1 else Pure.pure (a.1, false)) s')
        ((if b.2 = true then Amt.scanItems visit' rec' l' tm n (i + 1) (pm &&& ~~~bitOf (trailingZeros pm)) b.1 else Pure.pure (b.1, false)) t') := by
      rintro φ' hle ⟨⟨u1, e1⟩, fl⟩ s' ⟨⟨u2, w2⟩, fl'⟩ t' ⟨h1, h2, h3, h4⟩
      simp only at h1 h2 h3 h4
      subst h1; subst h2
      dsimp only
      split
      · have := ih (ha.grow h4) (hl.mono (hle c)) (i + 1) (pm &&& ~~~bitOf (trailingZeros pm)) u1 s' t' h3
        revert this
        generalize Amt.scanItems visit rec l tm n (i + 1) (pm &&& ~~~bitOf (trailingZeros pm)) (u1, e1) s' = X
        generalize Amt.scanItems visit' rec' l' tm n (i + 1) (pm &&& ~~~bitOf (trailingZeros pm)) (u1, w2) t' = Y
        intro this
        rcases X with _ | ⟨a, s''⟩ <;> rcases Y with _ | ⟨b, t''⟩
        · exact this
        · exact this
        · exact this
        · obtain ⟨φ'', p1, p2, p3, p4, p5⟩ := this
          exact ⟨φ'', p1, p2, p3, p4, h4.trans p5⟩
      · exact ⟨φ', FLe.refl φ', rfl, rfl, h3, h4⟩
    split
    · refine SimW.seq ha (Same.load (RefR.at _ hxy.ptr)) fun φ2 l2 a b hab => ?_
      exact (hv u ha hab).bind fun φ3 a s' b t' l3 hq => fin (l1.trans (l2.trans l3)) a s' b t' hq
    · exact (hrec u ha (RefR.at _ hxy.ptr)).bind fun φ2 a s' b t' l2 hq => fin (l1.trans l2) a s' b t' hq

theorem SimW.scan
    (hv : ∀ {φ : Nat → Ren} {e : EnvW ι} {w : Worlds ι K V} u {x y}, AtW c e w h k → LinkR (φ c) x y → SimW c e w φ (RanU c e w) (visit (u, e) x) (visit' (u, w) y))
    (fuel : Nat) : ∀ {φ : Nat → Ren} {e : EnvW ι} {w : Worlds ι K V} u {l l' : Ref}, AtW c e w h k → RefR (φ c) l l' →
      SimW c e w φ (RanU c e w) (scan visit fuel (u, e) l) (scan visit' fuel (u, w) l') := by
  induction fuel with
  | zero => intros; exact SimW.fail _
  | succ fuel ih =>
    intro φ e w u l l' ha hl
    unfold Amt.scan
    refine SimW.seq ha (Same.load hl) fun φ1 l1 x y hxy => ?_
    rw [hxy.pmap, hxy.tmap]
    exact SimW.scanItems hv ih _ _ ha (hl.mono (l1 c)) _ _ _

end

/-! ### Mod -/

section
variable {c h k : Nat} {e : EnvW ι} {w : Worlds ι K V} {ins : Ins K V (R × EnvW ι)} {ins' : Ins K V (R × Worlds ι K V)}

/-- A new cell, and the result of a callback. -/
def CellW (c : Nat) (e : EnvW ι) (w : Worlds ι K V) (φ' : Nat → Ren) (a : Ptr × R × EnvW ι) (s' : St K V) (b : Ptr × R × Worlds ι K V) (t' : St K V) : Prop :=
  PtrR (φ' c) a.1 b.1 ∧ RanW c e w φ' a.2 s' b.2 t'

/-- The hooks, which run a callback, correspond. -/
structure InsW (c : Nat) (e : EnvW ι) (w : Worlds ι K V) (ins : Ins K V (R × EnvW ι)) (ins' : Ins K V (R × Worlds ι K V)) : Prop where
  chash : ins.chash = ins'.chash
  guard : ins.guard = ins'.guard
  hit : ∀ {φ : Nat → Ren} {p q : Ptr}, PtrR (φ c) p q → SimW c e w φ (RanW c e w) (ins.hit p) (ins'.hit q)
  newSplit : ∀ {φ : Nat → Ren}, SimW c e w φ (CellW c e w) ins.newSplit ins'.newSplit
  newSlot : ∀ {φ : Nat → Ren}, SimW c e w φ (CellW c e w) ins.newSlot ins'.newSlot

/-- After the callback. -/
theorem SimW.cell {φ : Nat → Ren} {x : M K V (Ptr × R × EnvW ι)} {y : M K V (Ptr × R × Worlds ι K V)}
    {f : Ptr × R × EnvW ι → M K V (R × EnvW ι)} {g : Ptr × R × Worlds ι K V → M K V (R × Worlds ι K V)} (ha : AtW c e w h k)
    (hx : SimW c e w φ (CellW c e w) x y)
    (h2 : ∀ φ', FLe φ φ' → ∀ p q r e' w', PtrR (φ' c) p q → AtW c e' w' h k → GrowW e e' w w' →
      SimW c e' w' φ' (RanW c e w) (f (p, r, e')) (g (q, r, w'))) : SimW c e w φ (RanW c e w) (x >>= f) (y >>= g) := by
  refine hx.bind ?_
  rintro φ' ⟨p, r, e'⟩ s' ⟨q, r', w'⟩ t' hle ⟨h3, h4, h5, h6⟩
  simp only at h3 h4 h5 h6
  subst h4
  exact h2 φ' hle p q r e' w' h3 (ha.grow h6) h6 s' t' h5

theorem SimW.done {e' : EnvW ι} {w' : Worlds ι K V} {φ : Nat → Ren} (hg : GrowW e e' w w') (r : R) :
    SimW c e' w' φ (RanW c e w) (Pure.pure (r, e') : M K V (R × EnvW ι)) (Pure.pure (r, w')) :=
  fun s t hr => ⟨φ, FLe.refl φ, rfl, hr, hg⟩

theorem SimW.split (cf : Cfg K) (sd : Seed) (key ckey : K) (ha : AtW c e w h k) (hi : InsW c e w ins ins') (fuel : Nat) :
    ∀ {φ : Nat → Ren} {p q : Ptr}, PtrR (φ c) p q → ∀ {r r' : Ref}, RefR (φ c) r r' → ∀ d hd chd n m,
    SimW c e w φ (RanW c e w) (split cf sd h key ckey p ins fuel r d hd chd n m) (split cf sd k key ckey q ins' fuel r' d hd chd n m) := by
  induction fuel with
  | zero => intros; exact SimW.fail _
  | succ fuel ih =>
    intro φ p q hp r r' hr d hd chd n m
    unfold Amt.split
    dsimp only
    generalize (d + 1) % 256 = d1
    generalize (if d1 % 16 ≠ 0 then hd >>> 4 else cf.digest sd key (n + 1) d1) = hd1
    generalize (if d1 % 16 ≠ 0 then chd >>> 4 else cf.digest sd ckey (m + 1) d1) = chd1
    generalize (if d1 % 16 ≠ 0 then n else n + 1) = n1
    generalize (if d1 % 16 ≠ 0 then m else m + 1) = m1
    refine SimW.seq ha (Same.modLink hr fun φ' _ x y hxy => ⟨hxy.ptr, rfl, hxy.tmap⟩) fun φ1 l1 _ _ _ => ?_
    refine SimW.ite (fun _ => ?_) fun _ => ?_
    · refine SimW.seq ha (Same.modLink (hr.mono (l1 c)) fun φ' _ x y hxy => ⟨hxy.ptr, hxy.pmap, hxy.pmap⟩) fun φ2 l2 _ _ _ => ?_
      refine SimW.seq ha (Same.newLinkArray 2) fun φ3 l3 a a' ha' => ?_
      have l13 := l1.trans (l2.trans l3)
      refine SimW.seq ha (Same.modLink (hr.mono (l13 c)) fun φ' l x y hxy => ⟨ha'.mono l, hxy.pmap, hxy.tmap⟩) fun φ4 l4 _ _ _ => ?_
      refine SimW.cell ha hi.newSplit fun φ5 l5 x y rx e5 w5 h1 ha5 hg => ?_
      have l15 := l13.trans (l4.trans l5)
      refine SimW.seq ha5 (Same.load (hr.mono (l15 c))) fun φ6 l6 u v huv => ?_
      have l16 := l15.trans l6
      have hk := h1.mono (l6 c)
      have hc := hp.mono (l16 c)
      refine SimW.ite (fun _ => ?_) fun _ => ?_
      · refine SimW.seq ha5 (Same.modLink (RefR.at _ (huv.ptr)) fun _ l _ _ hxy => hxy.put cf key (hk.mono l)) fun φ7 l7 _ _ _ => ?_
        refine SimW.seq ha5 (Same.modLink (RefR.at _ (huv.ptr.mono (l7 c))) fun _ l _ _ hxy => hxy.put cf ckey ((hc.mono (l7 c)).mono l)) fun φ8 l8 _ _ _ => ?_
        exact SimW.seq ha5 (Same.modRoot _) fun φ9 l9 _ _ _ => SimW.done hg rx
      · refine SimW.seq ha5 (Same.modLink (RefR.at _ (huv.ptr)) fun _ l _ _ hxy => hxy.put cf ckey (hc.mono l)) fun φ7 l7 _ _ _ => ?_
        refine SimW.seq ha5 (Same.modLink (RefR.at _ (huv.ptr.mono (l7 c))) fun _ l _ _ hxy => hxy.put cf key ((hk.mono (l7 c)).mono l)) fun φ8 l8 _ _ _ => ?_
        exact SimW.seq ha5 (Same.modRoot _) fun φ9 l9 _ _ _ => SimW.done hg rx
    · refine SimW.seq ha (Same.newLinkArray 1) fun φ2 l2 a a' ha' => ?_
      refine SimW.seq ha (Same.modLink (hr.mono ((l1.trans l2) c)) fun φ' l x y hxy => ⟨ha'.mono l, hxy.pmap, hxy.tmap⟩) fun φ3 l3 _ _ _ => ?_
      exact ih (hp.mono ((l1.trans (l2.trans l3)) c)) (RefR.at _ (ha'.mono (l3 c))) _ _ _ _ _

theorem SimW.insertSlot (cf : Cfg K) (key : K) (ha : AtW c e w h k) (hi : InsW c e w ins ins') {φ : Nat → Ren} {x y : Cur} (hx : CurR (φ c) x y) :
    SimW c e w φ (RanW c e w) (insertSlot cf h key ins x) (insertSlot cf k key ins' y) := by
  unfold Amt.insertSlot
  rw [hx.hd, hx.d]
  dsimp only
  refine SimW.seq ha (Same.load hx.l) fun φ1 l1 a a' ha' => ?_
  rw [ha'.pmap]
  refine SimW.cell ha hi.newSlot fun φ2 l2 u v ru e2 w2 h1 ha2 hg => ?_
  have l12 := l1.trans l2
  refine SimW.seq ha2 (Same.load (hx.l.mono (l12 c))) fun φ3 l3 b b' hb => ?_
  have l13 := l12.trans l3
  rw [hb.pmap]
  have fin : ∀ {φ' : Nat → Ren}, FLe φ φ' → SimW c e2 w2 φ' (RanW c e w)
      (do Amt.modLink x.l fun x => { x with pmap := x.pmap ||| bitOf (radixOf y.hd), tmap := x.tmap ||| bitOf (radixOf y.hd) }
          Amt.modRoot h fun m => { m with len := m.len + 1, dep := m.dep + BitVec.ofNat 64 y.d }
          Pure.pure (ru, e2) : M K V (R × EnvW ι))
      (do Amt.modLink y.l fun x => { x with pmap := x.pmap ||| bitOf (radixOf y.hd), tmap := x.tmap ||| bitOf (radixOf y.hd) }
          Amt.modRoot k fun m => { m with len := m.len + 1, dep := m.dep + BitVec.ofNat 64 y.d }
          Pure.pure (ru, w2)) := by
    intro φ' l
    refine SimW.seq ha2 (Same.modLink (hx.l.mono (l c)) fun φ'' _ p q hpq => ⟨hpq.ptr, ?_, ?_⟩) fun φ4 l4 _ _ _ => ?_
    · simp only; rw [hpq.pmap]
    · simp only; rw [hpq.tmap]
    · exact SimW.seq ha2 (Same.modRoot _) fun φ5 l5 _ _ _ => SimW.done hg ru
  refine SimW.ite (fun _ => ?_) fun _ => ?_
  · refine SimW.seq ha2 (Same.shiftUp _ _ hb.ptr) fun φ4 l4 _ _ _ => ?_
    exact SimW.seq ha2 (Same.store (RefR.at _ (hb.ptr.mono (l4 c))) (.made cf key (h1.mono ((l3.trans l4) c)))) fun φ5 l5 _ _ _ => fin (l13.trans (l4.trans l5))
  · refine SimW.seq ha2 (Same.newLinkArray _) fun φ4 l4 p q hpq => ?_
    refine SimW.seq ha2 (Same.modLink (hx.l.mono ((l13.trans l4) c)) fun φ'' l u v huv => ⟨hpq.mono l, huv.pmap, huv.tmap⟩) fun φ5 l5 _ _ _ => ?_
    refine SimW.seq ha2 (Same.copyUp _ _ _ _ (hpq.mono (l5 c)) (hb.ptr.mono ((l4.trans l5) c))) fun φ6 l6 _ _ _ => ?_
    refine SimW.seq ha2 (Same.store (RefR.at _ (hpq.mono ((l5.trans l6) c))) (.made cf key (h1.mono ((l3.trans (l4.trans (l5.trans l6))) c)))) fun φ7 l7 _ _ _ => ?_
    refine SimW.seq ha2 (Same.copyUp _ _ _ _ (hpq.mono ((l5.trans (l6.trans l7)) c)) (hb.ptr.mono ((l4.trans (l5.trans (l6.trans l7))) c))) fun φ8 l8 _ _ _ => ?_
    exact fin (l13.trans (l4.trans (l5.trans (l6.trans (l7.trans l8)))))

theorem SimW.conflict (cf : Cfg K) (sd : Seed) (fuel : Nat) (key : K) (ha : AtW c e w h k) (hi : InsW c e w ins ins') {φ : Nat → Ren} {x y : Cur}
    (hx : CurR (φ c) x y) : SimW c e w φ (RanW c e w) (conflict cf sd h fuel key ins x) (conflict cf sd k fuel key ins' y) := by
  unfold Amt.conflict
  refine SimW.seq ha (Same.itemRef hx) fun φ1 l1 i j hij => ?_
  refine SimW.seq ha (Same.load hij) fun φ2 l2 u v huv => ?_
  refine SimW.seq ha (Same.readKey cf huv) fun φ3 l3 a b hab => ?_
  cases hab
  have l13 := l1.trans (l2.trans l3)
  refine SimW.ite (fun _ => hi.hit (huv.ptr.mono (l3 c))) fun _ => ?_
  rw [hx.d, hx.hd, hx.w, hi.chash, hi.guard]
  refine SimW.seq ha (Same.liftE _) fun φ4 l4 r r' e => ?_
  cases e
  obtain ⟨chd, cw⟩ := r
  refine SimW.ite (fun _ => ?_) fun _ => ?_
  · refine SimW.cell ha hi.newSlot fun φ5 l5 u v ru e2 w2 h1 ha2 hg => ?_
    exact SimW.seq ha2 (Same.modLink (hij.mono ((l2.trans (l3.trans (l4.trans l5))) c)) fun φ' l p q hpq => ⟨h1.mono l, hpq.pmap, hpq.tmap⟩)
      fun φ6 l6 _ _ _ => SimW.done hg ru
  · refine SimW.seq ha (Same.modLink (hx.l.mono ((l13.trans l4) c)) fun φ' l p q hpq => ⟨hpq.ptr, hpq.pmap, by simp only; rw [hpq.tmap]⟩) fun φ5 l5 _ _ _ => ?_
    refine SimW.seq ha (Same.modRoot _) fun φ6 l6 _ _ _ => ?_
    exact SimW.split cf sd key _ ha hi fuel (PtrR.kept cf <| huv.ptr.mono ((l3.trans (l4.trans (l5.trans l6))) c)) (hij.mono ((l2.trans (l3.trans (l4.trans (l5.trans l6)))) c)) _ _ _ _ _

theorem SimW.upsert (cf : Cfg K) (fuel : Nat) (key : K) (ha : AtW c e w h k) (hi : InsW c e w ins ins') {φ : Nat → Ren} (hr : φ c h k) :
    SimW c e w φ (RanW c e w) (upsert cf h fuel key ins) (upsert cf k fuel key ins') := by
  unfold Amt.upsert
  refine SimW.seq ha Same.getRoot fun φ1 l1 r r' e => ?_
  cases e
  refine SimW.seq ha (Same.search cf _ key fuel (CurR.start cf _ key (l1 c _ _ hr))) fun φ2 l2 x y hxy => ?_
  obtain ⟨x, b⟩ := x
  obtain ⟨y, b'⟩ := y
  obtain ⟨h1, h2⟩ := hxy
  simp only at h1 h2
  subst h2
  exact SimW.ite (fun _ => SimW.conflict cf _ fuel key ha hi h1) fun _ => SimW.insertSlot cf key ha hi h1

end

end

end Amt
