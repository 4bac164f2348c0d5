/-
Two programs on the same memory, one of which may be cut off by its loop bound: the relation between the programs over the translated
methods and those over the model.  Used only in proofs.
-/
import Verif.GoWith
import Verif.PropsApart

set_option linter.unusedVariables false
set_option linter.unusedSectionVars false
set_option linter.unusedSimpArgs false

namespace Amt.Go
open Amt Spec

section
variable {K V α β γ δ R : Type}

/-- The outcomes correspond: the same fault, or the same memory, which is tidy, and results in `Q`. -/
def OutE (s : St K V) (Q : α → β → Prop) : Except Fault (α × St K V) → Except Fault (β × St K V) → Prop
  | .error e, .error e' => e = e'
  | .ok (a, t), .ok (b, t') => t = t' ∧ Tidy t ∧ Keep s t ∧ Q a b
  | _, _ => False

/-- In the tidy memory `s`: unless `y` is cut off, `x` does what `y` does. -/
def SimAt (Q : α → β → Prop) (x : M K V α) (y : M K V β) (s : St K V) : Prop := y s = .error .diverge ∨ OutE s Q (x s) (y s)

/-- The same in every tidy memory. -/
def SimT (Q : α → β → Prop) (x : M K V α) (y : M K V β) : Prop := ∀ s, Tidy s → SimAt Q x y s

theorem OutE.weaken {s s' : St K V} (hk : Keep s s') {Q Q' : α → β → Prop} (hq : ∀ a b, Q a b → Q' a b) {x : Except Fault (α × St K V)} {y : Except Fault (β × St K V)}
    (h : OutE s' Q x y) : OutE s Q' x y := by
  rcases x with e | ⟨a, t⟩ <;> rcases y with e' | ⟨b, t'⟩
  · exact h
  · exact h
  · exact h
  · exact ⟨h.1, h.2.1, hk.trans h.2.2.1, hq _ _ h.2.2.2⟩

theorem SimAt.bind {Q : α → β → Prop} {Q' : γ → δ → Prop} {x : M K V α} {y : M K V β} {f : α → M K V γ} {g : β → M K V δ} {s : St K V} (h1 : SimAt Q x y s)
    (h2 : ∀ a b t, Tidy t → Keep s t → Q a b → SimAt Q' (f a) (g b) t) : SimAt Q' (x >>= f) (y >>= g) s := by
  unfold SimAt at h1 ⊢
  rw [bind_run, bind_run]
  rcases h1 with h1 | h1
  · left; rw [h1]
  · rcases hx : x s with e | ⟨a, t⟩ <;> rcases hy : y s with e' | ⟨b, t'⟩ <;> rw [hx, hy] at h1
    · right; exact h1
    · exact h1.elim
    · exact h1.elim
    · obtain ⟨rfl, h3, h4, h5⟩ := h1
      rcases h2 a b t h3 h4 h5 with h6 | h6
      · exact Or.inl h6
      · exact Or.inr (h6.weaken h4 fun _ _ h => h)

theorem SimT.bind {Q : α → β → Prop} {Q' : γ → δ → Prop} {x : M K V α} {y : M K V β} {f : α → M K V γ} {g : β → M K V δ} (h1 : SimT Q x y)
    (h2 : ∀ a b, Q a b → SimT Q' (f a) (g b)) : SimT Q' (x >>= f) (y >>= g) :=
  fun s hs => (h1 s hs).bind fun a b t ht _ hq => h2 a b hq t ht

theorem SimT.pure {Q : α → β → Prop} {a : α} {b : β} (h : Q a b) : SimT Q (Pure.pure a : M K V α) (Pure.pure b) :=
  fun s hs => Or.inr ⟨rfl, hs, Keep.refl s, h⟩

theorem SimT.fail {Q : α → β → Prop} (e : Fault) : SimT Q (M.fail e : M K V α) (M.fail e) := fun s hs => Or.inr rfl

theorem SimT.ite {Q : α → β → Prop} {p : Prop} [Decidable p] {x x' : M K V α} {y y' : M K V β} (h1 : SimT Q x y) (h2 : SimT Q x' y') :
    SimT Q (if p then x else x') (if p then y else y') := by
  split
  · exact h1
  · exact h2

/-- A program and itself. -/
theorem SimT.same {x : M K V α} (hn : Neat x) (hk : CellsStay x) : SimT Eq x x := by
  intro s hs
  right
  cases hx : x s with
  | error e => rfl
  | ok r => exact ⟨rfl, hn _ _ _ hs hx, hk _ _ _ hx, rfl⟩

theorem SimT.reads {x : M K V α} (h : Reads x) : SimT Eq x x := SimT.same h.neat (CellsStay.reads h)

theorem SimT.imp {Q Q' : α → β → Prop} {x : M K V α} {y : M K V β} (h : SimT Q x y) (hq : ∀ a b, Q a b → Q' a b) : SimT Q' x y :=
  fun s hs => (h s hs).imp id fun h => h.weaken (Keep.refl s) hq

/-- The second program is cut off earlier. -/
theorem SimT.less {Q : α → β → Prop} {x : M K V α} {y y' : M K V β} (h : SimT Q x y) (he : Ext y' y) : SimT Q x y' := by
  intro s hs
  rcases he s with h1 | h1
  · exact Or.inl h1
  · rcases h s hs with h2 | h2
    · exact Or.inl (h1 ▸ h2)
    · rw [h1] at h2
      exact Or.inr h2

/-- The first program is cut off later. -/
theorem SimT.more {Q : α → β → Prop} {x x' : M K V α} {y : M K V β} (h : SimT Q x y) (he : Ext x x') : SimT Q x' y := by
  intro s hs
  rcases h s hs with h2 | h2
  · exact Or.inl h2
  · rcases he s with h1 | h1
    · rw [h1] at h2
      cases hy : y s with
      | error e =>
        rw [hy] at h2
        have h2 : Fault.diverge = e := h2
        rw [← h2] at hy
        exact Or.inl hy
      | ok r => rw [hy] at h2; exact h2.elim
    · right; rw [h1]; exact h2

theorem SimT.eq_left {Q : α → β → Prop} {x x' : M K V α} {y : M K V β} (he : ∀ s, Tidy s → x' s = x s) (h : SimT Q x y) : SimT Q x' y := by
  intro s hs
  unfold SimAt
  rw [he s hs]
  exact h s hs

theorem SimT.eq_right {Q : α → β → Prop} {x : M K V α} {y y' : M K V β} (he : ∀ s, Tidy s → y' s = y s) (h : SimT Q x y) : SimT Q x y' := by
  intro s hs
  unfold SimAt
  rw [he s hs]
  exact h s hs

/-- What is on the right keeps the memory tidy. -/
theorem SimT.neat {Q : α → β → Prop} {x : M K V α} {y : M K V β} (h : SimT Q x y) : Neat y := by
  intro s b t hs hy
  have hy : y s = .ok (b, t) := hy
  rcases h s hs with h1 | h1
  · rw [hy] at h1; cases h1
  · rw [hy] at h1
    cases hx : x s with
    | error e => rw [hx] at h1; exact h1.elim
    | ok r => rw [hx] at h1; exact h1.1 ▸ h1.2.1

/-! ### All -/

/-- The results of the callback of `All`. -/
def Stop (Q : α → β → Prop) (a : α × Bool) (b : β × Bool) : Prop := Q a.1 b.1 ∧ a.2 = b.2

theorem SimT.scanItems {Q : α → β → Prop} {visit : α → Link → M K V (α × Bool)} {visit' : β → Link → M K V (β × Bool)} {rec : α → Ref → M K V (α × Bool)}
    {rec' : β → Ref → M K V (β × Bool)} (hv : ∀ u u' x, Q u u' → SimT (Stop Q) (visit u x) (visit' u' x)) (hr : ∀ u u' l, Q u u' → SimT (Stop Q) (rec u l) (rec' u' l))
    (l : Ref) (tm : BitVec 32) : ∀ n i pm u u', Q u u' → SimT (Stop Q) (scanItems visit rec l tm n i pm u) (scanItems visit' rec' l tm n i pm u') := by
  intro n
  induction n with
  | zero => intro i pm u u' h; exact SimT.pure ⟨h, rfl⟩
  | succ n ih =>
    intro i pm u u' h
    unfold Amt.scanItems
    dsimp only
    refine SimT.bind (SimT.reads (Reads.load _)) fun x y hxy => ?_
    subst hxy
    have fin : ∀ a b, Stop Q a b → SimT (Stop Q)
        (if a.2 = true then Amt.scanItems visit rec l tm n (i + 1) (pm &&& ~~~bitOf (trailingZeros pm)) a.1 else Pure.pure (a.1, false))
        (if b.2 = true then Amt.scanItems visit' rec' l tm n (i + 1) (pm &&& ~~~bitOf (trailingZeros pm)) b.1 else Pure.pure (b.1, false)) := by
      rintro ⟨a, b⟩ ⟨a', b'⟩ ⟨h1, h2⟩
      cases h2
      exact SimT.ite (ih _ _ _ _ h1) (SimT.pure ⟨h1, rfl⟩)
    refine SimT.ite ?_ ?_
    · refine SimT.bind (SimT.reads (Reads.load _)) fun y y' hy => ?_
      subst hy
      exact SimT.bind (hv _ _ _ h) fin
    · exact SimT.bind (hr _ _ _ h) fin

theorem SimT.scan {Q : α → β → Prop} {visit : α → Link → M K V (α × Bool)} {visit' : β → Link → M K V (β × Bool)}
    (hv : ∀ u u' x, Q u u' → SimT (Stop Q) (visit u x) (visit' u' x)) : ∀ {n n'}, n' ≤ n → ∀ u u' l, Q u u' → SimT (Stop Q) (scan visit n u l) (scan visit' n' u' l) := by
  intro n n'
  induction n' generalizing n with
  | zero => intro hn u u' l h s hs; exact Or.inl rfl
  | succ n' ih =>
    intro hn u u' l h
    obtain ⟨n, rfl⟩ : ∃ m, n = m + 1 := ⟨n - 1, by omega⟩
    unfold Amt.scan
    refine SimT.bind (SimT.reads (Reads.load _)) fun x y hxy => ?_
    subst hxy
    exact SimT.scanItems hv (fun u u' l h => ih (by omega) u u' l h) _ _ _ _ _ _ _ h

/-- The keys are in cells: then the address of the value is not nil. -/
theorem SimT.visit {c : Cfg K} (hc : c.store = .boxed) {Q : α → β → Prop} {f : α → K → Ptr → M K V (α × Bool)} {f' : β → K → Ptr → M K V (β × Bool)}
    (hf : ∀ u u' k p, Q u u' → SimT (Stop Q) (f u k p) (f' u' k p)) (u : α) (u' : β) (x : Link) (h : Q u u') :
    SimT (Stop Q) (visitMapM c (fun u k p => fieldAddr p >>= fun q => f u k q) u x) (visitMapM c f' u' x) ∧
    SimT (Stop Q) (visitMapM c f u x) (visitMapM c (fun u k p => fieldAddr p >>= fun q => f' u k q) u' x) := by
  unfold visitMapM
  cases hx : x.ptr with
  | nil =>
    have : (readKey c x : M K V K) = M.fail .nilDeref := by unfold readKey; rw [hc, hx]; rfl
    rw [this]
    exact ⟨SimT.fail _, SimT.fail _⟩
  | blk b =>
    refine ⟨SimT.bind (SimT.reads (Reads.readKey _ _)) ?_, SimT.bind (SimT.reads (Reads.readKey _ _)) ?_⟩
    · rintro k _ rfl; exact hf u u' k (.blk b) h
    · rintro k _ rfl; exact hf u u' k (.blk b) h

/-! ### Mod -/

/-- The hooks of `Mod` with the callback `cb`. -/
def withCb [Inhabited V] (c : Cfg K) (ch : Chash K) (g : Bool) (key : K) (cb : Ptr → Bool → M K V R) : Ins K V R :=
  ⟨ch, g, fun p => cb p true, newKv c key default >>= fun p => cb p false >>= fun r => pure (p, r), newKv c key default >>= fun p => cb p false >>= fun r => pure (p, r)⟩

theorem SimT.upsert [Inhabited V] {c : Cfg K} (hc : c.store = .boxed) (hf : c.forget = false) (h n : Nat) (key : K) (ch : Chash K) (g : Bool) {Q : α → β → Prop}
    {cb : Ptr → Bool → M K V α} {cb' : Ptr → Bool → M K V β} (hcb : ∀ p b s, Tidy s → Cell s p → SimAt Q (cb p b) (cb' p b) s) :
    SimT Q (upsert c h n key (withCb c ch g key cb)) (upsert c h n key (withCb c ch g key cb')) := by
  intro s hs
  have hb : ∀ {R : Type} (cb : Ptr → Bool → M K V R), Amt.upsert c h n key (withCb c ch g key cb) s =
    Amt.upsert c h n key (⟨ch, g, fun p => cb p true, newKv c key default >>= fun p => cb p false >>= fun r => Pure.pure (p, r), newKv c key default >>= fun p => cb p false >>= fun r => Pure.pure (p, r)⟩ : Ins K V R) s := fun cb => rfl
  unfold SimAt
  rw [hb, hb]
  rcases upsert_cb hc hf h n key ch g hs with ⟨p, h1, h2⟩ | ⟨e, h1⟩ | ⟨s1, post, h1, h2, h3, h4, h5⟩
  · have e1 := h2 α (fun p => cb p true) (newKv c key default >>= fun p => cb p false >>= fun r => Pure.pure (p, r))
    have e2 := h2 β (fun p => cb' p true) (newKv c key default >>= fun p => cb' p false >>= fun r => Pure.pure (p, r))
    rw [show Amt.upsert c h n key _ s = _ from e1, show Amt.upsert c h n key _ s = _ from e2]
    exact hcb p true s hs h1
  · have e1 := h1 α (fun p => cb p true) (newKv c key default >>= fun p => cb p false >>= fun r => Pure.pure (p, r))
    have e2 := h1 β (fun p => cb' p true) (newKv c key default >>= fun p => cb' p false >>= fun r => Pure.pure (p, r))
    rw [show Amt.upsert c h n key _ s = _ from e1, show Amt.upsert c h n key _ s = _ from e2]
    exact Or.inr rfl
  · have e1 := h5 α (fun p => cb p true) (newKv c key default >>= fun p => cb p false >>= fun r => Pure.pure (p, r))
    have e2 := h5 β (fun p => cb' p true) (newKv c key default >>= fun p => cb' p false >>= fun r => Pure.pure (p, r))
    rw [show Amt.upsert c h n key _ s = _ from e1, show Amt.upsert c h n key _ s = _ from e2]
    have main : SimAt Q ((newKv c key default >>= fun p => cb p false >>= fun r => Pure.pure (p, r)) >>= fun z => post z.1 >>= fun _ => Pure.pure z.2)
        ((newKv c key default >>= fun p => cb' p false >>= fun r => Pure.pure (p, r)) >>= fun z => post z.1 >>= fun _ => Pure.pure z.2) s1 := by
      simp only [bind_assoc_M, pure_bind_M]
      -- the cell
      obtain ⟨p, s2, e3⟩ : ∃ p s2, newKv c key (default : V) s1 = .ok (p, s2) := by
        unfold newKv; rw [hc]; exact ⟨_, _, rfl⟩
      unfold SimAt
      rw [bind_run, bind_run, e3]
      dsimp only
      have k1 : Tidy s2 := newKv_neat c key default _ _ _ h1 e3
      have k2 : Cell s2 p := newKv_cell hc e3
      have k3 : Keep s1 s2 := CellsStay.struct (Struct.newKv _ _ _) _ _ _ e3
      have k4 : SimAt Q (cb p false >>= fun r => post p >>= fun _ => Pure.pure r) (cb' p false >>= fun r => post p >>= fun _ => Pure.pure r) s2 := by
        refine (hcb p false s2 k1 k2).bind fun a b t ht hk hq => ?_
        unfold SimAt
        rw [bind_run, bind_run]
        right
        cases hp : post p t with
        | error e => rfl
        | ok r => exact ⟨rfl, h4 p t r.1 r.2 ht (k2.keep hk) (k3.trans hk) hp, h3 p _ _ _ hp, hq⟩
      exact k4.imp id fun h => h.weaken k3 fun _ _ h => h
    exact main.imp id fun h => h.weaken h2 fun _ _ h => h

end

end Amt.Go
