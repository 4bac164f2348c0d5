/-
The loop budget.  A program that finishes within a budget does the same with any larger one; so the
results proved for one sufficient budget hold for all of them, and `diverge` for every budget means that
the Go loop never exits.
-/
import Verif.Refine

set_option linter.unusedVariables false
set_option linter.unusedSectionVars false

namespace Amt
open Spec

variable {K V α β : Type}

/-- `y` does what `x` does whenever `x` does not run out of budget. -/
def Ext (x y : M K V α) : Prop := ∀ s, x s = .error .diverge ∨ y s = x s

/-- The same for pure computations. -/
def ExtE (x y : Except Fault α) : Prop := x = .error .diverge ∨ y = x

theorem Ext.refl (x : M K V α) : Ext x x := fun _ => Or.inr rfl

theorem Ext.bind {x y : M K V α} {f g : α → M K V β} (h1 : Ext x y) (h2 : ∀ a, Ext (f a) (g a)) :
    Ext (x >>= f) (y >>= g) := by
  intro s
  rcases h1 s with h | h
  · left; rw [bind_run, h]
  · rw [bind_run, bind_run, h]
    cases hx : x s with
    | error e => right; rfl
    | ok r => exact h2 r.1 r.2

theorem Ext.ite {p : Prop} [Decidable p] {x y x' y' : M K V α} (h1 : Ext x x') (h2 : Ext y y') :
    Ext (if p then x else y) (if p then x' else y') := by
  split
  · exact h1
  · exact h2

theorem Ext.diverge (y : M K V α) : Ext (M.fail .diverge) y := fun _ => Or.inl rfl

theorem Ext.liftE {x y : Except Fault α} (h : ExtE x y) : Ext (K := K) (V := V) (liftE x) (liftE y) := by
  intro s
  rcases h with h | h
  · left; subst h; rfl
  · right; rw [h]

/-- What a budgeted program returned, it returns with any larger budget. -/
theorem Ext.ok {x y : M K V α} (h : Ext x y) {s : St K V} {r : α × St K V} (hx : x s = .ok r) : y s = .ok r := by
  rcases h s with h' | h'
  · rw [hx] at h'; cases h'
  · rw [h', hx]

section
variable (c : Cfg K)

theorem search_ext (sd : Seed) (key : K) {f f' : Nat} (hf : f ≤ f') (cur : Cur) :
    Ext (K := K) (V := V) (search c sd key f cur) (search c sd key f' cur) := by
  induction f generalizing f' cur with
  | zero => exact Ext.diverge _
  | succ f ih =>
    obtain ⟨g, rfl⟩ : ∃ g, f' = g + 1 := ⟨f' - 1, by omega⟩
    unfold search
    refine Ext.bind (Ext.refl _) fun lk => Ext.ite ?_ (Ext.refl _)
    exact Ext.ite (ih (by omega) _) (Ext.refl _)

theorem lookup_ext (h : Nat) {f f' : Nat} (hf : f ≤ f') (key : K) :
    Ext (K := K) (V := V) (lookup c h f key) (lookup c h f' key) := by
  unfold lookup
  exact Ext.bind (Ext.refl _) fun r => Ext.bind (search_ext c _ key hf _) fun _ => Ext.refl _

theorem split_ext {R : Type} (sd : Seed) (h : Nat) (key ckey : K) (cptr : Ptr) (ins : Ins K V R) {f f' : Nat}
    (hf : f ≤ f') (item : Ref) (d : Nat) (hd chd : BitVec 64) (w cw : Nat) :
    Ext (split c sd h key ckey cptr ins f item d hd chd w cw) (split c sd h key ckey cptr ins f' item d hd chd w cw) := by
  induction f generalizing f' item d hd chd w cw with
  | zero => exact Ext.diverge _
  | succ f ih =>
    obtain ⟨g, rfl⟩ : ∃ g, f' = g + 1 := ⟨f' - 1, by omega⟩
    unfold split
    refine Ext.bind (Ext.refl _) fun _ => ?_
    split <;> refine Ext.ite (Ext.refl _) ?_ <;>
      exact Ext.bind (Ext.refl _) fun _ => Ext.bind (Ext.refl _) fun _ => ih (by omega) _ _ _ _ _ _

/-- The rehash hook respects the budget. -/
def Ins.Mono {R : Type} (ins : Ins K V R) : Prop :=
  ∀ sd key ckey d f f', f ≤ f' → ExtE (ins.chash sd key ckey d f) (ins.chash sd key ckey d f')

theorem conflict_ext {R : Type} (sd : Seed) (h : Nat) (key : K) {ins : Ins K V R} (hi : ins.Mono) {f f' : Nat}
    (hf : f ≤ f') (cur : Cur) : Ext (conflict c sd h f key ins cur) (conflict c sd h f' key ins cur) := by
  unfold conflict
  refine Ext.bind (Ext.refl _) fun item => Ext.bind (Ext.refl _) fun x => Ext.bind (Ext.refl _) fun ckey =>
    Ext.ite (Ext.refl _) ?_
  refine Ext.bind (Ext.liftE (hi _ _ _ _ _ _ hf)) fun r => ?_
  refine Ext.ite (Ext.refl _) ?_
  exact Ext.bind (Ext.refl _) fun _ => Ext.bind (Ext.refl _) fun _ => split_ext c _ _ _ _ _ _ hf _ _ _ _ _ _

theorem upsert_ext {R : Type} (h : Nat) {f f' : Nat} (hf : f ≤ f') (key : K) {ins : Ins K V R} (hi : ins.Mono) :
    Ext (upsert c h f key ins) (upsert c h f' key ins) := by
  unfold upsert
  refine Ext.bind (Ext.refl _) fun r => Ext.bind (search_ext c _ key hf _) fun x => ?_
  split
  exact Ext.ite (conflict_ext c _ _ _ hi hf _) (Ext.refl _)

theorem delete_ext (h : Nat) {f f' : Nat} (hf : f ≤ f') (skip : Bool → Bool) (key : K) :
    Ext (K := K) (V := V) (delete c h f skip key) (delete c h f' skip key) := by
  unfold delete
  exact Ext.bind (Ext.refl _) fun r => Ext.bind (search_ext c _ key hf _) fun _ => Ext.refl _

theorem scanItems_ext {U : Type} (visit : U → Link → M K V (U × Bool)) {rec rec' : U → Ref → M K V (U × Bool)}
    (hr : ∀ u l, Ext (rec u l) (rec' u l)) (l : Ref) (tm : BitVec 32) (n i : Nat) (pm : BitVec 32) (u : U) :
    Ext (scanItems visit rec l tm n i pm u) (scanItems visit rec' l tm n i pm u) := by
  induction n generalizing i pm u with
  | zero => exact Ext.refl _
  | succ n ih =>
    unfold scanItems
    refine Ext.bind (Ext.refl _) fun lk => ?_
    split
    · refine Ext.bind (Ext.refl _) fun x => Ext.bind (Ext.refl _) fun y => ?_
      obtain ⟨u', go⟩ := y
      exact Ext.ite (ih _ _ _) (Ext.refl _)
    · refine Ext.bind (hr _ _) fun y => ?_
      obtain ⟨u', go⟩ := y
      exact Ext.ite (ih _ _ _) (Ext.refl _)

theorem scan_ext {U : Type} (visit : U → Link → M K V (U × Bool)) {f f' : Nat} (hf : f ≤ f') (u : U) (l : Ref) :
    Ext (scan visit f u l) (scan visit f' u l) := by
  induction f generalizing f' u l with
  | zero => exact Ext.diverge _
  | succ f ih =>
    obtain ⟨g, rfl⟩ : ∃ g, f' = g + 1 := ⟨f' - 1, by omega⟩
    unfold scan
    exact Ext.bind (Ext.refl _) fun lk => scanItems_ext _ (fun u l => ih (by omega) u l) _ _ _ _ _ _

end

/-! ### The rehash loops -/

theorem chwLoop_ext (d : Nat) {f f' : Nat} (hf : f ≤ f') (cd w : Nat) : ExtE (chwLoop d f cd w) (chwLoop d f' cd w) := by
  induction f generalizing f' cd w with
  | zero => exact Or.inl rfl
  | succ f ih =>
    obtain ⟨g, rfl⟩ : ∃ g, f' = g + 1 := ⟨f' - 1, by omega⟩
    unfold chwLoop
    split
    · exact ih (by omega) _ _
    · exact Or.inr rfl

theorem byteChash_ext (sum : Maphash) (kb : K → List UInt8) (sd : Seed) (key ckey : K) (d : Nat) {f f' : Nat}
    (hf : f ≤ f') : ExtE (byteChash sum kb sd key ckey d f) (byteChash sum kb sd key ckey d f') := by
  unfold byteChash
  rcases chwLoop_ext d hf 0 0 with h | h
  · left; rw [h]
  · right; rw [h]

/-! ### Client programs -/

/-- The rehash hooks of a map respect the budget. -/
structure MapImpl.Mono (I : MapImpl K V) : Prop where
  set : ∀ k v, (I.setI k v).Mono
  mod : ∀ k f, (I.modI k f).Mono

def SetImpl.Mono (I : SetImpl K) : Prop := ∀ k, (I.addI k).Mono

theorem MapImpl.exec_ext [Inhabited V] {I : MapImpl K V} (hI : I.Mono) {f f' : Nat} (hf : f ≤ f') (m : Handle)
    (op : MOp K V) : Ext (I.exec f m op) (I.exec f' m op) := by
  have hp : ∀ k, Ext (I.Ptr f m k) (I.Ptr f' m k) := fun k => by
    unfold MapImpl.Ptr
    exact Ext.bind (Ext.refl _) fun h => lookup_ext _ _ hf _
  cases op with
  | get k => exact Ext.bind (Ext.bind (hp k) fun _ => Ext.refl _) fun _ => Ext.refl _
  | val k =>
    refine Ext.bind ?_ fun _ => Ext.refl _
    unfold MapImpl.Val
    cases m with
    | none => exact Ext.refl _
    | some h => exact Ext.bind (hp k) fun _ => Ext.refl _
  | ptr k => exact Ext.bind (hp k) fun _ => Ext.refl _
  | set k v => exact Ext.bind (Ext.bind (Ext.refl _) fun h => upsert_ext _ _ hf _ (hI.set k v)) fun _ => Ext.refl _
  | mod k g => exact Ext.bind (Ext.bind (Ext.refl _) fun h => upsert_ext _ _ hf _ (hI.mod k g)) fun _ => Ext.refl _
  | del k => exact Ext.bind (Ext.bind (Ext.refl _) fun h => delete_ext _ _ hf _ _) fun _ => Ext.refl _
  | len => exact Ext.refl _
  | dep => exact Ext.refl _
  | write k v => exact Ext.bind (hp k) fun _ => Ext.refl _
  | all g =>
    exact Ext.bind (Ext.bind (Ext.refl _) fun h => Ext.bind (scan_ext _ hf _ _) fun _ => Ext.refl _) fun _ => Ext.refl _

theorem MapImpl.run_ext [Inhabited V] {I : MapImpl K V} (hI : I.Mono) {f f' : Nat} (hf : f ≤ f') (m : Handle)
    (ops : List (MOp K V)) : Ext (I.run f m ops) (I.run f' m ops) := by
  induction ops with
  | nil => exact Ext.refl _
  | cons op ops ih => exact Ext.bind (exec_ext hI hf m op) fun _ => Ext.bind ih fun _ => Ext.refl _

/-- A larger budget does not change what a session does. -/
theorem MapImpl.session_ext [Inhabited V] {I : MapImpl K V} (hI : I.Mono) {f f' : Nat} (hf : f ≤ f') (sd : Seed)
    (ops : List (MOp K V)) : Ext (I.session f sd ops) (I.session f' sd ops) :=
  Ext.bind (Ext.refl _) fun _ => Ext.bind (run_ext hI hf _ ops) fun _ => Ext.refl _

theorem SetImpl.exec_ext {I : SetImpl K} (hI : I.Mono) {f f' : Nat} (hf : f ≤ f') (m : Handle) (op : SOp K) :
    Ext (I.exec f m op) (I.exec f' m op) := by
  cases op with
  | has k =>
    exact Ext.bind (Ext.bind (Ext.refl _) fun h => Ext.bind (lookup_ext _ _ hf _) fun _ => Ext.refl _) fun _ => Ext.refl _
  | add k => exact Ext.bind (Ext.bind (Ext.refl _) fun h => upsert_ext _ _ hf _ (hI k)) fun _ => Ext.refl _
  | del k => exact Ext.bind (Ext.bind (Ext.refl _) fun h => delete_ext _ _ hf _ _) fun _ => Ext.refl _
  | len => exact Ext.refl _
  | dep => exact Ext.refl _
  | all g =>
    exact Ext.bind (Ext.bind (Ext.refl _) fun h => Ext.bind (scan_ext _ hf _ _) fun _ => Ext.refl _) fun _ => Ext.refl _

theorem SetImpl.run_ext {I : SetImpl K} (hI : I.Mono) {f f' : Nat} (hf : f ≤ f') (m : Handle) (ops : List (SOp K)) :
    Ext (I.run f m ops) (I.run f' m ops) := by
  induction ops with
  | nil => exact Ext.refl _
  | cons op ops ih => exact Ext.bind (exec_ext hI hf m op) fun _ => Ext.bind ih fun _ => Ext.refl _

theorem SetImpl.session_ext {I : SetImpl K} (hI : I.Mono) {f f' : Nat} (hf : f ≤ f') (sd : Seed) (ops : List (SOp K)) :
    Ext (I.session f sd ops) (I.session f' sd ops) :=
  Ext.bind (Ext.refl _) fun _ => Ext.bind (run_ext hI hf _ ops) fun _ => Ext.refl _

/-! ### The ten containers -/

section
variable [Inhabited V] (sum : Maphash)

theorem StringMap_mono : (StringMap (V := V) sum).Mono :=
  ⟨fun _ _ sd key ckey d _ _ hf => byteChash_ext sum id sd key ckey d hf,
   fun _ _ sd key ckey d _ _ hf => byteChash_ext sum id sd key ckey d hf⟩

theorem BytesMap_mono : (BytesMap (V := V) sum).Mono :=
  ⟨fun _ _ sd key ckey d _ _ hf => byteChash_ext sum id sd key ckey d hf,
   fun _ _ sd key ckey d _ _ hf => byteChash_ext sum id sd key ckey d hf⟩

theorem ArrMap_mono [DecidableEq K] (kb : K → List UInt8) : (ArrMap (V := V) sum kb).Mono :=
  ⟨fun _ _ sd key ckey d _ _ hf => byteChash_ext sum kb sd key ckey d hf,
   fun _ _ sd key ckey d _ _ hf => byteChash_ext sum kb sd key ckey d hf⟩

theorem IntMap_mono : (IntMap (V := V) sum).Mono :=
  ⟨fun _ _ sd key ckey d _ _ hf => byteChash_ext sum intbytes sd key ckey d hf,
   fun _ _ sd key ckey d _ _ hf => byteChash_ext sum intbytes sd key ckey d hf⟩

theorem GenericMap_mono (I : KeyImpl K) : (GenericMap (V := V) I).Mono :=
  ⟨fun _ _ _ _ _ _ _ _ _ => Or.inr rfl, fun _ _ _ _ _ _ _ _ _ => Or.inr rfl⟩

theorem StringSet_mono : (StringSet sum).Mono := fun _ sd key ckey d _ _ hf => byteChash_ext sum id sd key ckey d hf
theorem BytesSet_mono : (BytesSet sum).Mono := fun _ sd key ckey d _ _ hf => byteChash_ext sum id sd key ckey d hf
theorem ArrSet_mono [DecidableEq K] (kb : K → List UInt8) : (ArrSet sum kb).Mono :=
  fun _ sd key ckey d _ _ hf => byteChash_ext sum kb sd key ckey d hf
theorem IntSet_mono : (IntSet sum).Mono := fun _ sd key ckey d _ _ hf => byteChash_ext sum intbytes sd key ckey d hf
theorem GenericSet_mono (I : KeyImpl K) : (GenericSet I).Mono := fun _ _ _ _ _ _ _ _ => Or.inr rfl

end

end Amt
