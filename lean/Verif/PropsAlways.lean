/-
C44 in every memory, for containers of any types: an iteration is a loop over entries that do not depend on the callback, also if it comes to a fault or
does not end.
-/
import Verif.PropsEnds
import Verif.PropsMany

set_option linter.unusedVariables false
set_option linter.unusedSectionVars false

namespace Amt
open Spec

/-! ### The entries and the end -/

section
variable {K V Op Out X U : Type}

/-- Keep the entries, and stop when there are `n`. -/
def firstKeys (n : Nat) (L : List (K × Ptr)) (k : K) (p : Ptr) : M K V (List (K × Ptr) × Bool) := pure (L ++ [(k, p)], decide (L.length + 1 < n))

/-- An iteration comes to these entries in order, and then to this end: a client that stops after `n` entries gets the first `n`, and one that does not stop gets all
if there is no fault at the end, and the fault if there is one. -/
def Comes (all : (List (K × Ptr) → K → Ptr → M K V (List (K × Ptr) × Bool)) → List (K × Ptr) → M K V (List (K × Ptr))) (s : St K V) (L : List (K × Ptr)) (en : Option Fault) : Prop :=
  (∀ n, 0 < n → n ≤ L.length → all (firstKeys n) [] s = .ok (L.take n, s)) ∧
    ∀ n, L.length < n → all (firstKeys n) [] s = match en with | none => .ok (L, s) | some e => .error e

theorem firstKeys_calls (n : Nat) (L : List (K × Ptr)) : ∀ (L₀ : List (K × Ptr)) (s : St K V), MildCalls (firstKeys n) L L₀ s := by
  induction L with
  | nil => exact fun L₀ s => trivial
  | cons a L ih =>
    intro L₀ s r s' e
    cases e
    exact ⟨SameShape.refl _, fun _ => ih _ _⟩

theorem firstKeys_run (n : Nat) (en : Option Fault) (L : List (K × Ptr)) : ∀ (L₀ : List (K × Ptr)) (s : St K V), L₀.length < n →
    (callEnd (firstKeys n) en L L₀ >>= fun r => pure r.1) s =
      if n ≤ L₀.length + L.length then .ok (L₀ ++ L.take (n - L₀.length), s) else match en with | none => .ok (L₀ ++ L, s) | some e => .error e := by
  induction L with
  | nil =>
    intro L₀ s h
    rw [if_neg (by simpa using h)]
    cases en <;> simp [callEnd] <;> rfl
  | cons a L ih =>
    intro L₀ s h
    rw [callEnd, bind_assoc_M, bind_ok (show firstKeys n L₀ a.1 a.2 s = .ok ((L₀ ++ [(a.1, a.2)], decide (L₀.length + 1 < n)), s) from rfl)]
    by_cases hn : L₀.length + 1 < n
    · rw [if_pos (by simpa using hn), ih _ _ (by simpa using hn)]
      obtain ⟨m, hm⟩ : ∃ m, n - L₀.length = m + 1 := ⟨n - L₀.length - 1, by omega⟩
      have hm' : n - (L₀ ++ [(a.1, a.2)]).length = m := by simp; omega
      rw [hm, hm', List.take_succ_cons]
      simp only [List.length_append, List.length_cons, List.length_nil, List.append_assoc, List.cons_append, List.nil_append]
      by_cases hle : n ≤ L₀.length + (L.length + 1)
      · rw [if_pos hle, if_pos (by omega)]
      · rw [if_neg hle, if_neg (by omega)]
    · rw [if_neg (by simpa using hn), if_pos (by simp; omega), show n - L₀.length = 1 from by omega]
      rfl

/-- A loop over entries visits them. -/
theorem Kind.Loops.comes {κ : Kind K V Op Out X} {h : Nat} {s : St K V} {L : List (K × Ptr)} {en : Option Fault} (hl : κ.Loops h s L en) :
    Comes (κ.all (some h)) s L en := by
  refine ⟨fun n h0 hn => ?_, fun n hn => ?_⟩
  · have := hl (firstKeys n) [] (firstKeys_calls n L [] s)
    rw [firstKeys_run n en L [] s h0, if_pos (by simpa using hn)] at this
    exact this
  · have := hl (firstKeys n) [] (firstKeys_calls n L [] s)
    rw [firstKeys_run n en L [] s (by simp; omega), if_neg (by simp; omega)] at this
    exact this

end

section
variable {K V K' V' : Type}

/-- Entries and end are the images, if the iteration is. -/
theorem Comes.image {f : K → K'} {g : V → V'} {all' : (List (K' × Ptr) → K' → Ptr → M K' V' (List (K' × Ptr) × Bool)) → List (K' × Ptr) → M K' V' (List (K' × Ptr))}
    {all : (List (K × Ptr) → K → Ptr → M K V (List (K × Ptr) × Bool)) → List (K × Ptr) → M K V (List (K × Ptr))}
    (ha : ∀ n, Img f g (fun (a : List (K' × Ptr)) (b : List (K × Ptr)) => a = b.map fun e => (f e.1, e.2)) (all' (firstKeys n) []) (all (firstKeys n) []))
    {s : St K V} {L' : List (K' × Ptr)} {en' : Option Fault} {L : List (K × Ptr)} {en : Option Fault} (h' : Comes all' (mapSt f g s) L' en') (h : Comes all s L en) :
    L' = L.map (fun e => (f e.1, e.2)) ∧ en' = en := by
  have hlen : L'.length = L.length := by
    rcases Nat.lt_trichotomy L'.length L.length with hlt | he | hlt
    · have h1 := ha (L'.length + 1) s
      rw [h'.2 _ (by omega), h.1 (L'.length + 1) (by omega) (by omega)] at h1
      cases en' with
      | some e => exact h1.elim
      | none =>
        have := congrArg List.length h1.1
        simp only [List.length_map, List.length_take] at this
        omega
    · exact he
    · have h1 := ha (L.length + 1) s
      rw [h.2 _ (by omega), h'.1 (L.length + 1) (by omega) (by omega)] at h1
      cases en with
      | some e => exact h1.elim
      | none =>
        have := congrArg List.length h1.1
        simp only [List.length_map, List.length_take] at this
        omega
  refine ⟨?_, ?_⟩
  · by_cases h0 : L.length = 0
    · rw [List.length_eq_zero_iff.1 h0, List.length_eq_zero_iff.1 (hlen.trans h0)]
      rfl
    · have h1 := ha L.length s
      rw [h.1 _ (by omega) (Nat.le_refl _), h'.1 _ (by omega) (by omega)] at h1
      have := h1.1
      rw [List.take_length, ← hlen, List.take_length] at this
      exact this
  · have h1 := ha (L.length + 1) s
    rw [h.2 _ (by omega), h'.2 _ (by omega)] at h1
    cases en <;> cases en'
    · rfl
    · exact h1.elim
    · exact h1.elim
    · exact congrArg some h1

end

/-! ### The containers -/

section
variable {K V K' V' : Type} {e : Emb K K'} {g : Emb V V'} {fuel : Nat}

theorem Box.kind_ends (b : Box K V) (h : Nat) (s : St K V) : ∃ L en, (b.kind fuel).Loops h s L en := by
  cases b with
  | map z P => exact all_ends P.cfg id fuel h s
  | set P => exact all_ends P.cfg (fun _ => .nil) fuel h s

theorem Box.wide_ends (b : Box K V) (h : Nat) (s : St K' V') : ∃ L en, (b.wide fuel e g).Loops h s L en := by
  cases b with
  | map z P => exact all_ends (P.lift e).cfg id fuel h s
  | set P => exact all_ends (P.lift e).cfg (fun _ => .nil) fuel h s

end

section
variable {ι : Type} [DecidableEq ι] {K V : ι → Type} {U : Type}

section
variable {Op Out X : ι → Type}

/-- Run the callback on entries, given by their keys and addresses, one after the other, with typed memories; after the last one comes the fault, if there is one. -/
def loopTypedEnd (κ : ∀ i, Kind (K i) (V i) (Op i) (Out i) (X i)) (i : ι) (c : Nat) (f : U → K i → Nat → TProg ι K V Op Out X (U × Bool)) (en : Option Fault) :
    List (K i × Ptr) → U → TWorlds ι K V → Except Fault (U × TWorlds ι K V)
  | [], u, w => match en with
    | none => .ok (u, w)
    | some e => .error e
  | e :: es, u, w => andThen (runTyped κ (f u e.1 w.ptrs.length) (w.hold c e.2)) fun r w' => if r.2 = true then loopTypedEnd κ i c f en es r.1 w' else .ok (r.1, w')

theorem loop_typed_end {κ' : ι → Kind (Σ j, K j) (Σ j, V j) (Σ j, Op j) (Σ j, Out j) (Σ j, X j)} {κ : ∀ i, Kind (K i) (V i) (Op i) (Out i) (X i)} (hκ : ∀ i, KindI i (κ' i) (κ i))
    {i : ι} {c : Nat} {o : ι × Nat} (f : U → K i → Nat → TProg ι K V Op Out X (U × Bool)) (en : Option Fault) (L : List (K i × Ptr)) :
    ∀ {u : U} {w : Worlds ι (Σ j, K j) (Σ j, V j)} {v : TWorlds ι K V}, RelT w v → v.objs[c]? = some o →
      OutT v (loopEnd κ' c (fun u key n => match pick i key with | some key => Amt.erase (f u key n) | none => .stop .wrongType) en (L.map fun e => (⟨i, e.1⟩, e.2)) u w)
        (loopTypedEnd κ i c f en L u v) := by
  induction L with
  | nil =>
    intro u w v hr hc
    cases en with
    | none => exact ⟨rfl, hr, fun _ _ h => h⟩
    | some e => exact rfl
  | cons a L ih =>
    intro u w v hr hc
    rw [List.map_cons, loopEnd, loopTypedEnd]
    simp only [pick_mk]
    rw [hr.ptrs]
    refine OutT.andThen (OutT.later (fun _ _ h => h) (run_typed hκ _ (hr.hold hc a.2))) fun r w' v' hr' hg => ?_
    split
    · exact ih hr' (hg _ _ hc)
    · exact ⟨rfl, hr', fun _ _ h => h⟩

end

/-- C44 for containers of any types, in every state: there are entries `L`, and an end, that depend only on the container: a client that stops after `n` entries gets the
first `n` of them (`Comes`).  Whatever the callback does with other maps and sets, of whatever types, and with values of `c`, the program sees what it would see with the loop over `L`
(and, after the last entry, the fault, if the iteration comes to one): the callback runs once for each entry in order until it returns false. -/
theorem C44_always (b : ∀ i, Box (K i) (V i)) (fuel : Nat) {c : Nat} {i : ι} {h : Nat} {v : TWorlds ι K V} (hp : PtrsIn v) (hv : v.objs[c]? = some (i, h)) :
    ∃ (L : List (K i × Ptr)) (en : Option Fault), Comes (((b i).kind fuel).all (some h)) (v.mem c i) L en ∧
      ∀ {U R : Type} {f : U → K i → Nat → TProg ι K V (fun i => (b i).Op) (fun i => (b i).Out) (fun i => (b i).X) (U × Bool)},
        (∀ u key n, AvoidsT (fun i => (b i).Calm) c (f u key n)) → ∀ (u : U) (k : U → TProg ι K V (fun i => (b i).Op) (fun i => (b i).Out) (fun i => (b i).X) R),
        outcome (runTyped (fun i => (b i).kind fuel) (.all i c f u k) v) =
          outcome (andThen (loopTypedEnd (fun i => (b i).kind fuel) i c f en L u v) fun u' v' => runTyped (fun i => (b i).kind fuel) (k u') v') := by
  have hr := imageOf_rel hp
  have hκ := Box.many_img b fuel
  have hw : (imageOf v).objs[c]? = some (i, h) := hv
  obtain ⟨L, en, hl⟩ := (b i).kind_ends (fuel := fuel) h (v.mem c i)
  obtain ⟨L', en', hl'⟩ := (b i).wide_ends (e := Emb.at K i) (g := Emb.at V i) (fuel := fuel) h (mapSt (Sigma.mk i) (Sigma.mk i) (v.mem c i))
  have hm : (Box.many b fuel i).Loops h (mapSt (Sigma.mk i) (Sigma.mk i) (v.mem c i)) L' en' := hl'
  obtain ⟨e1, e2⟩ := Comes.image (f := Sigma.mk i) (g := Sigma.mk i) (fun n => (hκ i).all (P := fun (a : List ((Σ j, K j) × Ptr)) (L : List (K i × Ptr)) => a = L.map fun e => (⟨i, e.1⟩, e.2))
    (F' := firstKeys n) (F := firstKeys n) (fun u' u k p hu => Img.pure ⟨by simp only [hu, List.map_append]; rfl, by simp only [hu, List.length_map]⟩) (some h) (u' := []) (u := []) rfl)
    hm.comes hl.comes
  subst e1
  subst e2
  rw [← hr.mem hv] at hm
  refine ⟨L, en', hl.comes, fun {U R f} hf u k => ?_⟩
  have h2 := all_between_end (κ := Box.many b fuel) (U := U) (u := u)
    (f := fun u key n => match pick i key with | some key => erase (f u key n) | none => .stop .wrongType) (fun u => erase (k u)) hw hm
    (Avoids.steady (Box.many_loop b fuel) (fun u key n => by
      split
      · exact (hf _ _ _).erase
      · trivial) (List.getElem?_eq_some_iff.1 hw).1)
  have h3 := run_typed hκ (.all i c f u k) hr
  rw [← h3.outcome, erase]
  refine (congrArg outcome h2).trans ?_
  have h4 := OutT.andThen (loop_typed_end hκ f en' L (u := u) hr hv) (G := fun u' w' => runApart (Box.many b fuel) (erase (k u')) w')
    (H := fun u' v' => runTyped (fun i => (b i).kind fuel) (k u') v') fun a w v' hr' hg => run_typed hκ (k a) hr'
  exact h4.outcome

end

/-! ### A case -/

-- A state that a program reaches, with an `IntMap` of three keys, two of them in a deeper level: what `C44_always` wants of it.
example : ∃ v, runTyped (fun i => (exBox i).kind 256) (exFillMany (.ret ())) TWorlds.none = .ok ((), v) ∧ PtrsIn v ∧ v.objs[0]? = some (false, 0) := by
  cases hx : runTyped (fun i => (exBox i).kind 256) (exFillMany (.ret ())) TWorlds.none with
  | error e =>
    have : (runTyped (fun i => (exBox i).kind 256) (exFillMany (.ret ())) TWorlds.none).toOption.isSome = true := by decide +kernel
    rw [hx] at this
    cases this
  | ok q =>
    have h : ((runTyped (fun i => (exBox i).kind 256) (exFillMany (.ret ())) TWorlds.none).toOption.bind fun r => r.2.objs[0]?) = some (false, 0) := by decide +kernel
    rw [hx] at h
    exact ⟨q.2, rfl, reached_ptrs exBox 256 _ hx, h⟩

/-- The keys that a client gets who stops after `n`, with this fuel. -/
def exFirst (fuel n : Nat) : Option (Except Fault (List IntKey)) :=
  (runTyped (fun i => (exBox i).kind 256) (exFillMany (.ret ())) TWorlds.none).toOption.map fun r =>
    match ((exBox false).kind fuel).all (some 0) (fun (L : List (IntKey × Ptr)) k p => firstKeys n L k p) [] (r.2.mem 0 false) with
    | .ok q => .ok (q.1.map Prod.fst)
    | .error e => .error e

example : exFirst 256 1 = some (.ok [1#64]) := by decide +kernel
example : exFirst 256 2 = some (.ok [1#64, 17#64]) := by decide +kernel
example : exFirst 256 9 = some (.ok [1#64, 17#64, 2#64]) := by decide +kernel
-- The end can be a fault: here, with too little fuel, that the iteration does not end.
example : exFirst 1 1 = some (.error .diverge) := by decide +kernel

end Amt
