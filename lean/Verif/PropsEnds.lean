/-
C44 in every memory: an iteration is a loop over entries that do not depend on the callback, also if it comes to a fault or does not end.
-/
import Verif.PropsBetween

set_option linter.unusedVariables false
set_option linter.unusedSectionVars false

namespace Amt
open Spec

section
variable {K V U : Type}

/-- Call the visitor on the items in order until it returns false; after the last one comes the fault, if there is one. -/
def visitEnd (visit : U → Link → M K V (U × Bool)) (en : Option Fault) : List Link → U → M K V (U × Bool)
  | [], u => match en with
    | none => pure (u, true)
    | some e => M.fail e
  | x :: xs, u => visit u x >>= fun r => if r.2 = true then visitEnd visit en xs r.1 else pure (r.1, false)

theorem visitEnd_none (visit : U → Link → M K V (U × Bool)) (xs : List Link) (u : U) : visitEnd visit none xs u = visitAll visit xs u := by
  induction xs generalizing u with
  | nil => rfl
  | cons x xs ih =>
    rw [visitEnd, visitAll]
    congr 1
    funext r
    rw [ih]

theorem visitEnd_append (visit : U → Link → M K V (U × Bool)) (en : Option Fault) (xs ys : List Link) (u : U) :
    visitEnd visit en (xs ++ ys) u = (visitAll visit xs u >>= fun r => if r.2 = true then visitEnd visit en ys r.1 else pure (r.1, false)) := by
  induction xs generalizing u with
  | nil => rfl
  | cons x xs ih =>
    rw [List.cons_append, visitEnd, visitAll, bind_assoc_M]
    congr 1
    funext r
    split
    · exact ih _
    · rfl

/-- If there is a fault at the end, nothing comes after it. -/
theorem visitEnd_fault (visit : U → Link → M K V (U × Bool)) (e : Fault) (f : U → M K V (U × Bool)) (xs : List Link) (u : U) :
    (visitEnd visit (some e) xs u >>= fun r => if r.2 = true then f r.1 else pure (r.1, false)) = visitEnd visit (some e) xs u := by
  induction xs generalizing u with
  | nil => rfl
  | cons x xs ih =>
    rw [visitEnd, bind_assoc_M]
    congr 1
    funext r
    split
    · exact ih _
    · rfl

/-- In memories like `s`, the scan is a loop over the items `xs`, with this end. -/
def Looped (s : St K V) (F : ∀ {U : Type}, (U → Link → M K V (U × Bool)) → U → M K V (U × Bool)) (xs : List Link) (en : Option Fault) : Prop :=
  ∀ {U : Type} (visit : U → Link → M K V (U × Bool)) (u : U) (s' : St K V), SameShape s s' → MildOn visit xs u s' → F visit u s' = visitEnd visit en xs u s'

theorem scanItems_looped {s : St K V} (rec : ∀ {U : Type}, (U → Link → M K V (U × Bool)) → U → Ref → M K V (U × Bool))
    (hr : ∀ r, ∃ xs en, Looped s (fun visit u => rec visit u r) xs en) (l : Ref) (tm : BitVec 32) (n i : Nat) (pm : BitVec 32) :
    ∃ xs en, Looped s (fun visit u => scanItems visit (rec visit) l tm n i pm u) xs en := by
  induction n generalizing i pm with
  | zero => exact ⟨[], none, fun visit u s' _ _ => rfl⟩
  | succ n ih =>
    cases e1 : load l s with
    | error e => exact ⟨[], some e, fun visit u s' hs _ => by dsimp only; rw [scanItems_succ, bind_err ((Reader.load l).err e1 hs)]; rfl⟩
    | ok q =>
      obtain ⟨lk, s1⟩ := q
      have hl := ((Reader.load l).ok e1).2
      by_cases ht : tm &&& bitOf (trailingZeros pm) ≠ 0#32
      · cases e2 : load ⟨lk.ptr, i⟩ s with
        | error e =>
          refine ⟨[], some e, fun visit u s' hs _ => ?_⟩
          dsimp only
          rw [scanItems_succ, bind_ok (hl s' hs), if_pos ht, bind_assoc_M, bind_err ((Reader.load _).err e2 hs)]
          rfl
        | ok q =>
          obtain ⟨x, s2⟩ := q
          obtain ⟨ys, en, hy⟩ := ih (i + 1) (pm &&& ~~~bitOf (trailingZeros pm))
          refine ⟨x :: ys, en, fun visit u s' hs hm => ?_⟩
          dsimp only
          rw [scanItems_succ, bind_ok (hl s' hs), if_pos ht, bind_assoc_M, bind_ok (((Reader.load _).ok e2).2 s' hs), visitEnd]
          refine bind_congr_at rfl fun r s3 e3 => ?_
          obtain ⟨h1, h2⟩ := hm _ _ e3
          by_cases hq : r.2 = true
          · rw [if_pos hq, if_pos hq]
            exact hy visit _ _ (hs.trans h1) (h2 hq)
          · rw [if_neg hq, if_neg hq]
      · obtain ⟨zs, ez, hz⟩ := hr ⟨lk.ptr, i⟩
        cases ez with
        | some e =>
          refine ⟨zs, some e, fun visit u s' hs hm => ?_⟩
          dsimp only
          rw [scanItems_succ, bind_ok (hl s' hs), if_neg ht, ← visitEnd_fault visit e (fun u => scanItems visit (rec visit) l tm n (i + 1) (pm &&& ~~~bitOf (trailingZeros pm)) u)]
          exact bind_congr_at (hz visit u s' hs hm) fun r s3 e3 => rfl
        | none =>
          obtain ⟨ys, en, hy⟩ := ih (i + 1) (pm &&& ~~~bitOf (trailingZeros pm))
          refine ⟨zs ++ ys, en, fun visit u s' hs hm => ?_⟩
          obtain ⟨hm1, hm2⟩ := hm.append
          have h1 := hz visit u s' hs hm1
          rw [visitEnd_none] at h1
          dsimp only
          rw [scanItems_succ, bind_ok (hl s' hs), if_neg ht, visitEnd_append]
          refine bind_congr_at h1 fun r s3 e3 => ?_
          by_cases hq : r.2 = true
          · rw [if_pos hq, if_pos hq]
            exact hy visit _ _ (hs.trans (hm1.shape e3)) (hm2 _ _ e3 hq)
          · rw [if_neg hq, if_neg hq]

/-- Every scan is a loop over items that do not depend on the visitor. -/
theorem scan_looped (s : St K V) (fuel : Nat) (l : Ref) : ∃ xs en, Looped s (fun visit u => scan visit fuel u l) xs en := by
  induction fuel generalizing l with
  | zero => exact ⟨[], some .diverge, fun visit u s' _ _ => rfl⟩
  | succ fuel ih =>
    cases e1 : load l s with
    | error e => exact ⟨[], some e, fun visit u s' hs _ => by dsimp only; rw [scan, bind_err ((Reader.load l).err e1 hs)]; rfl⟩
    | ok q =>
      obtain ⟨lk, s1⟩ := q
      obtain ⟨xs, en, hx⟩ := scanItems_looped (fun visit u r => scan visit fuel u r) ih l lk.tmap (popcount lk.pmap) 0 lk.pmap
      refine ⟨xs, en, fun visit u s' hs hm => ?_⟩
      dsimp only
      rw [scan, bind_ok (((Reader.load l).ok e1).2 s' hs)]
      exact hx visit u s' hs hm

/-- Call a program on keys and addresses in order until it returns false; after the last one comes the fault, if there is one. -/
def callEnd (f : U → K → Ptr → M K V (U × Bool)) (en : Option Fault) : List (K × Ptr) → U → M K V (U × Bool)
  | [], u => match en with
    | none => pure (u, true)
    | some e => M.fail e
  | e :: es, u => f u e.1 e.2 >>= fun r => if r.2 = true then callEnd f en es r.1 else pure (r.1, false)

theorem visitEnd_keys (c : Cfg K) (g : Ptr → Ptr) (s : St K V) (en : Option Fault) (xs : List Link) : ∃ es en', ∀ {U : Type} (f : U → K → Ptr → M K V (U × Bool)) (u : U) (s' : St K V),
    SameShape s s' → MildCalls f es u s' →
      MildOn (visitMapM c fun u k p => f u k (g p)) xs u s' ∧ visitEnd (visitMapM c fun u k p => f u k (g p)) en xs u s' = callEnd f en' es u s' := by
  induction xs with
  | nil => exact ⟨[], en, fun f u s' _ _ => ⟨trivial, by cases en <;> rfl⟩⟩
  | cons x xs ih =>
    cases e1 : readKey c x s with
    | error e =>
      refine ⟨[], some e, fun f u s' hs _ => ⟨fun r s1 e2 => ?_, ?_⟩⟩
      · rw [visitMapM, bind_err ((Reader.readKey c x).err e1 hs)] at e2
        cases e2
      · rw [visitEnd, visitMapM, bind_assoc_M, bind_err ((Reader.readKey c x).err e1 hs)]
        rfl
    | ok q =>
      obtain ⟨k, s1⟩ := q
      have hk := ((Reader.readKey c x).ok e1).2
      obtain ⟨es, en', h⟩ := ih
      refine ⟨(k, g x.ptr) :: es, en', fun f u s' hs hm => ⟨fun r s1 e2 => ?_, ?_⟩⟩
      · rw [visitMapM, bind_ok (hk s' hs)] at e2
        obtain ⟨h1, h2⟩ := hm _ _ e2
        exact ⟨h1, fun hq => (h f _ _ (hs.trans h1) (h2 hq)).1⟩
      · rw [visitEnd, callEnd, visitMapM, bind_assoc_M, bind_ok (hk s' hs)]
        refine bind_congr_at rfl fun r s1 e2 => ?_
        obtain ⟨h1, h2⟩ := hm _ _ e2
        by_cases hq : r.2 = true
        · rw [if_pos hq, if_pos hq]
          exact (h f _ _ (hs.trans h1) (h2 hq)).2
        · rw [if_neg hq, if_neg hq]

/-- The iteration of a map or a set is a loop over entries that do not depend on the callback. -/
theorem all_ends (c : Cfg K) (g : Ptr → Ptr) (fuel h : Nat) (s : St K V) : ∃ L en, ∀ {U : Type} (f : U → K → Ptr → M K V (U × Bool)) (u : U), MildCalls f L u s →
    (scan (visitMapM c fun u k p => f u k (g p)) fuel u ⟨.blk h, 0⟩ >>= fun r => pure r.1) s = (callEnd f en L u >>= fun r => pure r.1) s := by
  obtain ⟨xs, en, h1⟩ := scan_looped s fuel ⟨.blk h, 0⟩
  obtain ⟨L, en', h2⟩ := visitEnd_keys c g s en xs
  refine ⟨L, en', fun f u hm => ?_⟩
  obtain ⟨h3, h4⟩ := h2 f u s (SameShape.refl s) hm
  exact bind_congr_at ((h1 _ u s (SameShape.refl s) h3).trans h4) fun _ _ _ => rfl

end

/-! ### Programs -/

section
variable {ι K V Op Out X U : Type}

/-- The entries over which `All` loops in this memory, and its end. -/
def Kind.Loops (κ : Kind K V Op Out X) (h : Nat) (s : St K V) (L : List (K × Ptr)) (en : Option Fault) : Prop :=
  ∀ {U : Type} (f : U → K → Ptr → M K V (U × Bool)) (u : U), MildCalls f L u s → κ.all (some h) f u s = (callEnd f en L u >>= fun r => pure r.1) s

theorem MapImpl.kind_ends [Inhabited V] (I : MapImpl K V) (fuel h : Nat) (s : St K V) : ∃ L en, (I.kind fuel).Loops h s L en := all_ends I.cfg id fuel h s

theorem SetImpl.kind_ends (I : SetImpl K) (fuel h : Nat) (s : St K Unit) : ∃ L en, (I.kind fuel).Loops h s L en := all_ends I.cfg (fun _ => .nil) fuel h s

theorem keepKeys_calls (L : List (K × Ptr)) : ∀ (L₀ : List (K × Ptr)) (s : St K V), MildCalls keepKeys L L₀ s ∧
    ∀ en, callEnd keepKeys en L L₀ s = match en with | none => .ok ((L₀ ++ L, true), s) | some e => .error e := by
  induction L with
  | nil => exact fun L₀ s => ⟨trivial, fun en => by cases en <;> simp [callEnd] <;> rfl⟩
  | cons a L ih =>
    refine fun L₀ s => ⟨fun r s' e => ?_, fun en => ?_⟩
    · cases e
      exact ⟨SameShape.refl _, fun _ => (ih _ _).1⟩
    · have h1 := (ih (L₀ ++ [(a.1, a.2)]) s).2 en
      rw [List.append_assoc] at h1
      exact h1

/-- A plain iteration gets these entries, or comes to this end. -/
theorem Kind.Loops.plain {κ : Kind K V Op Out X} {h : Nat} {s : St K V} {L : List (K × Ptr)} {en : Option Fault} (hl : κ.Loops h s L en) :
    κ.all (some h) keepKeys [] s = match en with | none => .ok (L, s) | some e => .error e := by
  obtain ⟨h1, h2⟩ := keepKeys_calls (V := V) L [] s
  rw [hl keepKeys [] h1, bind_run, h2 en]
  cases en <;> rfl

/-- Run the callback on entries, given by their keys and addresses, one after the other; after the last one comes the fault, if there is one. -/
def loopEnd (κ : ι → Kind K V Op Out X) (c : Nat) (f : U → K → Nat → Prog ι K V Op Out X (U × Bool)) (en : Option Fault) :
    List (K × Ptr) → U → Worlds ι K V → Except Fault (U × Worlds ι K V)
  | [], u, w => match en with
    | none => .ok (u, w)
    | some e => .error e
  | e :: es, u, w => andThen (runApart κ (f u e.1 w.ptrs.length) (w.hold c e.2)) fun r w' => if r.2 = true then loopEnd κ c f en es r.1 w' else .ok (r.1, w')

theorem callEnd_between {β : Type} {κ : ι → Kind K V Op Out X} {c : Nat} {f : U → K → Nat → Prog ι K V Op Out X (U × Bool)} (G : U → Worlds ι K V → Except Fault β)
    {en : Option Fault} {L : List (K × Ptr)} : ∀ {u : U} {w : Worlds ι K V} {t : St K V},
      andThen ((callEnd (liftCall κ c f) en L (u, w) >>= fun r => pure r.1) t) (fun r t' => G r.1 (r.2.put c t')) = andThen (loopEnd κ c f en L u (w.put c t)) G := by
  induction L with
  | nil => intro u w t; cases en <;> rfl
  | cons e es ih =>
    intro u w t
    rw [callEnd, loopEnd, bind_assoc_M, bind_run]
    show _ = andThen (andThen (runApart κ (f u e.1 w.ptrs.length) ((w.put c t).hold c e.2)) _) _
    unfold liftCall
    cases hx : runApart κ (f u e.1 w.ptrs.length) ((w.put c t).hold c e.2) with
    | error x => rfl
    | ok q =>
      obtain ⟨⟨u', b⟩, w'⟩ := q
      cases b with
      | false => show G u' (w'.put c (w'.mem c)) = G u' w'; rw [Worlds.put_self]
      | true =>
        have h1 := ih (u := u') (w := w') (t := w'.mem c)
        rw [Worlds.put_self] at h1
        exact h1

theorem all_between_end {κ : ι → Kind K V Op Out X} {c : Nat} {i : ι} {R : Type} {f : U → K → Nat → Prog ι K V Op Out X (U × Bool)} {u : U}
    (k : U → Prog ι K V Op Out X R) {w : Worlds ι K V} {h : Nat} (hw : w.objs[c]? = some (i, h)) {L : List (K × Ptr)} {en : Option Fault}
    (hL : (κ i).Loops h (w.mem c) L en) (hs : Steady κ c f L u w) :
    runApart κ (.all c f u k) w = andThen (loopEnd κ c f en L u w) fun u' w' => runApart κ (k u') w' := by
  rw [runApart, hw]
  dsimp only
  have hm : MildCalls (liftCall κ c f) L (u, w) (w.mem c) := Steady.mild (by rw [Worlds.put_self]; exact hs)
  have h1 := hL (liftCall κ c f) (u, w) hm
  have h2 := callEnd_between (κ := κ) (c := c) (f := f) (fun u' w' => runApart κ (k u') w') (en := en) (L := L) (u := u) (w := w) (t := w.mem c)
  rw [Worlds.put_self, ← h1] at h2
  exact h2

end

end Amt
