/-
Goroutines that share a container with a read-write lock: no deadlock, and all calls return (C84).
-/
import Verif.PropsRace

set_option linter.unusedVariables false
set_option linter.unusedSectionVars false

namespace Amt.Par
open Amt Spec

/-! ### How many accesses are left -/

section
variable {K V α : Type}

/-- The number of accesses until a program ends when it is alone. -/
def T.left : T K V α → St K V → Nat
  | .ret _, _ => 0
  | .fail _, _ => 0
  | .load r k, s => (match Amt.load r s with | .ok (x, s') => (k x).left s' | .error _ => 0) + 1
  | .store r x k, s => (match Amt.store r x s with | .ok (_, s') => k.left s' | .error _ => 0) + 1
  | .put r w k, s => (match modLink r w.put s with | .ok (_, s') => k.left s' | .error _ => 0) + 1
  | .alloc o k, s => (match Amt.alloc o s with | .ok (x, s') => (k x).left s' | .error _ => 0) + 1
  | .loadKv p k, s => (match Amt.loadKv p s with | .ok (x, s') => (k x).left s' | .error _ => 0) + 1
  | .storeVal p v k, s => (match Amt.storeVal p v s with | .ok (_, s') => k.left s' | .error _ => 0) + 1
  | .getRoot h k, s => (match Amt.getRoot h s with | .ok (x, s') => (k x).left s' | .error _ => 0) + 1
  | .modRoot h f k, s => (match Amt.modRoot h f s with | .ok (_, s') => k.left s' | .error _ => 0) + 1

theorem T.left_step {t : T K V α} (h : ¬ t.Done) (s : St K V) : (t.step s).1.left (t.step s).2 + 1 = t.left s := by
  cases t with
  | ret a => exact absurd trivial h
  | fail e => exact absurd trivial h
  | load r k => simp only [T.step, T.left, after]; cases Amt.load r s <;> rfl
  | store r x k => simp only [T.step, T.left, after]; cases Amt.store r x s <;> rfl
  | put r w k => simp only [T.step, T.left, after]; cases modLink r w.put s <;> rfl
  | alloc o k => simp only [T.step, T.left, after]; cases Amt.alloc o s <;> rfl
  | loadKv p k => simp only [T.step, T.left, after]; cases Amt.loadKv p s <;> rfl
  | storeVal p v k => simp only [T.step, T.left, after]; cases Amt.storeVal p v s <;> rfl
  | getRoot b k => simp only [T.step, T.left, after]; cases Amt.getRoot b s <;> rfl
  | modRoot b g k => simp only [T.step, T.left, after]; cases Amt.modRoot b g s <;> rfl

end

/-! ### Steps that get on -/

section
variable {ι K V Op Out : Type} [DecidableEq ι]

/-- As `Step`, without the accesses of programs that have ended (which do nothing). -/
inductive Move (G : Guarded K V Op Out) (prog : ι → List Out → Option Op) : World ι K V Op Out → World ι K V Op Out → Prop where
  | start (w : World ι K V Op Out) (i : ι) (op : Op) (idle : w.now i = none) (next : prog i (answersOf i w.log) = some op)
      (rlock : G.read op = true → ∀ j op' t, w.now j = some (op', t) → G.read op' = true) (lock : G.read op = false → ∀ j, w.now j = none) :
      Move G prog w { w with now := upd w.now i (some (op, G.call w.path op)) }
  | access (w : World ι K V Op Out) (i : ι) (op : Op) (t : T K V (Out × List PathLink)) (busy : w.now i = some (op, t)) (more : ¬ t.Done) :
      Move G prog w { w with mem := (t.step w.mem).2, now := upd w.now i (some (op, (t.step w.mem).1)) }
  | finish (w : World ι K V Op Out) (i : ι) (op : Op) (o : Out) (p : List PathLink) (ends : w.now i = some (op, .ret (o, p))) :
      Move G prog w { w with path := if G.read op = true then w.path else p, now := upd w.now i none, log := w.log ++ [(i, op, o)] }

variable {G : Guarded K V Op Out} {prog : ι → List Out → Option Op}

theorem Move.step {w w' : World ι K V Op Out} (h : Move G prog w w') : Step G prog w w' := by
  cases h with
  | start i op idle next rlock lock => exact .start w i op idle next rlock lock
  | access i op t busy more => exact .access w i op t busy
  | finish i op o p ends => exact .finish w i op o p ends

theorem Step.move {w w' : World ι K V Op Out} (h : Step G prog w w') : Move G prog w w' ∨ w' = w := by
  cases h with
  | start i op idle next rlock lock => exact Or.inl (.start w i op idle next rlock lock)
  | access i op t busy =>
    by_cases hd : t.Done
    · right
      rw [Done.step hd]
      have : upd w.now i (some (op, t)) = w.now := by
        funext j
        by_cases hj : j = i
        · subst hj; rw [upd_same, busy]
        · rw [upd_other _ _ hj]
      dsimp only
      rw [this]
    · exact Or.inl (.access w i op t busy hd)
  | finish i op o p ends => exact Or.inl (.finish w i op o p ends)

/-- No deadlock: as long as no call has panicked and there is something to do, something can be done. -/
theorem no_deadlock (w : World ι K V Op Out) (hp : ∀ i c e, w.now i ≠ some (c, .fail e)) :
    (∃ w', Move G prog w w') ∨ ∀ i, w.now i = none ∧ prog i (answersOf i w.log) = none := by
  by_cases hb : ∃ i c, w.now i = some c
  · obtain ⟨i, ⟨op, t⟩, hi⟩ := hb
    left
    by_cases hd : t.Done
    · cases t with
      | ret r => exact ⟨_, .finish w i op r.1 r.2 hi⟩
      | fail e => exact absurd hi (hp i op e)
      | _ => exact hd.elim
    · exact ⟨_, .access w i op t hi hd⟩
  · have hn : ∀ i, w.now i = none := fun i => by
      cases e : w.now i with
      | none => rfl
      | some c => exact absurd ⟨i, c, e⟩ hb
    by_cases hs : ∃ i op, prog i (answersOf i w.log) = some op
    · obtain ⟨i, op, hi⟩ := hs
      exact Or.inl ⟨_, .start w i op (hn i) hi (fun _ j op' t e => by rw [hn j] at e; cases e) fun _ j => hn j⟩
    · refine Or.inr fun i => ⟨hn i, ?_⟩
      cases e : prog i (answersOf i w.log) with
      | none => rfl
      | some op => exact absurd ⟨i, op, e⟩ hs

theorem answersOf_same (i : ι) (log : List (ι × Op × Out)) (op : Op) (o : Out) : (answersOf i (log ++ [(i, op, o)])).length = (answersOf i log).length + 1 := by
  simp [answersOf]

end

/-! ### Every execution ends -/

section
variable {K V Op Out : Type} {g : Nat} {G : Guarded K V Op Out} {prog : Fin g → List Out → Option Op}

/-- Sum over the goroutines. -/
def total (f : Fin g → Nat) : Nat := ((List.finRange g).map f).sum

theorem total_lt {f f' : Fin g → Nat} (i : Fin g) (hi : f' i < f i) (h : ∀ j, j ≠ i → f' j = f j) : total f' < total f := by
  have key : ∀ l : List (Fin g), (l.map f').sum ≤ (l.map f).sum ∧ (i ∈ l → (l.map f').sum < (l.map f).sum) := by
    intro l
    induction l with
    | nil => exact ⟨Nat.le_refl _, fun h => by cases h⟩
    | cons j l ih =>
      have hj : f' j ≤ f j := by
        by_cases e : j = i
        · subst e; exact Nat.le_of_lt hi
        · exact Nat.le_of_eq (h j e)
      simp only [List.map_cons, List.sum_cons]
      refine ⟨Nat.add_le_add hj ih.1, fun hm => ?_⟩
      rcases List.mem_cons.1 hm with e | e
      · subst e; exact Nat.add_lt_add_of_lt_of_le hi ih.1
      · exact Nat.add_lt_add_of_le_of_lt hj (ih.2 e)
  exact (key _).2 (List.mem_finRange i)

theorem total_congr {f f' : Fin g → Nat} (h : ∀ j, f' j = f j) : total f' = total f := by rw [funext h]

/-- The calls that are left, the goroutines that are idle, the accesses that are left in the calls that are being executed. -/
def weight (B : Nat) (w : World (Fin g) K V Op Out) : Nat × Nat × Nat :=
  (total fun i => B - (answersOf i w.log).length,
   total fun i => if (w.now i).isNone then 1 else 0,
   total fun i => match w.now i with | some (_, t) => t.left w.mem | none => 0)

theorem Move.weight {B : Nat} (hB : ∀ i os, B ≤ os.length → prog i os = none) {s₀ : St K V} {path₀ : List PathLink} {w w' : World (Fin g) K V Op Out}
    (hI : Inv G prog s₀ path₀ w) (h : Move G prog w w') : Prod.Lex (· < ·) (Prod.Lex (· < ·) (· < ·)) (weight B w') (weight B w) := by
  cases h with
  | start i op idle next rlock lock =>
    refine Prod.Lex.right _ (Prod.Lex.left _ _ (total_lt i ?_ fun j hj => ?_))
    · simp [idle]
    · simp [upd_other _ _ hj]
  | access i op t busy more =>
    have h2 : (total fun j => if (upd w.now i (some (op, (t.step w.mem).1)) j).isNone then 1 else 0) = total fun j => if (w.now j).isNone then 1 else 0 := by
      refine total_congr fun j => ?_
      by_cases hj : j = i
      · subst hj; simp [busy]
      · simp [upd_other _ _ hj]
    unfold Amt.Par.weight
    dsimp only
    rw [h2]
    refine Prod.Lex.right _ (Prod.Lex.right _ (total_lt i ?_ fun j hj => ?_))
    · rw [upd_same, busy]
      have := T.left_step more w.mem
      dsimp only
      omega
    · rw [upd_other _ _ hj]
      cases e : w.now j with
      | none => rfl
      | some c =>
        obtain ⟨op', t'⟩ := c
        have hr : G.read op = true := by
          cases e' : G.read op with
          | true => rfl
          | false => rw [hI.alone i op t busy e' j hj] at e; cases e
        dsimp only
        rw [(RO.step (hI.ro i op t busy hr) w.mem).2]
  | finish i op o p ends =>
    refine Prod.Lex.left _ _ (total_lt i ?_ fun j hj => ?_)
    · show B - (answersOf i (w.log ++ [(i, op, o)])).length < B - (answersOf i w.log).length
      rw [answersOf_same]
      have h1 := hI.next i op _ ends
      have h2 : (answersOf i w.log).length < B := by
        refine Nat.lt_of_not_le fun hc => ?_
        rw [hB i _ hc] at h1; cases h1
      omega
    · show B - (answersOf j (w.log ++ [(i, op, o)])).length = B - (answersOf j w.log).length
      rw [answersOf_other hj]

theorem lex_wf : WellFounded (Prod.Lex (· < · : Nat → Nat → Prop) (Prod.Lex (· < · : Nat → Nat → Prop) (· < · : Nat → Nat → Prop))) :=
  (Prod.lex Nat.lt_wfRel (Prod.lex Nat.lt_wfRel Nat.lt_wfRel)).wf

theorem no_forever {B : Nat} (hB : ∀ i os, B ≤ os.length → prog i os = none) {s₀ : St K V} {path₀ : List PathLink} (ws : Nat → World (Fin g) K V Op Out)
    (h0 : Reach G prog (World.start s₀ path₀) (ws 0)) : ¬ ∀ n, Move G prog (ws n) (ws (n + 1)) := by
  intro hm
  have hr : ∀ n, Reach G prog (World.start s₀ path₀) (ws n) := fun n => by
    induction n with
    | zero => exact h0
    | succ n ih => exact .step ih (hm n).step
  have key : ∀ x : Nat × Nat × Nat, ∀ n, weight B (ws n) = x → False := by
    intro x
    induction x using lex_wf.induction with
    | _ x ih => exact fun n hn => ih _ (hn ▸ (hm n).weight hB (Inv.reach (hr n))) (n + 1) rfl
  exact key _ 0 rfl

/-- From every state that is reached, the end can be reached: all calls have returned, or one has panicked. -/
theorem can_end {B : Nat} (hB : ∀ i os, B ≤ os.length → prog i os = none) {s₀ : St K V} {path₀ : List PathLink} {w : World (Fin g) K V Op Out}
    (h : Reach G prog (World.start s₀ path₀) w) : ∃ w', Reach G prog (World.start s₀ path₀) w' ∧ (∃ l, w'.log = w.log ++ l) ∧
      ((∀ i, w'.now i = none ∧ prog i (answersOf i w'.log) = none) ∨ ∃ i c e, w'.now i = some (c, .fail e)) := by
  have key : ∀ x : Nat × Nat × Nat, ∀ w : World (Fin g) K V Op Out, weight B w = x → Reach G prog (World.start s₀ path₀) w →
      ∃ w', Reach G prog (World.start s₀ path₀) w' ∧ (∃ l, w'.log = w.log ++ l) ∧
        ((∀ i, w'.now i = none ∧ prog i (answersOf i w'.log) = none) ∨ ∃ i c e, w'.now i = some (c, .fail e)) := by
    intro x
    induction x using lex_wf.induction with
    | _ x ih =>
      intro w hx hw
      by_cases hp : ∃ i c e, w.now i = some (c, .fail e)
      · exact ⟨w, hw, ⟨[], (List.append_nil _).symm⟩, Or.inr hp⟩
      · rcases no_deadlock (G := G) (prog := prog) w (fun i c e he => hp ⟨i, c, e, he⟩) with ⟨w1, h1⟩ | h1
        · obtain ⟨w2, h2, ⟨l, h3⟩, h4⟩ := ih _ (hx ▸ h1.weight hB (Inv.reach hw)) w1 rfl (.step hw h1.step)
          have h5 : ∃ l', w1.log = w.log ++ l' := by
            cases h1 with
            | start => exact ⟨[], (List.append_nil _).symm⟩
            | access => exact ⟨[], (List.append_nil _).symm⟩
            | finish i op o p ends => exact ⟨[(i, op, o)], rfl⟩
          obtain ⟨l', h5⟩ := h5
          exact ⟨w2, h2, ⟨l' ++ l, by rw [h3, h5, List.append_assoc]⟩, h4⟩
        · exact ⟨w, hw, ⟨[], (List.append_nil _).symm⟩, Or.inl h1⟩
  exact key _ w rfl h

end

/-! ### C84 -/

section
variable {K V : Type} [Inhabited V] {g : Nat}

/-- C84 for the maps.  Finitely many goroutines, each of which makes at most `B` calls, share a map with the read-write lock of C81.  In every state that they get to:
if no call has panicked, then something can be done, or all goroutines have made all their calls and all have returned; and nothing can be done
for ever.  (`Move`: a call begins, a call accesses memory, a call returns.) -/
theorem C84_map {G : MapTree K V} {C : Go.MapCode K V} (h : MapTreeOf G C) (n : Nat) (sd : Seed) (prog : Fin g → List (MOut K V) → Option (Call K V)) {B : Nat}
    (hB : ∀ i os, B ≤ os.length → prog i os = none) {w : World (Fin g) K V (Call K V) (MOut K V)}
    (hw : Reach (h.of.guarded n (some 0)) prog (World.start (fresh sd) Amt.blank) w) :
    ((∀ i c e, w.now i ≠ some (c, .fail e)) → (∃ w', Move (h.of.guarded n (some 0)) prog w w') ∨ ∀ i, w.now i = none ∧ prog i (answersOf i w.log) = none) ∧
    ∀ ws : Nat → World (Fin g) K V (Call K V) (MOut K V), ws 0 = w → ¬ ∀ n', Move (h.of.guarded n (some 0)) prog (ws n') (ws (n' + 1)) :=
  ⟨no_deadlock w, fun ws h0 => no_forever hB ws (h0 ▸ hw)⟩

/-- C84 for the sets. -/
theorem C84_set {G : SetTree K} {C : Go.SetCode K} (h : SetTreeOf G C) (n : Nat) (sd : Seed) (prog : Fin g → List (SOut K) → Option (SCall K)) {B : Nat}
    (hB : ∀ i os, B ≤ os.length → prog i os = none) {w : World (Fin g) K Unit (SCall K) (SOut K)}
    (hw : Reach (h.of.guarded n (some 0)) prog (World.start (fresh sd) Amt.blank) w) :
    ((∀ i c e, w.now i ≠ some (c, .fail e)) → (∃ w', Move (h.of.guarded n (some 0)) prog w w') ∨ ∀ i, w.now i = none ∧ prog i (answersOf i w.log) = none) ∧
    ∀ ws : Nat → World (Fin g) K Unit (SCall K) (SOut K), ws 0 = w → ¬ ∀ n', Move (h.of.guarded n (some 0)) prog (ws n') (ws (n' + 1)) :=
  ⟨no_deadlock w, fun ws h0 => no_forever hB ws (h0 ▸ hw)⟩

/-- If no call panics, all calls can be brought to their end, whatever has happened. -/
theorem ends_of {Op Out : Type} {G : Guarded K V Op Out} {prog : Fin g → List Out → Option Op} {s₀ : St K V} {path₀ : List PathLink} {B : Nat}
    (hB : ∀ i os, B ≤ os.length → prog i os = none) (P : World (Fin g) K V Op Out → Prop)
    (hP : ∀ w, Reach G prog (World.start s₀ path₀) w → P w ∧ ∀ i c e, w.now i ≠ some (c, .fail e)) {w : World (Fin g) K V Op Out}
    (hw : Reach G prog (World.start s₀ path₀) w) :
    ∃ w', Reach G prog (World.start s₀ path₀) w' ∧ (∃ l, w'.log = w.log ++ l) ∧ (∀ i, w'.now i = none ∧ prog i (answersOf i w'.log) = none) ∧ P w' := by
  obtain ⟨w', h1, h2, h3⟩ := can_end hB hw
  have h4 := hP w' h1
  refine ⟨w', h1, h2, ?_, h4.1⟩
  rcases h3 with h3 | ⟨i, c, e, h3⟩
  · exact h3
  · exact absurd h3 (h4.2 i c e)

end

section
variable {V : Type} [Inhabited V] {g : Nat} (sum : Maphash) (sd : Seed) {n : Nat}

/-- StringMap, with keys as in C81_StringMap: from every state that the goroutines get to, all calls can be brought to their end; then all have returned, and the answers
are those of the abstract map.  (That they come to their end on whatever way is C84_map.) -/
theorem C84_StringMap {Q : ByteStr → Prop} (hQ : Separated (byteStream sum sd id) Q) (hf : 256 ≤ n)
    {B : Nat} {prog : Fin g → List (MOut ByteStr V) → Option (Call ByteStr V)} (hB : ∀ i os, B ≤ os.length → prog i os = none) (hq : ∀ i os c k, prog i os = some c → k ∈ c.op.stores → Q k)
    {w : World (Fin g) ByteStr V (Call ByteStr V) (MOut ByteStr V)}
    (hw : Reach ((MapTreeOf.string sum).of.guarded n (some 0)) prog (World.start (fresh sd) Amt.blank) w) :
    ∃ w', Reach ((MapTreeOf.string sum).of.guarded n (some 0)) prog (World.start (fresh sd) Amt.blank) w' ∧ (∃ l, w'.log = w.log ++ l) ∧
      (∀ i, w'.now i = none ∧ prog i (answersOf i w'.log) = none) ∧ (∃ m, MRun [] (w'.log.map fun x => x.2.1.op) (w'.log.map fun x => x.2.2) m) :=
  ends_of hB (fun w' => (∃ m, MRun [] (w'.log.map fun x => x.2.1.op) (w'.log.map fun x => x.2.2) m)) (fun w' h => C81_StringMap sum sd hQ hf hq h) hw

theorem C84_BytesMap {Q : ByteStr → Prop} (hQ : Separated (byteStream sum sd id) Q) (hf : 256 ≤ n)
    {B : Nat} {prog : Fin g → List (MOut ByteStr V) → Option (Call ByteStr V)} (hB : ∀ i os, B ≤ os.length → prog i os = none) (hq : ∀ i os c k, prog i os = some c → k ∈ c.op.stores → Q k)
    {w : World (Fin g) ByteStr V (Call ByteStr V) (MOut ByteStr V)}
    (hw : Reach ((MapTreeOf.bytes sum).of.guarded n (some 0)) prog (World.start (fresh sd) Amt.blank) w) :
    ∃ w', Reach ((MapTreeOf.bytes sum).of.guarded n (some 0)) prog (World.start (fresh sd) Amt.blank) w' ∧ (∃ l, w'.log = w.log ++ l) ∧
      (∀ i, w'.now i = none ∧ prog i (answersOf i w'.log) = none) ∧ (∃ m, MRun [] (w'.log.map fun x => x.2.1.op) (w'.log.map fun x => x.2.2) m) :=
  ends_of hB (fun w' => (∃ m, MRun [] (w'.log.map fun x => x.2.1.op) (w'.log.map fun x => x.2.2) m)) (fun w' h => C81_BytesMap sum sd hQ hf hq h) hw

theorem C84_ArrMap {K : Type} [DecidableEq K] (kb : K → List UInt8) {Q : K → Prop} (hQ : Separated (byteStream sum sd kb) Q) (hf : 256 ≤ n)
    {B : Nat} {prog : Fin g → List (MOut K V) → Option (Call K V)} (hB : ∀ i os, B ≤ os.length → prog i os = none) (hq : ∀ i os c k, prog i os = some c → k ∈ c.op.stores → Q k)
    {w : World (Fin g) K V (Call K V) (MOut K V)}
    (hw : Reach ((MapTreeOf.arr sum kb).of.guarded n (some 0)) prog (World.start (fresh sd) Amt.blank) w) :
    ∃ w', Reach ((MapTreeOf.arr sum kb).of.guarded n (some 0)) prog (World.start (fresh sd) Amt.blank) w' ∧ (∃ l, w'.log = w.log ++ l) ∧
      (∀ i, w'.now i = none ∧ prog i (answersOf i w'.log) = none) ∧ (∃ m, RunBy (MStepX (byteStream sum sd kb) True (fun _ => default)) [] (w'.log.map fun x => x.2.1.op) (w'.log.map fun x => x.2.2) m) :=
  ends_of hB (fun w' => (∃ m, RunBy (MStepX (byteStream sum sd kb) True (fun _ => default)) [] (w'.log.map fun x => x.2.1.op) (w'.log.map fun x => x.2.2) m)) (fun w' h => C81_ArrMap sum sd kb hQ hf hq h) hw

theorem C84_IntMap {Q : IntKey → Prop} (hQ : ∀ a b, Q a → Q b → a ≠ b → Near (byteStream sum sd intbytes) a b ∧ SafePair (byteStream sum sd intbytes) upper a b)
    (hf : 256 ≤ n) {B : Nat} {prog : Fin g → List (MOut IntKey V) → Option (Call IntKey V)} (hB : ∀ i os, B ≤ os.length → prog i os = none) (hq : ∀ i os c k, prog i os = some c → k ∈ c.op.stores → Q k)
    {w : World (Fin g) IntKey V (Call IntKey V) (MOut IntKey V)}
    (hw : Reach ((MapTreeOf.int sum).of.guarded n (some 0)) prog (World.start (fresh sd) Amt.blank) w) :
    ∃ w', Reach ((MapTreeOf.int sum).of.guarded n (some 0)) prog (World.start (fresh sd) Amt.blank) w' ∧ (∃ l, w'.log = w.log ++ l) ∧
      (∀ i, w'.now i = none ∧ prog i (answersOf i w'.log) = none) ∧ (∃ m, MRun [] (w'.log.map fun x => x.2.1.op) (w'.log.map fun x => x.2.2) m) :=
  ends_of hB (fun w' => (∃ m, MRun [] (w'.log.map fun x => x.2.1.op) (w'.log.map fun x => x.2.2) m)) (fun w' h => C81_IntMap sum sd hQ hf hq h) hw

theorem C84_Map {K : Type} [DecidableEq K] (I : KeyImpl K) (heq : ∀ a b, I.equal a b = true ↔ a = b) {Q : K → Prop}
    (hQ : ∀ m ks k, (∀ k' ∈ ks, Q k') → Q k → k ∉ ks → GenFits (fun k n => I.hash k sd n) m ks k) (hf : 256 ≤ n)
    {B : Nat} {prog : Fin g → List (MOut K V) → Option (Call K V)} (hB : ∀ i os, B ≤ os.length → prog i os = none) (hq : ∀ i os c k, prog i os = some c → k ∈ c.op.stores → Q k)
    {w : World (Fin g) K V (Call K V) (MOut K V)}
    (hw : Reach ((MapTreeOf.generic I).of.guarded n (some 0)) prog (World.start (fresh sd) Amt.blank) w) :
    ∃ w', Reach ((MapTreeOf.generic I).of.guarded n (some 0)) prog (World.start (fresh sd) Amt.blank) w' ∧ (∃ l, w'.log = w.log ++ l) ∧
      (∀ i, w'.now i = none ∧ prog i (answersOf i w'.log) = none) ∧ (∃ m, MRun [] (w'.log.map fun x => x.2.1.op) (w'.log.map fun x => x.2.2) m) :=
  ends_of hB (fun w' => (∃ m, MRun [] (w'.log.map fun x => x.2.1.op) (w'.log.map fun x => x.2.2) m)) (fun w' h => C81_Map sd I heq hQ hf hq h) hw

theorem C84_StringSet {Q : ByteStr → Prop} (hQ : Separated (byteStream sum sd id) Q) (hf : 256 ≤ n)
    {B : Nat} {prog : Fin g → List (SOut ByteStr) → Option (SCall ByteStr)} (hB : ∀ i os, B ≤ os.length → prog i os = none) (hq : ∀ i os c k, prog i os = some c → k ∈ c.op.stores → Q k)
    {w : World (Fin g) ByteStr Unit (SCall ByteStr) (SOut ByteStr)}
    (hw : Reach ((SetTreeOf.string sum).of.guarded n (some 0)) prog (World.start (fresh sd) Amt.blank) w) :
    ∃ w', Reach ((SetTreeOf.string sum).of.guarded n (some 0)) prog (World.start (fresh sd) Amt.blank) w' ∧ (∃ l, w'.log = w.log ++ l) ∧
      (∀ i, w'.now i = none ∧ prog i (answersOf i w'.log) = none) ∧ (∃ m, SRun [] (w'.log.map fun x => x.2.1.op) (w'.log.map fun x => x.2.2) m) :=
  ends_of hB (fun w' => (∃ m, SRun [] (w'.log.map fun x => x.2.1.op) (w'.log.map fun x => x.2.2) m)) (fun w' h => C81_StringSet sum sd hQ hf hq h) hw

theorem C84_ArrSet {K : Type} [DecidableEq K] (kb : K → List UInt8) {Q : K → Prop} (hQ : Separated (byteStream sum sd kb) Q) (hf : 256 ≤ n)
    {B : Nat} {prog : Fin g → List (SOut K) → Option (SCall K)} (hB : ∀ i os, B ≤ os.length → prog i os = none) (hq : ∀ i os c k, prog i os = some c → k ∈ c.op.stores → Q k)
    {w : World (Fin g) K Unit (SCall K) (SOut K)}
    (hw : Reach ((SetTreeOf.arr sum kb).of.guarded n (some 0)) prog (World.start (fresh sd) Amt.blank) w) :
    ∃ w', Reach ((SetTreeOf.arr sum kb).of.guarded n (some 0)) prog (World.start (fresh sd) Amt.blank) w' ∧ (∃ l, w'.log = w.log ++ l) ∧
      (∀ i, w'.now i = none ∧ prog i (answersOf i w'.log) = none) ∧ (∃ m, SRun [] (w'.log.map fun x => x.2.1.op) (w'.log.map fun x => x.2.2) m) :=
  ends_of hB (fun w' => (∃ m, SRun [] (w'.log.map fun x => x.2.1.op) (w'.log.map fun x => x.2.2) m)) (fun w' h => C81_ArrSet sum sd kb hQ hf hq h) hw

theorem C84_BytesSet {Q : ByteStr → Prop} (hQ : Separated (byteStream sum sd id) Q) (hf : 256 ≤ n)
    {B : Nat} {prog : Fin g → List (SOut ByteStr) → Option (SCall ByteStr)} (hB : ∀ i os, B ≤ os.length → prog i os = none) (hq : ∀ i os c k, prog i os = some c → k ∈ c.op.stores → Q k)
    {w : World (Fin g) ByteStr Unit (SCall ByteStr) (SOut ByteStr)}
    (hw : Reach ((SetTreeOf.bytes sum).of.guarded n (some 0)) prog (World.start (fresh sd) Amt.blank) w) :
    ∃ w', Reach ((SetTreeOf.bytes sum).of.guarded n (some 0)) prog (World.start (fresh sd) Amt.blank) w' ∧ (∃ l, w'.log = w.log ++ l) ∧
      (∀ i, w'.now i = none ∧ prog i (answersOf i w'.log) = none) ∧ (∃ m, SRunBy (SStepX (byteStream sum sd id) True true) [] (w'.log.map fun x => x.2.1.op) (w'.log.map fun x => x.2.2) m) :=
  ends_of hB (fun w' => (∃ m, SRunBy (SStepX (byteStream sum sd id) True true) [] (w'.log.map fun x => x.2.1.op) (w'.log.map fun x => x.2.2) m)) (fun w' h => C81_BytesSet sum sd hQ hf hq h) hw

theorem C84_IntSet {Q : IntKey → Prop} (hQ : ∀ a b, Q a → Q b → a ≠ b → Near (byteStream sum sd intbytes) a b ∧ SafePair (byteStream sum sd intbytes) upper a b)
    (hf : 256 ≤ n) {B : Nat} {prog : Fin g → List (SOut IntKey) → Option (SCall IntKey)} (hB : ∀ i os, B ≤ os.length → prog i os = none) (hq : ∀ i os c k, prog i os = some c → k ∈ c.op.stores → Q k)
    {w : World (Fin g) IntKey Unit (SCall IntKey) (SOut IntKey)}
    (hw : Reach ((SetTreeOf.int sum).of.guarded n (some 0)) prog (World.start (fresh sd) Amt.blank) w) :
    ∃ w', Reach ((SetTreeOf.int sum).of.guarded n (some 0)) prog (World.start (fresh sd) Amt.blank) w' ∧ (∃ l, w'.log = w.log ++ l) ∧
      (∀ i, w'.now i = none ∧ prog i (answersOf i w'.log) = none) ∧ (∃ m, SRun [] (w'.log.map fun x => x.2.1.op) (w'.log.map fun x => x.2.2) m) :=
  ends_of hB (fun w' => (∃ m, SRun [] (w'.log.map fun x => x.2.1.op) (w'.log.map fun x => x.2.2) m)) (fun w' h => C81_IntSet sum sd hQ hf hq h) hw

theorem C84_Set {K : Type} [DecidableEq K] (I : KeyImpl K) (heq : ∀ a b, I.equal a b = true ↔ a = b) {Q : K → Prop}
    (hQ : ∀ ks k, (∀ k' ∈ ks, Q k') → Q k → k ∉ ks → GenFits (fun k n => I.hash k sd n) false ks k) (hf : 256 ≤ n)
    {B : Nat} {prog : Fin g → List (SOut K) → Option (SCall K)} (hB : ∀ i os, B ≤ os.length → prog i os = none) (hq : ∀ i os c k, prog i os = some c → k ∈ c.op.stores → Q k)
    {w : World (Fin g) K Unit (SCall K) (SOut K)}
    (hw : Reach ((SetTreeOf.generic I).of.guarded n (some 0)) prog (World.start (fresh sd) Amt.blank) w) :
    ∃ w', Reach ((SetTreeOf.generic I).of.guarded n (some 0)) prog (World.start (fresh sd) Amt.blank) w' ∧ (∃ l, w'.log = w.log ++ l) ∧
      (∀ i, w'.now i = none ∧ prog i (answersOf i w'.log) = none) ∧ (∃ m, SRun [] (w'.log.map fun x => x.2.1.op) (w'.log.map fun x => x.2.2) m) :=
  ends_of hB (fun w' => (∃ m, SRun [] (w'.log.map fun x => x.2.1.op) (w'.log.map fun x => x.2.2) m)) (fun w' h => C81_Set sd I heq hQ hf hq h) hw

end

/-! ### Goroutines of C84 -/

/-- Three goroutines that insert, look up and delete. -/
def exCalls (i : Fin 3) (os : List (MOut ByteStr Nat)) : Option (Call ByteStr Nat) :=
  [Call.lock (.set (strKey 0x01) i.val), .rlock (.get (strKey 0x11)), .lock (.set (strKey 0x11) 2), .lock (.del (strKey 0x01)), .rlock (.all fun _ _ _ => true)][os.length]?

theorem exCalls_keys (i : Fin 3) (os : List (MOut ByteStr Nat)) (c : Call ByteStr Nat) (k : ByteStr) (h : exCalls i os = some c) (hk : k ∈ c.op.stores) :
    k ∈ [strKey 0x01, strKey 0x11] := by
  have h1 := List.mem_of_getElem? h
  simp only [List.mem_cons, List.not_mem_nil, or_false] at h1
  rcases h1 with rfl | rfl | rfl | rfl | rfl <;> simp [Call.op, MOp.stores] at hk <;> simp [hk]

example {w : World (Fin 3) ByteStr Nat (Call ByteStr Nat) (MOut ByteStr Nat)}
    (hw : Reach ((MapTreeOf.string toyHash).of.guarded 256 (some 0)) exCalls (World.start (fresh 0#64) Amt.blank) w) :=
  C84_StringMap toyHash 0#64 (Q := fun k => k ∈ [strKey 0x01, strKey 0x11]) (by
    have h : ∀ a ∈ [strKey 0x01, strKey 0x11], ∀ b ∈ [strKey 0x01, strKey 0x11], a ≠ b → Near (byteStream toyHash 0#64 id) a b := by decide +kernel
    exact fun a b ha hb => h a ha b hb) (Nat.le_refl 256) (B := 5) (fun i os h => List.getElem?_eq_none h) exCalls_keys hw

end Amt.Par
