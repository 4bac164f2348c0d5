/-
Programs with maps and sets of different types of keys and values in one memory: still, what each container returns
depends on nothing but its seed and the calls it receives (C33).
-/
import Verif.PropsRename

set_option linter.unusedVariables false
set_option linter.unusedSectionVars false

namespace Amt
open Spec

/-! ### A memory with objects of several types -/

section
variable {ι : Type} [DecidableEq ι] {K V : ι → Type}

/-- A value of type `F i`, if it is one. -/
def pick {F : ι → Type} (i : ι) (x : Σ j, F j) : Option (F i) := if h : x.1 = i then some (h ▸ x.2) else none

theorem pick_mk {F : ι → Type} (i : ι) (a : F i) : pick i ⟨i, a⟩ = some a := by simp [pick]

theorem pick_eq {F : ι → Type} {i : ι} {x : Σ j, F j} {a : F i} (h : pick i x = some a) : x = ⟨i, a⟩ := by
  obtain ⟨j, b⟩ := x
  unfold pick at h
  split at h
  · rename_i e
    cases e
    cases h; rfl
  · cases h

/-- An object of a container with keys of type `K i` and values of type `V i`, in a memory that holds keys and values of
all the types.  (An array of links contains no keys or values, only addresses.) -/
def wrapObj (i : ι) : Obj (K i) (V i) → Obj (Σ j, K j) (Σ j, V j)
  | .links xs => .links xs
  | .kv k v => .kv (k.map (Sigma.mk i)) ⟨i, v⟩

/-- The object, if its types are `K i` and `V i`. -/
def unwrapObj (i : ι) : Obj (Σ j, K j) (Σ j, V j) → Option (Obj (K i) (V i))
  | .links xs => some (.links xs)
  | .kv none v => (pick i v).map (.kv none)
  | .kv (some k) v => (pick i k).bind fun k => (pick i v).map fun v => .kv (some k) v

theorem unwrap_wrap (i : ι) (o : Obj (K i) (V i)) : unwrapObj i (wrapObj i o) = some o := by
  cases o with
  | links xs => rfl
  | kv k v => cases k <;> simp [wrapObj, unwrapObj, pick_mk]

theorem wrap_unwrap {i : ι} {o : Obj (Σ j, K j) (Σ j, V j)} {o' : Obj (K i) (V i)} (h : unwrapObj i o = some o') : wrapObj i o' = o := by
  cases o with
  | links xs => cases h; rfl
  | kv k v =>
    cases k with
    | none =>
      simp only [unwrapObj, Option.map_eq_some_iff] at h
      obtain ⟨v', h1, rfl⟩ := h
      simp [wrapObj, pick_eq h1]
    | some k =>
      simp only [unwrapObj, Option.bind_eq_some_iff, Option.map_eq_some_iff] at h
      obtain ⟨k', h1, v', h2, rfl⟩ := h
      simp [wrapObj, pick_eq h1, pick_eq h2]

/-- What a container of kind `i` can see: the objects of its types. -/
def seeAs (i : ι) (s : St (Σ j, K j) (Σ j, V j)) : St (K i) (V i) :=
  { mem := fun a => (s.mem a).bind (unwrapObj i), next := s.next, roots := s.roots }

/-- A program of a container of kind `i`, run in a memory with objects of all types.  It reads and writes objects of its own
types; in the model, it faults if it comes across an object of other types (which in Go cannot happen, or would be a
violation of memory safety). -/
def within (i : ι) {α : Type} (x : M (K i) (V i) α) : M (Σ j, K j) (Σ j, V j) α := fun s =>
  match x (seeAs i s) with
  | .error e => .error e
  | .ok (a, s') => .ok (a, { mem := fun a => match s'.mem a with | some o => some (wrapObj i o) | none => s.mem a
                             next := s'.next, roots := s'.roots })

def viewAs (i : ι) : View (Σ j, K j) (Σ j, V j) (K i) (V i) :=
  ⟨seeAs i, fun _ => rfl, fun _ => rfl, fun h => by simp only [seeAs]; rw [h]⟩

/-- A step on the objects of one kind is a step in the whole memory. -/
theorem within_same {i : ι} {α : Type} {x y : M (K i) (V i) α} {h k : Nat} {φ : Ren} (hxy : Same h k φ EqR x y) (s : St (Σ j, K j) (Σ j, V j))
    (t : St (K i) (V i)) (hst : StR φ h k (seeAs i s) t) :
    Tied (fun s' t' => ∃ φ', Ren.Le φ φ' ∧ StR φ' h k (seeAs i s') t' ∧ Fr φ φ' h s s') (within i x s) (y t) := by
  have h1 := hxy _ t hst
  unfold within
  cases hx : x (seeAs i s) with
  | error e =>
    cases hy : y t with
    | error e' => rw [hx, hy] at h1; exact h1
    | ok r => rw [hx, hy] at h1; exact h1.elim
  | ok r =>
    obtain ⟨a, s1⟩ := r
    cases hy : y t with
    | error e' => rw [hx, hy] at h1; exact h1.elim
    | ok r' =>
      obtain ⟨b, t1⟩ := r'
      rw [hx, hy] at h1
      obtain ⟨φ', h2, h3, h4, h5⟩ := h1
      refine ⟨h4, φ', h2, ⟨h3.fn, h3.inj, fun {c d} hcd => ?_, h3.lt, h3.root, h3.fields⟩, h5.next, fun c hc hd => ?_, h5.roots, h5.new⟩
      · obtain ⟨o, o', g1, g2, g3⟩ := h3.obj hcd
        refine ⟨o, o', ?_, g2, g3⟩
        simp only [seeAs, g1]
        exact unwrap_wrap i o
      · have g := h5.mem c hc hd
        simp only
        cases hm : s1.mem c with
        | none => rfl
        | some o =>
          rw [hm] at g
          have g : some o = (s.mem c).bind (unwrapObj i) := g
          rw [eq_comm, Option.bind_eq_some_iff] at g
          obtain ⟨o', g1, g2⟩ := g
          rw [g1]
          exact congrArg some (wrap_unwrap g2)

end

/-! ### Maps and sets together -/

/-- Kinds of maps, and kinds of sets, each with its own types. -/
structure Lib (α β : Type) where
  Km : α → Type
  Vm : α → Type
  zero : ∀ a, Inhabited (Vm a)
  I : ∀ a, MapImpl (Km a) (Vm a)
  Ks : β → Type
  J : ∀ b, SetImpl (Ks b)

namespace Lib
variable {α β : Type} (L : Lib α β)

/-- The type of keys. -/
def K : α ⊕ β → Type
  | .inl a => L.Km a
  | .inr b => L.Ks b

/-- The type of values. -/
def V : α ⊕ β → Type
  | .inl a => L.Vm a
  | .inr _ => Unit

/-- The calls. -/
def Op : α ⊕ β → Type
  | .inl a => MOp (L.Km a) (L.Vm a)
  | .inr b => SOp (L.Ks b)

/-- What they return. -/
def Out : α ⊕ β → Type
  | .inl a => MOut (L.Km a) (L.Vm a)
  | .inr b => SOut (L.Ks b)

def exec (fuel : Nat) : ∀ i, Handle → L.Op i → M (L.K i) (L.V i) (L.Out i)
  | .inl a => letI := L.zero a; (L.I a).exec fuel
  | .inr b => (L.J b).exec fuel

def session (fuel : Nat) : ∀ i, Seed → List (L.Op i) → M (L.K i) (L.V i) (Handle × List (L.Out i))
  | .inl a => letI := L.zero a; (L.I a).session fuel
  | .inr b => (L.J b).session fuel

/-- A call on a container of kind `i`.  (A call of another kind does not type-check in Go.) -/
def call [DecidableEq (α ⊕ β)] (fuel : Nat) (i : α ⊕ β) (h : Handle) (op : Σ j, L.Op j) : M (L.K i) (L.V i) (Σ j, L.Out j) :=
  match pick i op with
  | none => M.fail .nilDeref
  | some op => L.exec fuel i h op >>= fun o => pure ⟨i, o⟩

theorem exec_blind {L : Lib α β} (hI : ∀ a, letI := L.zero a; ∃ g, IsMap (L.I a) g) (hJ : ∀ b, ∃ g, IsSet (L.J b) g) (fuel : Nat) (i : α ⊕ β) :
    BlindCall (L.exec fuel i) := by
  intro h k φ op
  cases i with
  | inl a =>
    obtain ⟨g, hg⟩ := hI a
    letI := L.zero a
    exact MapImpl.exec_same hg.blind fuel op
  | inr b =>
    obtain ⟨g, hg⟩ := hJ b
    exact SetImpl.exec_same hg.blind fuel op

theorem call_blind [DecidableEq (α ⊕ β)] {L : Lib α β} (hI : ∀ a, letI := L.zero a; ∃ g, IsMap (L.I a) g)
    (hJ : ∀ b, ∃ g, IsSet (L.J b) g) (fuel : Nat) (i : α ⊕ β) : BlindCall (L.call fuel i) := by
  intro h k φ op
  unfold call
  cases pick i op with
  | none => exact Same.fail _
  | some op =>
    refine Same.bind (exec_blind hI hJ fuel i h k φ op) fun φ' l a b e => ?_
    cases e
    exact Same.pure rfl

theorem calls_eq [DecidableEq (α ⊕ β)] (fuel : Nat) (i : α ⊕ β) (m : Handle) (ops : List (L.Op i)) :
    calls (L.call fuel i) m (ops.map (Sigma.mk i)) = calls (L.exec fuel i) m ops >>= fun os => pure (os.map (Sigma.mk i)) := by
  induction ops with
  | nil => rfl
  | cons op ops ih =>
    have : L.call fuel i m ⟨i, op⟩ = L.exec fuel i m op >>= fun o => pure ⟨i, o⟩ := by unfold call; rw [pick_mk]
    simp only [List.map_cons, calls, this, ih, bind_assoc_M, pure_bind_M]

theorem session_eq (fuel : Nat) (i : α ⊕ β) (sd : Seed) (ops : List (L.Op i)) (s : St (L.K i) (L.V i)) :
    answers (L.session fuel i sd ops s) = outcome (alone (L.exec fuel i) sd ops s) := by
  cases i with
  | inl a => letI := L.zero a; exact (L.I a).answers_eq fuel sd ops s
  | inr b => exact (L.J b).answers_eq fuel sd ops s

theorem alone_call [DecidableEq (α ⊕ β)] (fuel : Nat) (i : α ⊕ β) (sd : Seed) (ops : List (L.Op i)) (s : St (L.K i) (L.V i)) :
    outcome (alone (L.call fuel i) sd (ops.map (Sigma.mk i)) s) =
      match answers (L.session fuel i sd ops s) with | .error e => .error e | .ok os => .ok (os.map (Sigma.mk i)) := by
  rw [L.session_eq]
  obtain ⟨s', _, h1, _⟩ := newRoot_same sd s s
  unfold alone
  rw [bind_ok h1, bind_ok h1, L.calls_eq, bind_run]
  cases calls (L.exec fuel i) (some s.next) ops s' <;> rfl

end Lib

/-- A call by a program with containers of all kinds in one memory. -/
def Lib.exec' {α β : Type} [DecidableEq (α ⊕ β)] (L : Lib α β) (fuel : Nat) (i : α ⊕ β) (h : Handle) (op : Σ j, L.Op j) :
    M (Σ j, L.K j) (Σ j, L.V j) (Σ j, L.Out j) := within i (L.call fuel i h op)

theorem Lib.copies {α β : Type} [DecidableEq (α ⊕ β)] {L : Lib α β} (hI : ∀ a, letI := L.zero a; ∃ g, IsMap (L.I a) g)
    (hJ : ∀ b, ∃ g, IsSet (L.J b) g) (fuel : Nat) : Copies newRoot (L.exec' fuel) (L.call fuel) viewAs := by
  refine ⟨fun i sd s t => ?_, fun i h k φ op s t hst => within_same (call_blind hI hJ fuel i h k φ op) s t hst, fun i => call_blind hI hJ fuel i⟩
  obtain ⟨s', t', h1, h2, h3, h4, h5, h6⟩ := newRoot_same sd (seeAs i s) t
  refine ⟨_, t', rfl, h2, ?_, ?_, ?_, ?_⟩
  · cases h1
    refine ⟨h3.fn, h3.inj, fun {a b} hab => ?_, h3.lt, h3.root, h3.fields⟩
    obtain ⟨o, o', g1, g2, g3⟩ := h3.obj hab
    refine ⟨o, o', ?_, g2, g3⟩
    show (if a = s.next then _ else if a = s.next + 1 then _ else _ : Option (Obj _ _)).bind (unwrapObj i) = some o
    have g1 : (if a = s.next then some (.links [{ ptr := .blk (s.next + 1) }]) else if a = s.next + 1 then some (.links (List.replicate 16 {}))
      else (s.mem a).bind (unwrapObj i)) = some o := g1
    split
    · rw [if_pos ‹_›] at g1
      cases g1; rfl
    · rw [if_neg ‹_›] at g1
      split
      · rw [if_pos ‹_›] at g1
        cases g1; rfl
      · rw [if_neg ‹_›] at g1
        exact g1
  · show s.next ≤ s.next + 2
    omega
  · intro a ha
    show (if a = s.next then _ else if a = s.next + 1 then _ else _ : Option (Obj _ _)) = _
    rw [if_neg (by omega), if_neg (by omega)]
  · intro a ha
    show (if a = s.next then _ else _) = _
    rw [if_neg ha]

/-- C33, for every program with maps and sets of any types.  The program makes containers of the ten kinds, with any
types of keys and values, in one memory, copies them, and calls them.  If it returns, each container has returned
what it returns when it receives its calls alone, in any memory.  If it ends with a fault, one of the containers
ends with this fault when it receives its calls alone. -/
theorem C33_mixed {α β : Type} [DecidableEq (α ⊕ β)] (L : Lib α β) (hI : ∀ a, letI := L.zero a; ∃ g, IsMap (L.I a) g)
    (hJ : ∀ b, ∃ g, IsSet (L.J b) g) (fuel : Nat) (p : List (WOp (α ⊕ β) (Σ j, L.Op j))) (s : St (Σ j, L.K j) (Σ j, L.V j))
    (hdef : ∀ c ∈ trace (fun _ => none) 0 p, c.1 ≠ none)
    (hty : ∀ n i sd, (kinds p)[n]? = some (i, sd) → ∃ l : List (L.Op i), callsOf n (trace (fun _ => none) 0 p) = l.map (Sigma.mk i)) :
    (∀ os env s', wrun newRoot (L.exec' fuel) p (fun _ => none) s = .ok ((os, env), s') →
      os.length = (trace (fun _ => none) 0 p).length ∧ ∀ n i sd, (kinds p)[n]? = some (i, sd) →
        ∀ l : List (L.Op i), callsOf n (trace (fun _ => none) 0 p) = l.map (Sigma.mk i) → ∀ s₀, ∃ os',
          outsOf n (trace (fun _ => none) 0 p) os = os'.map (Sigma.mk i) ∧ answers (L.session fuel i sd l s₀) = .ok os') ∧
    ∀ e, wrun newRoot (L.exec' fuel) p (fun _ => none) s = .error e → ∃ n i sd, ∃ l : List (L.Op i), (kinds p)[n]? = some (i, sd) ∧
      callsOf n (trace (fun _ => none) 0 p) = l.map (Sigma.mk i) ∧ ∀ s₀, answers (L.session fuel i sd l s₀) = .error e := by
  have main := world_alone (Lib.copies hI hJ fuel) p s hdef
  refine ⟨fun os env s' h => ?_, fun e h => ?_⟩
  · obtain ⟨h1, h2⟩ := main.1 os env s' h
    refine ⟨h1, fun n i sd hn l hl s₀ => ?_⟩
    have h3 := h2 n i sd hn s₀
    rw [hl, L.alone_call] at h3
    cases h4 : answers (L.session fuel i sd l s₀) with
    | error e => rw [h4] at h3; cases h3
    | ok os' => rw [h4] at h3; exact ⟨os', (Except.ok.inj h3).symm, rfl⟩
  · obtain ⟨n, i, sd, hn, h1⟩ := main.2 e h
    obtain ⟨l, hl⟩ := hty n i sd hn
    refine ⟨n, i, sd, l, hn, hl, fun s₀ => ?_⟩
    have h3 := h1 s₀
    rw [hl, L.alone_call] at h3
    cases h4 : answers (L.session fuel i sd l s₀) with
    | error e' => rw [h4] at h3; cases h3; rfl
    | ok os' => rw [h4] at h3; cases h3

/-! ### A case -/

/-- A string map of numbers and an integer set. -/
def exLib : Lib Unit Unit where
  Km _ := ByteStr
  Vm _ := Nat
  zero _ := inferInstance
  I _ := StringMap toyHash
  Ks _ := IntKey
  J _ := IntSet toyHash

/-- Both are used, in turn. -/
def exMixed : List (WOp (Unit ⊕ Unit) (Σ j, exLib.Op j)) :=
  [.new 0 (.inl ()) 0#64, .new 1 (.inr ()) 0#64, .call 0 ⟨.inl (), .set [1] (10 : Nat)⟩, .call 1 ⟨.inr (), .add 1#64⟩,
   .call 0 ⟨.inl (), .set [0x11] (11 : Nat)⟩, .call 1 ⟨.inr (), .add 17#64⟩, .call 1 ⟨.inr (), .del 1#64⟩, .copy 0 2,
   .call 2 ⟨.inl (), .get [1]⟩, .call 1 ⟨.inr (), .has 17#64⟩]

example : (match wrun newRoot (exLib.exec' 256) exMixed (fun _ => none) St.init with | .ok r => r.1.1.length | .error _ => 0) = 7 := by
  decide +kernel

example := C33_mixed exLib (fun _ => ⟨false, (IsMap.string toyHash : IsMap (StringMap toyHash : MapImpl ByteStr Nat) false)⟩) (fun _ => ⟨_, .int toyHash⟩) 256 exMixed St.init (by decide +kernel)
  (fun n i sd h => by
    rcases n with _ | _ | n
    · cases h
      exact ⟨[.set [1] (10 : Nat), .set [0x11] (11 : Nat), .get [1]], rfl⟩
    · cases h
      exact ⟨[.add 1#64, .add 17#64, .del 1#64, .has 17#64], rfl⟩
    · simp [kinds, exMixed] at h)

end Amt
