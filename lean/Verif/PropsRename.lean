/-
What a container returns depends on nothing but its seed and the calls it receives: not on the memory in which it is
created (C62), and not on the other containers of the program (C33, for every program).
-/
import Verif.Rename
import Verif.PropsWorld
import Verif.PropsAny

set_option linter.unusedVariables false
set_option linter.unusedSectionVars false

namespace Spec

/-- What a client sees of a computation: the result, or the fault. -/
def outcome {ε α σ : Type} : Except ε (α × σ) → Except ε α
  | .error e => .error e
  | .ok r => .ok r.1

/-- What a client sees of a session: what the calls return, or the fault.  (The container itself is a pointer.) -/
def answers {ε α β σ : Type} : Except ε ((α × β) × σ) → Except ε β
  | .error e => .error e
  | .ok r => .ok r.1.2

end Spec

namespace Amt
open Spec

section
variable {K V : Type} {h k : Nat} {φ : Ren}

/-! ### The calls -/

theorem Same.derefs {m n : Nat} : Same h k φ (fun _ a b => a = m ∧ b = n) (deref (some m) : M K V Nat) (deref (some n)) := Same.pure ⟨rfl, rfl⟩

/-- A program that may rely on the correspondence of the roots. -/
theorem Same.of_root {α β : Type} {RA : Ren → α → β → Prop} {x : M K V α} {y : M K V β} (hs : φ h k → Same h k φ RA x y) : Same h k φ RA x y :=
  fun s t hst => hs hst.root s t hst

/-- A new cell. -/
theorem Same.cell {R : Type} (c : Cfg K) (key : K) (v : V) (r : R) :
    Same h k φ CellR (Amt.newKv c key v >>= fun p => Pure.pure (p, r) : M K V (Ptr × R)) (Amt.newKv c key v >>= fun p => Pure.pure (p, r)) :=
  Same.bind (Same.newKv c key v) fun φ' l p q hpq => Same.pure ⟨hpq, rfl⟩

theorem InsR.set (c : Cfg K) (chash : Chash K) (g : Bool) (key : K) (v : V) : InsR h k (setIns c chash g key v) :=
  ⟨fun hp => Same.storeVal hp v, Same.cell c key v (), Same.cell c key v ()⟩

theorem InsR.setArr [Inhabited V] (c : Cfg K) (chash : Chash K) (key : K) (v : V) : InsR h k (setInsArr c chash key v) :=
  ⟨fun hp => Same.storeVal hp v, Same.cell c key _ (), Same.cell c key v ()⟩

theorem InsR.mod [Inhabited V] (c : Cfg K) (chash : Chash K) (g : Bool) (key : K) (f : V → Bool → V) : InsR h k (modIns c chash g key f) :=
  ⟨fun hp => Same.bind (Same.loadKv hp) fun φ' l a b e => by
      cases e
      exact Same.bind (Same.storeVal (hp.mono l) _) fun φ'' l' _ _ _ => Same.pure rfl,
    Same.cell c key _ _, Same.cell c key _ _⟩

theorem InsR.add (c : Cfg K) (chash : Chash K) (key : K) : InsR h k (addIns c chash key) :=
  ⟨fun hp => Same.pure rfl, Same.cell c key () (), Same.cell c key () ()⟩

/-- A map whose insertions do not depend on addresses. -/
structure MapImpl.Blind [Inhabited V] (I : MapImpl K V) : Prop where
  set : ∀ h k key v, InsR h k (I.setI key v)
  mod : ∀ h k key f, InsR h k (I.modI key f)

def SetImpl.Blind (I : SetImpl K) : Prop := ∀ h k key, InsR h k (I.addI key)

end

theorem IsMap.blind {K V : Type} [Inhabited V] {I : MapImpl K V} {g : Bool} (hI : IsMap I g) : I.Blind := by
  cases hI with
  | string sum => exact ⟨fun _ _ _ _ => .set .., fun _ _ _ _ => .mod ..⟩
  | bytes sum => exact ⟨fun _ _ _ _ => .set .., fun _ _ _ _ => .mod ..⟩
  | arr sum kb => exact ⟨fun _ _ _ _ => .setArr .., fun _ _ _ _ => .mod ..⟩
  | int sum => exact ⟨fun _ _ _ _ => .set .., fun _ _ _ _ => .mod ..⟩
  | generic J => exact ⟨fun _ _ _ _ => .set .., fun _ _ _ _ => .mod ..⟩

theorem IsSet.blind {K : Type} {I : SetImpl K} {g : Bool} (hI : IsSet I g) : I.Blind := by
  cases hI <;> exact fun _ _ _ => .add ..

section
variable {K V : Type} {h k : Nat}

theorem MapImpl.Ptr_same [Inhabited V] (I : MapImpl K V) (fuel : Nat) (key : K) {φ : Ren} :
    Same h k φ OptPtrR (I.Ptr fuel (some h) key) (I.Ptr fuel (some k) key) := by
  refine Same.of_root fun hr => ?_
  unfold MapImpl.Ptr
  refine Same.bind Same.derefs fun φ' l a b e => ?_
  obtain ⟨rfl, rfl⟩ := e
  exact Same.lookup I.cfg (l _ _ hr) fuel key

/-- One call, on two copies of a container. -/
theorem MapImpl.exec_same [Inhabited V] {I : MapImpl K V} (hI : I.Blind) (fuel : Nat) (op : MOp K V) {φ : Ren} :
    Same h k φ EqR (I.exec fuel (some h) op) (I.exec fuel (some k) op) := by
  refine Same.of_root fun hr => ?_
  have ptr : ∀ {α : Type} (key : K) {f g : Option Amt.Ptr → M K V α}, (∀ φ', Same h k φ' EqR (f none) (g none)) →
      (∀ φ' p q, PtrR φ' p q → Same h k φ' EqR (f (some p)) (g (some q))) →
      Same h k φ EqR (I.Ptr fuel (some h) key >>= f) (I.Ptr fuel (some k) key >>= g) := by
    intro α key f g h1 h2
    refine Same.bind (I.Ptr_same fuel key) fun φ' l p q hpq => ?_
    cases p <;> cases q
    · exact h1 φ'
    · exact hpq.elim
    · exact hpq.elim
    · exact h2 φ' _ _ hpq
  cases op with
  | get key =>
    show Same h k φ EqR ((I.Ptr fuel (some h) key >>= _) >>= _) ((I.Ptr fuel (some k) key >>= _) >>= _)
    rw [bind_assoc_M, bind_assoc_M]
    refine ptr key (fun φ' => Same.pure rfl) fun φ' p q hpq => ?_
    refine Same.bind (RA := EqR) (Same.bind (Same.loadKv hpq) fun φ'' l a b e => ?_) fun φ'' l a b e => ?_
    · cases e; exact Same.pure rfl
    · cases e; exact Same.pure rfl
  | val key =>
    show Same h k φ EqR ((I.Ptr fuel (some h) key >>= _) >>= _) ((I.Ptr fuel (some k) key >>= _) >>= _)
    rw [bind_assoc_M, bind_assoc_M]
    refine ptr key (fun φ' => Same.pure rfl) fun φ' p q hpq => ?_
    refine Same.bind (RA := EqR) (Same.bind (Same.loadKv hpq) fun φ'' l a b e => ?_) fun φ'' l a b e => ?_
    · cases e; exact Same.pure rfl
    · cases e; exact Same.pure rfl
  | ptr key =>
    refine ptr key (fun φ' => Same.pure rfl) fun φ' p q hpq => ?_
    refine Same.bind (Same.loadKv hpq) fun φ'' l a b e => ?_
    cases e; exact Same.pure rfl
  | set key v =>
    refine Same.bind (RA := EqR) (Same.bind Same.derefs fun φ' l a b e => ?_) fun φ'' l a b e => Same.pure rfl
    obtain ⟨rfl, rfl⟩ := e
    exact Same.upsert I.cfg (l _ _ hr) fuel key (hI.set _ _ key v)
  | mod key f =>
    refine Same.bind (RA := EqR) (Same.bind Same.derefs fun φ' l a b e => ?_) fun φ'' l a b e => by cases e; exact Same.pure rfl
    obtain ⟨rfl, rfl⟩ := e
    exact Same.upsert I.cfg (l _ _ hr) fuel key (hI.mod _ _ key f)
  | del key =>
    refine Same.bind (RA := EqR) (Same.bind Same.derefs fun φ' l a b e => ?_) fun φ'' l a b e => Same.pure rfl
    obtain ⟨rfl, rfl⟩ := e
    exact Same.delete I.cfg (l _ _ hr) fuel I.delSkip key
  | len =>
    refine Same.bind (RA := EqR) (Same.bind Same.getRoot fun φ' l a b e => ?_) fun φ'' l a b e => by cases e; exact Same.pure rfl
    cases e; exact Same.pure rfl
  | dep =>
    refine Same.bind (RA := EqR) (Same.bind Same.getRoot fun φ' l a b e => ?_) fun φ'' l a b e => by cases e; exact Same.pure rfl
    cases e
    exact Same.ite (fun _ => Same.pure rfl) fun _ => Same.pure rfl
  | write key v =>
    refine ptr key (fun φ' => Same.pure rfl) fun φ' p q hpq => ?_
    exact Same.bind (Same.storeVal hpq v) fun φ'' l a b e => Same.pure rfl
  | all f =>
    refine Same.bind (RA := EqR) (Same.bind Same.derefs fun φ' l a b e => ?_) fun φ'' l a b e => by cases e; exact Same.pure rfl
    obtain ⟨rfl, rfl⟩ := e
    refine Same.bind (Same.scan (fun u x y hxy => Same.visitMap I.cfg _ u hxy) fuel _ (RefR.at 0 (.blk (l _ _ hr)))) fun φ'' l a b e => ?_
    cases e; exact Same.pure rfl

theorem SetImpl.exec_same {I : SetImpl K} (hI : I.Blind) (fuel : Nat) (op : SOp K) {φ : Ren} :
    Same h k φ EqR (I.exec fuel (some h) op) (I.exec fuel (some k) op) := by
  refine Same.of_root fun hr => ?_
  cases op with
  | has key =>
    refine Same.bind (RA := EqR) (Same.bind Same.derefs fun φ' l a b e => ?_) fun φ'' l a b e => by cases e; exact Same.pure rfl
    obtain ⟨rfl, rfl⟩ := e
    refine Same.bind (Same.lookup I.cfg (l _ _ hr) fuel key) fun φ' l p q hpq => Same.pure ?_
    cases p <;> cases q
    · rfl
    · exact hpq.elim
    · exact hpq.elim
    · rfl
  | add key =>
    refine Same.bind (RA := EqR) (Same.bind Same.derefs fun φ' l a b e => ?_) fun φ'' l a b e => Same.pure rfl
    obtain ⟨rfl, rfl⟩ := e
    exact Same.upsert I.cfg (l _ _ hr) fuel key (hI _ _ key)
  | del key =>
    refine Same.bind (RA := EqR) (Same.bind Same.derefs fun φ' l a b e => ?_) fun φ'' l a b e => Same.pure rfl
    obtain ⟨rfl, rfl⟩ := e
    exact Same.delete I.cfg (l _ _ hr) fuel I.delSkip key
  | len =>
    refine Same.bind (RA := EqR) (Same.bind Same.getRoot fun φ' l a b e => ?_) fun φ'' l a b e => by cases e; exact Same.pure rfl
    cases e; exact Same.pure rfl
  | dep =>
    refine Same.bind (RA := EqR) (Same.bind Same.getRoot fun φ' l a b e => ?_) fun φ'' l a b e => by cases e; exact Same.pure rfl
    cases e
    exact Same.ite (fun _ => Same.pure rfl) fun _ => Same.pure rfl
  | all f =>
    refine Same.bind (RA := EqR) (Same.bind Same.derefs fun φ' l a b e => ?_) fun φ'' l a b e => by cases e; exact Same.pure rfl
    obtain ⟨rfl, rfl⟩ := e
    refine Same.bind (Same.scan (fun u x y hxy => Same.visitSet I.cfg _ u hxy) fuel _ (RefR.at 0 (.blk (l _ _ hr)))) fun φ'' l a b e => ?_
    cases e; exact Same.pure rfl

end

/-! ### Creation -/

section
variable {K V : Type}

/-- The two objects of a new container. -/
def Ren.start (a b : Nat) : Ren := fun x y => (x = a ∧ y = b) ∨ (x = a + 1 ∧ y = b + 1)

theorem newRoot_same (sd : Seed) (s t : St K V) : ∃ s' t', newRoot sd s = .ok (some s.next, s') ∧ newRoot sd t = .ok (some t.next, t') ∧
    StR (Ren.start s.next t.next) s.next t.next s' t' ∧ s.next ≤ s'.next ∧ (∀ a, a < s.next → s'.mem a = s.mem a) ∧
    ∀ a, a ≠ s.next → s'.roots a = s.roots a := by
  refine ⟨_, _, rfl, rfl, ⟨?_, ?_, ?_, ?_, Or.inl ⟨rfl, rfl⟩, ?_⟩, ?_, ?_, ?_⟩
  · rintro a b b' (⟨h1, h2⟩ | ⟨h1, h2⟩) (⟨h3, h4⟩ | ⟨h3, h4⟩) <;> omega
  · rintro a b b' (⟨h1, h2⟩ | ⟨h1, h2⟩) (⟨h3, h4⟩ | ⟨h3, h4⟩) <;> omega
  · rintro a b (⟨rfl, rfl⟩ | ⟨rfl, rfl⟩)
    · refine ⟨_, _, if_pos rfl, if_pos rfl, .links rfl fun i x y hx hy => ?_⟩
      rcases i with _ | i
      · cases hx; cases hy
        exact ⟨.blk (Or.inr ⟨rfl, rfl⟩), rfl, rfl⟩
      · simp at hx
    · refine ⟨.links (List.replicate 16 {}), .links (List.replicate 16 {}), ?_, ?_, .links rfl fun i x y hx hy => ?_⟩
      · show (if _ then _ else if _ then _ else _) = _; rw [if_neg (by omega), if_pos rfl]
      · show (if _ then _ else if _ then _ else _) = _; rw [if_neg (by omega), if_pos rfl]
      · rw [List.getElem?_replicate] at hx hy
        split at hx
        · rw [if_pos ‹_›] at hy
          cases hx; cases hy
          exact ⟨.nil, rfl, rfl⟩
        · cases hx
  · rintro a b (⟨rfl, rfl⟩ | ⟨rfl, rfl⟩) <;> simp only <;> omega
  · simp only [if_true]
  · simp only; omega
  · intro a ha; simp only; rw [if_neg (by omega), if_neg (by omega)]
  · intro a ha; simp only; rw [if_neg ha]

/-! ### C62: the memory does not matter -/

section
variable {Op Out ι : Type}

/-- Calls on one container. -/
def calls (exec : Handle → Op → M K V Out) (m : Handle) : List Op → M K V (List Out)
  | [] => pure []
  | op :: ops => exec m op >>= fun o => calls exec m ops >>= fun os => pure (o :: os)

/-- A container that is used alone. -/
def alone (exec : Handle → Op → M K V Out) (sd : Seed) (ops : List Op) : M K V (List Out) :=
  newRoot sd >>= fun m => calls exec m ops

/-- A call does the same on every copy of the container. -/
def BlindCall (exec : Handle → Op → M K V Out) : Prop := ∀ h k φ op, Same h k φ EqR (exec (some h) op) (exec (some k) op)

theorem calls_same {exec : Handle → Op → M K V Out} (he : BlindCall exec) {h k : Nat} (ops : List Op) :
    ∀ {φ : Ren}, Same h k φ EqR (calls exec (some h) ops) (calls exec (some k) ops) := by
  induction ops with
  | nil => intro φ; exact Same.pure rfl
  | cons op ops ih =>
    intro φ
    refine Same.bind (he h k φ op) fun φ' l a b e => Same.bind ih fun φ'' l' as bs es => ?_
    cases e; cases es; exact Same.pure rfl

theorem OutR.outcome {α : Type} {φ : Ren} {h k : Nat} {s : St K V} {x y : Except Fault (α × St K V)} (hxy : OutR φ h k s EqR x y) :
    outcome x = outcome y := by
  rcases x with e | ⟨a, s'⟩ <;> rcases y with e' | ⟨b, t'⟩
  · exact congrArg Except.error hxy
  · exact hxy.elim
  · exact hxy.elim
  · obtain ⟨_, _, _, h1, _⟩ := hxy
    exact congrArg Except.ok h1

theorem alone_same {exec : Handle → Op → M K V Out} (he : BlindCall exec) (sd : Seed) (ops : List Op) (s t : St K V) :
    outcome (alone exec sd ops s) = outcome (alone exec sd ops t) := by
  obtain ⟨s', t', h1, h2, h3, _⟩ := newRoot_same sd s t
  unfold alone
  rw [bind_ok h1, bind_ok h2]
  exact (calls_same he ops s' t' h3).outcome

end

theorem MapImpl.run_eq [Inhabited V] (I : MapImpl K V) (fuel : Nat) (m : Handle) (ops : List (MOp K V)) :
    I.run fuel m ops = calls (I.exec fuel) m ops := by
  induction ops with
  | nil => rfl
  | cons op ops ih => unfold MapImpl.run calls; rw [ih]

theorem SetImpl.run_eq (I : SetImpl K) (fuel : Nat) (m : Handle) (ops : List (SOp K)) :
    I.run fuel m ops = calls (I.exec fuel) m ops := by
  induction ops with
  | nil => rfl
  | cons op ops ih => unfold SetImpl.run calls; rw [ih]

theorem MapImpl.answers_eq [Inhabited V] (I : MapImpl K V) (fuel : Nat) (sd : Seed) (ops : List (MOp K V)) (s : St K V) :
    answers (I.session fuel sd ops s) = outcome (alone (I.exec fuel) sd ops s) := by
  unfold MapImpl.session alone
  show answers ((newRoot sd >>= fun m => I.run fuel m ops >>= fun os => pure (m, os)) s) = outcome ((newRoot sd >>= fun m => calls (I.exec fuel) m ops) s)
  obtain ⟨s', _, h1, _⟩ := newRoot_same sd s s
  rw [bind_ok h1, bind_ok h1, I.run_eq, bind_run]
  cases calls (I.exec fuel) (some s.next) ops s' <;> rfl

theorem SetImpl.answers_eq (I : SetImpl K) (fuel : Nat) (sd : Seed) (ops : List (SOp K)) (s : St K Unit) :
    answers (I.session fuel sd ops s) = outcome (alone (I.exec fuel) sd ops s) := by
  unfold SetImpl.session alone
  show answers ((newRoot sd >>= fun m => I.run fuel m ops >>= fun os => pure (m, os)) s) = outcome ((newRoot sd >>= fun m => calls (I.exec fuel) m ops) s)
  obtain ⟨s', _, h1, _⟩ := newRoot_same sd s s
  rw [bind_ok h1, bind_ok h1, I.run_eq, bind_run]
  cases calls (I.exec fuel) (some s.next) ops s' <;> rfl

/-- C62.  The answers of a map to any history, faults included, do not depend on the memory in which it is created. -/
theorem C62_map [Inhabited V] {I : MapImpl K V} {g : Bool} (hI : IsMap I g) (fuel : Nat) (sd : Seed) (ops : List (MOp K V)) (s s₀ : St K V) :
    answers (I.session fuel sd ops s) = answers (I.session fuel sd ops s₀) := by
  rw [I.answers_eq, I.answers_eq]
  exact alone_same (fun h k φ op => MapImpl.exec_same hI.blind fuel op) sd ops s s₀

/-- C62 for sets. -/
theorem C62_set {I : SetImpl K} {g : Bool} (hI : IsSet I g) (fuel : Nat) (sd : Seed) (ops : List (SOp K)) (s s₀ : St K Unit) :
    answers (I.session fuel sd ops s) = answers (I.session fuel sd ops s₀) := by
  rw [I.answers_eq, I.answers_eq]
  exact alone_same (fun h k φ op => SetImpl.exec_same hI.blind fuel op) sd ops s s₀

end

/-! ### C33: the other containers do not matter -/

section
variable {K V ι Op Out : Type} {K' V' : ι → Type}

/-- A container of the program, and its copy in a memory of its own. -/
structure Twin (ι : Type) (K' V' : ι → Type) where
  i : ι
  h : Nat
  φ : Ren
  k : Nat
  t : St (K' i) (V' i)

/-- What containers of kind `i` see of a memory: address by address, the objects of their kind. -/
structure View (K V K' V' : Type) where
  see : St K V → St K' V'
  next : ∀ s, (see s).next = s.next
  roots : ∀ s, (see s).roots = s.roots
  mem : ∀ {s s' : St K V} {a}, s.mem a = s'.mem a → (see s).mem a = (see s').mem a

/-- A memory in which all objects are of the same kind. -/
def View.all (K V : Type) : View K V K V := ⟨id, fun _ => rfl, fun _ => rfl, id⟩

/-- The same result or fault, and corresponding memories. -/
def Tied {α σ τ : Type} (R : σ → τ → Prop) : Except Fault (α × σ) → Except Fault (α × τ) → Prop
  | .error e, .error e' => e = e'
  | .ok (a, s), .ok (b, t) => a = b ∧ R s t
  | _, _ => False

/-- What the program does with a container is what the calls do with its copy. -/
structure Copies (new : Seed → M K V Handle) (exec : ι → Handle → Op → M K V Out) (exec' : ∀ i, Handle → Op → M (K' i) (V' i) Out)
    (view : ∀ i, View K V (K' i) (V' i)) : Prop where
  new : ∀ i sd s t, ∃ s' t', new sd s = .ok (some s.next, s') ∧ newRoot sd t = .ok (some t.next, t') ∧
    StR (Ren.start s.next t.next) s.next t.next ((view i).see s') t' ∧ s.next ≤ s'.next ∧ (∀ a, a < s.next → s'.mem a = s.mem a) ∧
    ∀ a, a ≠ s.next → s'.roots a = s.roots a
  call : ∀ i h k φ op s t, StR φ h k ((view i).see s) t →
    Tied (fun s' t' => ∃ φ', Ren.Le φ φ' ∧ StR φ' h k ((view i).see s') t' ∧ Fr φ φ' h s s') (exec i (some h) op s) (exec' i (some k) op t)
  blind : ∀ i, BlindCall (exec' i)

/-- What the calls of a program return, if the containers are independent.  `n` containers exist already. -/
def Indep (exec : ∀ i, Handle → Op → M (K' i) (V' i) Out) (p : List (WOp ι Op)) (env : Nat → Option Nat) (n : Nat) (obj : Nat → Twin ι K' V') :
    Except Fault (List Out) → Prop
  | .ok os => os.length = (trace env n p).length ∧
    (∀ j, j < n → outcome (calls (exec (obj j).i) (some (obj j).k) (callsOf j (trace env n p)) (obj j).t) = .ok (outsOf j (trace env n p) os)) ∧
    ∀ j i sd, (kinds p)[j]? = some (i, sd) → ∀ s₀, outcome (alone (exec i) sd (callsOf (n + j) (trace env n p)) s₀) = .ok (outsOf (n + j) (trace env n p) os)
  | .error e => (∃ j, j < n ∧ outcome (calls (exec (obj j).i) (some (obj j).k) (callsOf j (trace env n p)) (obj j).t) = .error e) ∨
    ∃ j i sd, (kinds p)[j]? = some (i, sd) ∧ ∀ s₀, outcome (alone (exec i) sd (callsOf (n + j) (trace env n p)) s₀) = .error e

/-- What the calls of a program return. -/
def outsOfRun {E σ : Type} : Except Fault ((List Out × E) × σ) → Except Fault (List Out)
  | .error e => .error e
  | .ok r => .ok r.1.1

theorem outcome_ok {α σ ε : Type} {x : Except ε (α × σ)} {a : α} (h : outcome x = .ok a) : ∃ s, x = .ok (a, s) := by
  rcases x with e | ⟨b, s⟩
  · cases h
  · exact ⟨s, by cases h; rfl⟩

theorem outcome_error {α σ ε : Type} {x : Except ε (α × σ)} {e : ε} (h : outcome x = .error e) : x = .error e := by
  rcases x with e | ⟨b, s⟩
  · cases h; rfl
  · cases h

theorem calls_step {exec : Handle → Op → M K V Out} {m : Handle} {op : Op} {ops : List Op} {t t' : St K V} {o : Out}
    (h : exec m op t = .ok (o, t')) : outcome (calls exec m (op :: ops) t) =
      match outcome (calls exec m ops t') with | .error e => .error e | .ok os => .ok (o :: os) := by
  show outcome ((exec m op >>= fun o => calls exec m ops >>= fun os => pure (o :: os)) t) = _
  rw [bind_ok h, bind_run]
  cases calls exec m ops t' <;> rfl

theorem View.lt {L W : Type} (v : View K V L W) {φ : Ren} {h k : Nat} {s : St K V} {t : St L W} (hr : StR φ h k (v.see s) t) {a b : Nat}
    (hab : φ a b) : a < s.next := by
  have := (hr.lt hab).1
  rwa [v.next] at this

/-- Nothing happens to the copied objects. -/
theorem View.frame {L W : Type} (v : View K V L W) {φ : Ren} {h k : Nat} {s s' : St K V} {t : St L W} (hr : StR φ h k (v.see s) t)
    (hm : ∀ a b, φ a b → s'.mem a = s.mem a) (hs : s'.roots h = s.roots h) (hn : s.next ≤ s'.next) : StR φ h k (v.see s') t := by
  refine ⟨hr.fn, hr.inj, fun {a b} hab => ?_, fun {a b} hab => ⟨?_, (hr.lt hab).2⟩, hr.root, ?_⟩
  · rw [v.mem (hm a b hab)]; exact hr.obj hab
  · rw [v.next]; exact Nat.lt_of_lt_of_le (v.lt hr hab) hn
  · rw [v.roots, hs, ← v.roots]; exact hr.fields

theorem world_twins {new : Seed → M K V Handle} {exec : ι → Handle → Op → M K V Out} {exec' : ∀ i, Handle → Op → M (K' i) (V' i) Out}
    {view : ∀ i, View K V (K' i) (V' i)} (he : Copies new exec exec' view) (p : List (WOp ι Op)) :
    ∀ {s : St K V} {env : Nat → Option Nat} {cenv : Nat → Option (ι × Handle)} {n : Nat} {obj : Nat → Twin ι K' V'},
    (∀ x j, env x = some j → j < n ∧ cenv x = some ((obj j).i, some (obj j).h)) →
    (∀ j, j < n → StR (obj j).φ (obj j).h (obj j).k ((view (obj j).i).see s) (obj j).t) →
    (∀ j l, j < n → l < n → j ≠ l → ∀ a b b', (obj j).φ a b → ¬ (obj l).φ a b') →
    (∀ c ∈ trace env n p, c.1 ≠ none) →
    Indep exec' p env n obj (outsOfRun (wrun new exec p cenv s)) := by
  induction p with
  | nil =>
    intro s env cenv n obj _ _ _ _
    exact ⟨rfl, fun j _ => rfl, fun j i sd h => by simp [kinds] at h⟩
  | cons o p ih =>
    intro s env cenv n obj henv hR hap hdef
    cases o with
    | copy x y =>
      simp only [trace, wrun] at *
      have := ih (obj := obj) (s := s) (env := assign env y (env x)) (cenv := assign cenv y (cenv x)) (n := n) (fun z j hz => ?_) hR hap hdef
      · revert this
        cases outsOfRun (wrun new exec p (assign cenv y (cenv x)) s) <;> exact id
      · unfold assign at hz ⊢
        split
        · rename_i h; rw [if_pos h] at hz; exact henv x j hz
        · rename_i h; rw [if_neg h] at hz; exact henv z j hz
    | new x i sd =>
      simp only [trace, wrun] at *
      -- a copy in an arbitrary memory
      have main : ∀ s₀ : St (K' i) (V' i), Indep exec' p (assign env x (some n)) (n + 1)
          (fun j => if j < n then obj j else ⟨i, s.next, Ren.start s.next s₀.next, s₀.next, (Amt.newRoot sd s₀ |>.toOption.map (·.2)).getD s₀⟩)
          (outsOfRun ((new sd >>= fun h => wrun new exec p (assign cenv x (some (i, h)))) s)) := by
        intro s₀
        obtain ⟨s1, t1, e1, e2, r1, n1, m1, q1⟩ := he.new i sd s s₀
        rw [bind_ok e1, e2]
        show Indep exec' p (assign env x (some n)) (n + 1) (fun j => if j < n then obj j else ⟨i, s.next, Ren.start s.next s₀.next, s₀.next, t1⟩) _
        have hlt : ∀ j, j < n → (if j < n then obj j else ⟨i, s.next, Ren.start s.next s₀.next, s₀.next, t1⟩) = obj j := fun j hj => if_pos hj
        have hn : (if n < n then obj n else ⟨i, s.next, Ren.start s.next s₀.next, s₀.next, t1⟩) = ⟨i, s.next, Ren.start s.next s₀.next, s₀.next, t1⟩ :=
          if_neg (Nat.lt_irrefl n)
        refine ih (s := s1) (fun z j hz => ?_) (fun j hj => ?_) (fun j l hj hl hjl a b b' h1 h2 => ?_) hdef
        · unfold assign at hz ⊢
          split
          · rename_i h
            rw [if_pos h] at hz
            cases hz
            exact ⟨by omega, by rw [hn]⟩
          · rename_i h
            rw [if_neg h] at hz
            obtain ⟨a1, a2⟩ := henv z j hz
            exact ⟨by omega, by rw [a2, hlt j a1]⟩
        · by_cases hjn : j < n
          · rw [hlt j hjn]
            have hr := hR j hjn
            refine View.frame _ hr (fun a b hab => m1 a (View.lt _ hr hab)) (q1 _ ?_) n1
            have := View.lt _ hr hr.root; omega
          · have : j = n := by omega
            subst this
            rw [hn]; exact r1
        · by_cases hjn : j < n <;> by_cases hln : l < n
          · rw [hlt j hjn] at h1; rw [hlt l hln] at h2; exact hap j l hjn hln hjl a b b' h1 h2
          · have : l = n := by omega
            subst this
            rw [hlt j hjn] at h1; rw [hn] at h2
            have := View.lt _ (hR j hjn) h1
            rcases h2 with ⟨h2, _⟩ | ⟨h2, _⟩ <;> omega
          · have : j = n := by omega
            subst this
            rw [hlt l hln] at h2; rw [hn] at h1
            have := View.lt _ (hR l hln) h2
            rcases h1 with ⟨h1, _⟩ | ⟨h1, _⟩ <;> omega
          · omega
      have hal : ∀ (s₀ : St (K' i) (V' i)) (ops : List Op), outcome (alone (exec' i) sd ops s₀) =
          outcome (calls (exec' i) (some s₀.next) ops ((Amt.newRoot sd s₀ |>.toOption.map (·.2)).getD s₀)) := fun s₀ ops => rfl
      have hn : ∀ s₀ : St (K' i) (V' i), (if n < n then obj n else (⟨i, s.next, Ren.start s.next s₀.next, s₀.next, (Amt.newRoot sd s₀ |>.toOption.map (·.2)).getD s₀⟩ : Twin ι K' V')) =
          ⟨i, s.next, Ren.start s.next s₀.next, s₀.next, (Amt.newRoot sd s₀ |>.toOption.map (·.2)).getD s₀⟩ := fun s₀ => if_neg (Nat.lt_irrefl n)
      cases hres : outsOfRun ((new sd >>= fun h => wrun new exec p (assign cenv x (some (i, h)))) s) with
      | error e =>
        rw [hres] at main
        simp only [Indep, kinds, trace] at main ⊢
        rcases main St.init with ⟨j, hj, h1⟩ | ⟨j, i', sd', hj, h1⟩
        · by_cases hjn : j < n
          · rw [if_pos hjn] at h1
            exact Or.inl ⟨j, hjn, h1⟩
          · have : j = n := by omega
            subst this
            rw [hn] at h1
            refine Or.inr ⟨0, i, sd, rfl, fun s₀ => ?_⟩
            rw [alone_same (he.blind i) sd _ s₀ St.init]
            exact h1
        · refine Or.inr ⟨j + 1, i', sd', by rw [List.getElem?_cons_succ]; exact hj, fun s₀ => ?_⟩
          rw [show n + (j + 1) = n + 1 + j from by omega]; exact h1 s₀
      | ok os =>
        rw [hres] at main
        simp only [Indep, kinds, trace] at main ⊢
        refine ⟨(main St.init).1, fun j hj => ?_, fun j i' sd' hj s₀ => ?_⟩
        · have := (main St.init).2.1 j (by omega)
          rw [if_pos hj] at this; exact this
        · cases j with
          | zero =>
            cases hj
            have := (main s₀).2.1 n (by omega)
            rw [hn] at this; exact this
          | succ j =>
            rw [List.getElem?_cons_succ] at hj
            have := (main St.init).2.2 j i' sd' hj s₀
            rw [show n + 1 + j = n + (j + 1) from by omega] at this; exact this
    | call x op =>
      simp only [trace] at hdef
      cases hx : env x with
      | none => exact absurd hx (hdef _ (List.mem_cons_self ..))
      | some l =>
        obtain ⟨hl, hck⟩ := henv x l hx
        have hs := he.call (obj l).i (obj l).h (obj l).k (obj l).φ op s (obj l).t (hR l hl)
        simp only [wrun, hck]
        rw [bind_run]
        cases e1 : exec (obj l).i (some (obj l).h) op s with
        | error e =>
          cases e2 : exec' (obj l).i (some (obj l).k) op (obj l).t with
          | ok r => rw [e1, e2] at hs; exact hs.elim
          | error e' =>
            rw [e1, e2] at hs
            have hs : e = e' := hs
            subst hs
            refine Or.inl ⟨l, hl, ?_⟩
            simp only [trace, hx]
            rw [callsOf_cons, if_pos rfl]
            unfold calls
            rw [bind_err e2]; rfl
        | ok r =>
          obtain ⟨o, s1⟩ := r
          cases e2 : exec' (obj l).i (some (obj l).k) op (obj l).t with
          | error e' => rw [e1, e2] at hs; exact hs.elim
          | ok r =>
            obtain ⟨o', t1⟩ := r
            rw [e1, e2] at hs
            obtain ⟨ho, φ', hle, hst, hfr⟩ := hs
            have ho : o = o' := ho
            subst ho
            dsimp only
            have hll : assign obj l { obj l with φ := φ', t := t1 } l = { obj l with φ := φ', t := t1 } := by simp [assign]
            have hlo : ∀ j, j ≠ l → assign obj l { obj l with φ := φ', t := t1 } j = obj j := fun j hj => by simp [assign, hj]
            have main := ih (s := s1) (env := env) (cenv := cenv) (n := n) (obj := assign obj l { obj l with φ := φ', t := t1 })
              (fun z j hz => by
                obtain ⟨h1, h2⟩ := henv z j hz
                refine ⟨h1, ?_⟩
                by_cases hjl : j = l
                · subst hjl; rw [hll]; exact h2
                · rw [hlo j hjl]; exact h2)
              (fun j hj => by
                by_cases hjl : j = l
                · subst hjl; rw [hll]; exact hst
                · rw [hlo j hjl]
                  have hr := hR j hj
                  have hdis : ∀ a b, (obj j).φ a b → ∀ b', ¬ (obj l).φ a b' := fun a b h1 b' => hap j l hj hl hjl a b b' h1
                  refine View.frame _ hr (fun a b hab => hfr.mem a (View.lt _ hr hab) (hdis a b hab)) (hfr.roots _ ?_) hfr.next
                  intro h
                  exact hdis _ _ hr.root (obj l).k (h ▸ (hR l hl).root))
              (fun j m hj hm hjm a b b' h1 h2 => by
                by_cases hjl : j = l
                · subst hjl
                  rw [hll] at h1; rw [hlo m (Ne.symm hjm)] at h2
                  rcases hfr.new a b h1 with h3 | h3
                  · exact hap j m hj hm hjm a b b' h3 h2
                  · have := View.lt _ (hR m hm) h2; omega
                · rw [hlo j hjl] at h1
                  by_cases hml : m = l
                  · subst hml
                    rw [hll] at h2
                    rcases hfr.new a b' h2 with h3 | h3
                    · exact hap j m hj hm hjm a b b' h1 h3
                    · have := View.lt _ (hR j hj) h1; omega
                  · rw [hlo m hml] at h2
                    exact hap j m hj hm hjm a b b' h1 h2)
              (fun c hc => hdef c (List.mem_cons_of_mem _ hc))
            rw [bind_run]
            cases e3 : wrun new exec p cenv s1 with
            | error e =>
              rw [e3] at main
              simp only [outsOfRun, Indep, trace, kinds, hx] at main ⊢
              rcases main with ⟨j, hj, h1⟩ | ⟨j, i', sd', hj, h1⟩
              · refine Or.inl ⟨j, hj, ?_⟩
                rw [callsOf_cons]
                by_cases hjl : j = l
                · subst hjl
                  rw [hll] at h1
                  rw [if_pos rfl, calls_step e2, h1]
                · rw [hlo j hjl] at h1
                  rw [if_neg (fun h => hjl (Option.some.inj h).symm)]; exact h1
              · refine Or.inr ⟨j, i', sd', hj, fun s₀ => ?_⟩
                rw [callsOf_cons, if_neg (fun h => by have := Option.some.inj h; omega)]; exact h1 s₀
            | ok r =>
              rw [e3] at main
              simp only [outsOfRun, Indep, trace, kinds, hx] at main ⊢
              obtain ⟨h1, h2, h3⟩ := main
              refine ⟨by simp [h1], fun j hj => ?_, fun j i' sd' hj s₀ => ?_⟩
              · rw [callsOf_cons, outsOf_cons]
                have := h2 j hj
                by_cases hjl : j = l
                · subst hjl
                  rw [hll] at this
                  rw [if_pos rfl, if_pos rfl, calls_step e2, this]
                · rw [hlo j hjl] at this
                  rw [if_neg (fun h => hjl (Option.some.inj h).symm), if_neg (fun h => hjl (Option.some.inj h).symm)]; exact this
              · rw [callsOf_cons, outsOf_cons, if_neg (fun h => by have := Option.some.inj h; omega),
                  if_neg (fun h => by have := Option.some.inj h; omega)]
                exact h3 j i' sd' hj s₀

/-- Programs that start with no containers. -/
theorem world_alone {new : Seed → M K V Handle} {exec : ι → Handle → Op → M K V Out} {exec' : ∀ i, Handle → Op → M (K' i) (V' i) Out}
    {view : ∀ i, View K V (K' i) (V' i)} (he : Copies new exec exec' view) (p : List (WOp ι Op)) (s : St K V)
    (hdef : ∀ c ∈ trace (fun _ => none) 0 p, c.1 ≠ none) :
    (∀ os env s', wrun new exec p (fun _ => none) s = .ok ((os, env), s') → os.length = (trace (fun _ => none) 0 p).length ∧
      ∀ n i sd, (kinds p)[n]? = some (i, sd) → ∀ s₀,
        outcome (alone (exec' i) sd (callsOf n (trace (fun _ => none) 0 p)) s₀) = .ok (outsOf n (trace (fun _ => none) 0 p) os)) ∧
    ∀ e, wrun new exec p (fun _ => none) s = .error e → ∃ n i sd, (kinds p)[n]? = some (i, sd) ∧
      ∀ s₀, outcome (alone (exec' i) sd (callsOf n (trace (fun _ => none) 0 p)) s₀) = .error e := by
  by_cases hi : Nonempty ι
  · obtain ⟨i₀⟩ := hi
    have main := world_twins he p (s := s) (env := fun _ => none) (cenv := fun _ => none) (n := 0)
      (obj := fun _ => ⟨i₀, 0, fun _ _ => False, 0, St.init⟩) (fun x j h => by cases h) (fun j h => by omega) (fun j l h => by omega) hdef
    refine ⟨fun os env s' h => ?_, fun e h => ?_⟩
    · rw [h] at main
      obtain ⟨h1, _, h3⟩ := main
      refine ⟨h1, fun n i sd hn s₀ => ?_⟩
      have := h3 n i sd hn s₀
      rwa [Nat.zero_add] at this
    · rw [h] at main
      rcases main with ⟨j, hj, _⟩ | ⟨n, i, sd, hn, h1⟩
      · omega
      · refine ⟨n, i, sd, hn, fun s₀ => ?_⟩
        have := h1 s₀
        rwa [Nat.zero_add] at this
  · have hk : ∀ (p : List (WOp ι Op)) (cenv : Nat → Option (ι × Handle)), (∀ c ∈ trace (fun _ => none) 0 p, c.1 ≠ none) →
        ∃ cenv', wrun new exec p cenv s = .ok (([], cenv'), s) ∧ trace (fun _ => none) 0 p = [] ∧ kinds p = [] := by
      intro p
      induction p with
      | nil => intro cenv _; exact ⟨cenv, rfl, rfl, rfl⟩
      | cons o p ih =>
        intro cenv hd
        cases o with
        | new x i sd => exact absurd ⟨i⟩ hi
        | copy x y =>
          simp only [trace, kinds, wrun] at *
          have : assign (fun _ : Nat => (none : Option Nat)) y none = fun _ => none := by
            funext z; simp [assign]
          rw [this] at hd ⊢
          exact ih _ hd
        | call x op => exact absurd rfl (hd _ (List.mem_cons_self ..))
    obtain ⟨cenv', h1, h2, h3⟩ := hk p (fun _ => none) hdef
    refine ⟨fun os env s' h => ?_, fun e h => ?_⟩
    · rw [h1] at h
      cases h
      refine ⟨by rw [h2]; rfl, fun n i sd hn => ?_⟩
      rw [h3] at hn; simp at hn
    · rw [h1] at h; cases h

/-- Containers that share their types of keys and values. -/
theorem BlindCall.copies {exec : ι → Handle → Op → M K V Out} (he : ∀ i, BlindCall (exec i)) :
    Copies newRoot exec exec fun _ => View.all K V :=
  ⟨fun i sd s t => newRoot_same sd s t, fun i h k φ op s t hst => by
    have := he i h k φ op s t hst
    unfold OutR at this
    revert this
    cases exec i (some h) op s <;> cases exec i (some k) op t
    · exact id
    · exact id
    · exact id
    · rintro ⟨φ', h1, h2, h3, h4⟩
      exact ⟨h3, φ', h1, h2, h4⟩, he⟩

end

section
variable {K V ι : Type}

/-- C33, for every program.  Take any program with any number of maps, of any of the five kinds, in one memory, that calls
only variables it has assigned.  If the program returns, then each map has returned what it returns when it receives
its calls alone, in any memory.  If the program ends with a fault, then one of the maps ends with this fault when it
receives its calls alone.  (So a program returns if and only if each map alone returns.) -/
theorem C33_map_any [Inhabited V] (I : ι → MapImpl K V) (hI : ∀ i, ∃ g, IsMap (I i) g) (fuel : Nat) (p : List (WOp ι (MOp K V))) (s s₀ : St K V)
    (hdef : ∀ c ∈ trace (fun _ => none) 0 p, c.1 ≠ none) :
    (∀ os env s', wrun MapImpl.New (fun i h op => (I i).exec fuel h op) p (fun _ => none) s = .ok ((os, env), s') →
      os.length = (trace (fun _ => none) 0 p).length ∧ ∀ n i sd, (kinds p)[n]? = some (i, sd) →
        answers ((I i).session fuel sd (callsOf n (trace (fun _ => none) 0 p)) s₀) = .ok (outsOf n (trace (fun _ => none) 0 p) os)) ∧
    ∀ e, wrun MapImpl.New (fun i h op => (I i).exec fuel h op) p (fun _ => none) s = .error e → ∃ n i sd, (kinds p)[n]? = some (i, sd) ∧
      answers ((I i).session fuel sd (callsOf n (trace (fun _ => none) 0 p)) s₀) = .error e := by
  simp only [MapImpl.answers_eq]
  have main := world_alone (BlindCall.copies (exec := fun i => (I i).exec fuel) fun i h k φ op => ?_) p s hdef
  · refine ⟨fun os env s' h => ?_, fun e h => ?_⟩
    · obtain ⟨h1, h2⟩ := main.1 os env s' h
      exact ⟨h1, fun n i sd hn => h2 n i sd hn s₀⟩
    · obtain ⟨n, i, sd, hn, h1⟩ := main.2 e h
      exact ⟨n, i, sd, hn, h1 s₀⟩
  obtain ⟨g, hg⟩ := hI i
  exact MapImpl.exec_same hg.blind fuel op

/-- C33 for sets, for every program. -/
theorem C33_set_any (I : ι → SetImpl K) (hI : ∀ i, ∃ g, IsSet (I i) g) (fuel : Nat) (p : List (WOp ι (SOp K))) (s s₀ : St K Unit)
    (hdef : ∀ c ∈ trace (fun _ => none) 0 p, c.1 ≠ none) :
    (∀ os env s', wrun SetImpl.New (fun i h op => (I i).exec fuel h op) p (fun _ => none) s = .ok ((os, env), s') →
      os.length = (trace (fun _ => none) 0 p).length ∧ ∀ n i sd, (kinds p)[n]? = some (i, sd) →
        answers ((I i).session fuel sd (callsOf n (trace (fun _ => none) 0 p)) s₀) = .ok (outsOf n (trace (fun _ => none) 0 p) os)) ∧
    ∀ e, wrun SetImpl.New (fun i h op => (I i).exec fuel h op) p (fun _ => none) s = .error e → ∃ n i sd, (kinds p)[n]? = some (i, sd) ∧
      answers ((I i).session fuel sd (callsOf n (trace (fun _ => none) 0 p)) s₀) = .error e := by
  simp only [SetImpl.answers_eq]
  have main := world_alone (BlindCall.copies (exec := fun i => (I i).exec fuel) fun i h k φ op => ?_) p s hdef
  · refine ⟨fun os env s' h => ?_, fun e h => ?_⟩
    · obtain ⟨h1, h2⟩ := main.1 os env s' h
      exact ⟨h1, fun n i sd hn => h2 n i sd hn s₀⟩
    · obtain ⟨n, i, sd, hn, h1⟩ := main.2 e h
      exact ⟨n, i, sd, hn, h1 s₀⟩
  obtain ⟨g, hg⟩ := hI i
  exact SetImpl.exec_same hg.blind fuel op

end

/-! ### Cases -/

/-- A string map and a byte map, with keys in common. -/
example := C33_map_any (stringAndBytes toyHash Nat).I (fun i => match i with | false => ⟨_, .string toyHash⟩ | true => ⟨_, .bytes toyHash⟩) 256 exWorld
  St.init St.init exWorld_ok.1

/-- Two generic maps whose `Hash` is constant, so that the second one hangs on its second key; the first one is not affected. -/
def exHang : List (WOp Unit (MOp Nat Nat)) :=
  [.new 0 () 0#64, .call 0 (.set 1 10), .new 1 () 0#64, .call 1 (.set 1 20), .call 0 (.get 1), .call 1 (.set 2 21), .call 0 (.get 1)]

def exHangImpl : MapImpl Nat Nat := GenericMap ⟨fun a b => decide (a = b), fun _ _ _ => 0#64⟩

def isHang {α : Type} : Except Fault α → Bool
  | .error .diverge => true
  | _ => false

theorem isHang_iff {α : Type} {x : Except Fault α} (h : isHang x = true) : x = .error .diverge := by
  unfold isHang at h
  split at h
  · rfl
  · cases h

theorem exHang_faults : wrun MapImpl.New (fun _ h op => exHangImpl.exec 24 h op) exHang (fun _ => none) St.init = .error .diverge :=
  isHang_iff (by decide +kernel)

example := (C33_map_any (fun _ : Unit => exHangImpl) (fun _ => ⟨_, .generic _⟩) 24 exHang St.init St.init (by decide +kernel)).2 _ exHang_faults

/-- The memory of `s` is full of other things. -/
example (s : St ByteStr Nat) := C62_map (IsMap.string toyHash) 256 0#64 [.set [1] 10, .set [0x11] 11, .get [1]] s St.init

example (s : St IntKey Unit) := C62_set (IsSet.int toyHash) 256 0#64 [.add 1#64, .add 0x100000001#64, .has 1#64] s St.init

end Amt
