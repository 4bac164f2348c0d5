/-
The accesses to memory that a program performs, counted.
-/
import Verif.ParHist

set_option linter.unusedVariables false
set_option linter.unusedSectionVars false

namespace Amt.Par
open Amt

/-- What is counted: the weights of an access to a word of a link, to a cell, to the fields of the root, and of an allocation. -/
structure Price where
  link : Nat
  cell : Nat
  root : Nat
  new : Nat

/-- Every access counts. -/
def Price.access : Price := ⟨1, 1, 1, 1⟩

/-- Allocations count. -/
def Price.alloc : Price := ⟨0, 0, 0, 1⟩

section
variable {K V α β : Type}

/-- What running the program alone in the memory `s` costs. -/
def T.cost (w : Price) : T K V α → St K V → Nat
  | .ret _, _ => 0
  | .fail _, _ => 0
  | .load r k, s => w.link + match Amt.load r s with | .ok (x, s') => (k x).cost w s' | .error _ => 0
  | .store r x k, s => w.link + match Amt.store r x s with | .ok (_, s') => k.cost w s' | .error _ => 0
  | .put r x k, s => w.link + match modLink r x.put s with | .ok (_, s') => k.cost w s' | .error _ => 0
  | .alloc o k, s => w.new + match Amt.alloc o s with | .ok (p, s') => (k p).cost w s' | .error _ => 0
  | .loadKv p k, s => w.cell + match Amt.loadKv p s with | .ok (x, s') => (k x).cost w s' | .error _ => 0
  | .storeVal p v k, s => w.cell + match Amt.storeVal p v s with | .ok (_, s') => k.cost w s' | .error _ => 0
  | .getRoot h k, s => w.root + match Amt.getRoot h s with | .ok (x, s') => (k x).cost w s' | .error _ => 0
  | .modRoot h f k, s => w.root + match Amt.modRoot h f s with | .ok (_, s') => k.cost w s' | .error _ => 0

/-- With the credit `p` the program can be paid for, whatever it reads, and when it returns `a`, the credit `Φ a` is left. -/
def T.Pays (w : Price) : T K V α → Nat → (α → Nat) → Prop
  | .ret a, p, Φ => Φ a ≤ p
  | .fail _, _, _ => True
  | .load _ k, p, Φ => w.link ≤ p ∧ ∀ x, (k x).Pays w (p - w.link) Φ
  | .store _ _ k, p, Φ => w.link ≤ p ∧ k.Pays w (p - w.link) Φ
  | .put _ _ k, p, Φ => w.link ≤ p ∧ k.Pays w (p - w.link) Φ
  | .alloc _ k, p, Φ => w.new ≤ p ∧ ∀ x, (k x).Pays w (p - w.new) Φ
  | .loadKv _ k, p, Φ => w.cell ≤ p ∧ ∀ x, (k x).Pays w (p - w.cell) Φ
  | .storeVal _ _ k, p, Φ => w.cell ≤ p ∧ k.Pays w (p - w.cell) Φ
  | .getRoot _ k, p, Φ => w.root ≤ p ∧ ∀ x, (k x).Pays w (p - w.root) Φ
  | .modRoot _ _ k, p, Φ => w.root ≤ p ∧ k.Pays w (p - w.root) Φ

variable {w : Price}

theorem T.Pays.cost {Φ : α → Nat} : ∀ {t : T K V α} {p : Nat}, t.Pays w p Φ → ∀ s, t.cost w s ≤ p := by
  intro t
  induction t with
  | ret a => intro p h s; exact Nat.zero_le _
  | fail e => intro p h s; exact Nat.zero_le _
  | load r k ih =>
    intro p h s; unfold T.cost
    cases Amt.load r s with
    | error e => exact h.1
    | ok x => have := ih _ (h.2 x.1) x.2; have := h.1; dsimp only; omega
  | store r x k ih =>
    intro p h s; unfold T.cost
    cases Amt.store r x s with
    | error e => exact h.1
    | ok x => have := ih h.2 x.2; have := h.1; dsimp only; omega
  | put r x k ih =>
    intro p h s; unfold T.cost
    cases modLink r x.put s with
    | error e => exact h.1
    | ok x => have := ih h.2 x.2; have := h.1; dsimp only; omega
  | alloc r k ih =>
    intro p h s; unfold T.cost
    cases Amt.alloc r s with
    | error e => exact h.1
    | ok x => have := ih _ (h.2 x.1) x.2; have := h.1; dsimp only; omega
  | loadKv r k ih =>
    intro p h s; unfold T.cost
    cases Amt.loadKv r s with
    | error e => exact h.1
    | ok x => have := ih _ (h.2 x.1) x.2; have := h.1; dsimp only; omega
  | storeVal r x k ih =>
    intro p h s; unfold T.cost
    cases Amt.storeVal r x s with
    | error e => exact h.1
    | ok x => have := ih h.2 x.2; have := h.1; dsimp only; omega
  | getRoot r k ih =>
    intro p h s; unfold T.cost
    cases Amt.getRoot r s with
    | error e => exact h.1
    | ok x => have := ih _ (h.2 x.1) x.2; have := h.1; dsimp only; omega
  | modRoot r x k ih =>
    intro p h s; unfold T.cost
    cases Amt.modRoot r x s with
    | error e => exact h.1
    | ok x => have := ih h.2 x.2; have := h.1; dsimp only; omega

namespace Pays

theorem bind {Φ : α → Nat} {Ψ : β → Nat} {f : α → T K V β} (hf : ∀ a, (f a).Pays w (Φ a) Ψ) :
    ∀ {t : T K V α} {p : Nat}, t.Pays w p Φ → (t >>= f).Pays w p Ψ := by
  have mono : ∀ {t : T K V β} {p q : Nat}, p ≤ q → t.Pays w p Ψ → t.Pays w q Ψ := by
    intro t
    induction t with
    | ret a => exact fun h h' => Nat.le_trans h' h
    | fail e => exact fun _ _ => trivial
    | load r k ih => exact fun h h' => ⟨Nat.le_trans h'.1 h, fun x => ih x (Nat.sub_le_sub_right h _) (h'.2 x)⟩
    | store r x k ih => exact fun h h' => ⟨Nat.le_trans h'.1 h, ih (Nat.sub_le_sub_right h _) h'.2⟩
    | put r x k ih => exact fun h h' => ⟨Nat.le_trans h'.1 h, ih (Nat.sub_le_sub_right h _) h'.2⟩
    | alloc r k ih => exact fun h h' => ⟨Nat.le_trans h'.1 h, fun x => ih x (Nat.sub_le_sub_right h _) (h'.2 x)⟩
    | loadKv r k ih => exact fun h h' => ⟨Nat.le_trans h'.1 h, fun x => ih x (Nat.sub_le_sub_right h _) (h'.2 x)⟩
    | storeVal r x k ih => exact fun h h' => ⟨Nat.le_trans h'.1 h, ih (Nat.sub_le_sub_right h _) h'.2⟩
    | getRoot r k ih => exact fun h h' => ⟨Nat.le_trans h'.1 h, fun x => ih x (Nat.sub_le_sub_right h _) (h'.2 x)⟩
    | modRoot r x k ih => exact fun h h' => ⟨Nat.le_trans h'.1 h, ih (Nat.sub_le_sub_right h _) h'.2⟩
  intro t
  show ∀ {p : Nat}, t.Pays w p Φ → (T.bind t f).Pays w p Ψ
  induction t with
  | ret a => exact fun h => mono h (hf a)
  | fail e => exact fun _ => trivial
  | load r k ih => exact fun h => ⟨h.1, fun x => ih x (h.2 x)⟩
  | store r x k ih => exact fun h => ⟨h.1, ih h.2⟩
  | put r x k ih => exact fun h => ⟨h.1, ih h.2⟩
  | alloc r k ih => exact fun h => ⟨h.1, fun x => ih x (h.2 x)⟩
  | loadKv r k ih => exact fun h => ⟨h.1, fun x => ih x (h.2 x)⟩
  | storeVal r x k ih => exact fun h => ⟨h.1, ih h.2⟩
  | getRoot r k ih => exact fun h => ⟨h.1, fun x => ih x (h.2 x)⟩
  | modRoot r x k ih => exact fun h => ⟨h.1, ih h.2⟩

variable {Φ : α → Nat} {Ψ : β → Nat} {p : Nat}

theorem ret {a : α} (h : Φ a ≤ p) : T.Pays (K := K) (V := V) w (Pure.pure a) p Φ := h
theorem fail (e : Fault) : T.Pays (K := K) (V := V) w (.fail e) p Φ := trivial
theorem load (r : Ref) {f : Link → T K V β} (h : 3 * w.link ≤ p) (hf : ∀ x, (f x).Pays w (p - 3 * w.link) Ψ) : (Par.load r >>= f).Pays w p Ψ :=
  ⟨by omega, fun x => ⟨by omega, fun y => ⟨by omega, fun z => by
    rw [show p - w.link - w.link - w.link = p - 3 * w.link by omega]; exact hf _⟩⟩⟩
theorem store (r : Ref) (x : Link) {f : Unit → T K V β} (h : 3 * w.link ≤ p) (hf : (f ()).Pays w (p - 3 * w.link) Ψ) : (Par.store r x >>= f).Pays w p Ψ :=
  ⟨by omega, by omega, by omega, by
    rw [show p - w.link - w.link - w.link = p - 3 * w.link by omega]; exact hf⟩
theorem setPtr (r : Ref) (x : Ptr) {f : Unit → T K V β} (h : w.link ≤ p) (hf : (f ()).Pays w (p - w.link) Ψ) : (Par.setPtr r x >>= f).Pays w p Ψ := ⟨h, hf⟩
theorem setPmap (r : Ref) (x : BitVec 32) {f : Unit → T K V β} (h : w.link ≤ p) (hf : (f ()).Pays w (p - w.link) Ψ) : (Par.setPmap r x >>= f).Pays w p Ψ := ⟨h, hf⟩
theorem setTmap (r : Ref) (x : BitVec 32) {f : Unit → T K V β} (h : w.link ≤ p) (hf : (f ()).Pays w (p - w.link) Ψ) : (Par.setTmap r x >>= f).Pays w p Ψ := ⟨h, hf⟩
theorem alloc (o : Obj K V) {f : Ptr → T K V β} (h : w.new ≤ p) (hf : ∀ x, (f x).Pays w (p - w.new) Ψ) : (Par.alloc o >>= f).Pays w p Ψ := ⟨h, hf⟩
theorem storeVal (q : Ptr) (v : V) {f : Unit → T K V β} (h : w.cell ≤ p) (hf : (f ()).Pays w (p - w.cell) Ψ) : (Par.storeVal q v >>= f).Pays w p Ψ := ⟨h, hf⟩
theorem getRoot (b : Nat) {f : Meta → T K V β} (h : w.root ≤ p) (hf : ∀ x, (f x).Pays w (p - w.root) Ψ) : (Par.getRoot b >>= f).Pays w p Ψ := ⟨h, hf⟩
theorem modLen (b : Nat) (g : BitVec 64 → BitVec 64) {f : Unit → T K V β} (h : 2 * w.root ≤ p) (hf : (f ()).Pays w (p - 2 * w.root) Ψ) : (Par.modLen b g >>= f).Pays w p Ψ :=
  ⟨by omega, fun _ => ⟨by omega, by rw [show p - w.root - w.root = p - 2 * w.root by omega]; exact hf⟩⟩
theorem modDep (b : Nat) (g : BitVec 64 → BitVec 64) {f : Unit → T K V β} (h : 2 * w.root ≤ p) (hf : (f ()).Pays w (p - 2 * w.root) Ψ) : (Par.modDep b g >>= f).Pays w p Ψ :=
  ⟨by omega, fun _ => ⟨by omega, by rw [show p - w.root - w.root = p - 2 * w.root by omega]; exact hf⟩⟩
theorem deref (m : Handle) {f : Nat → T K V β} (hf : ∀ x, (f x).Pays w p Ψ) : (Par.deref m >>= f).Pays w p Ψ := by
  cases m with
  | none => trivial
  | some b => exact hf b
theorem newLinkArray (c : BitVec 8) {f : Ptr → T K V β} (h : w.new ≤ p) (hf : ∀ x, (f x).Pays w (p - w.new) Ψ) : (Par.newLinkArray c >>= f).Pays w p Ψ := by
  unfold Par.newLinkArray
  split
  · exact ⟨h, hf⟩
  · split
    · exact ⟨h, hf⟩
    · split
      · exact ⟨h, hf⟩
      · exact ⟨h, hf⟩
theorem kvKey (q : Ptr) {f : K → T K V β} (h : w.cell ≤ p) (hf : ∀ x, (f x).Pays w (p - w.cell) Ψ) : (Par.kvKey q >>= f).Pays w p Ψ := by
  refine ⟨h, fun x => ?_⟩
  rcases x with ⟨_ | k, v⟩
  · trivial
  · exact hf k
theorem kvVal (q : Ptr) {f : V → T K V β} (h : w.cell ≤ p) (hf : ∀ x, (f x).Pays w (p - w.cell) Ψ) : (Par.kvVal q >>= f).Pays w p Ψ := ⟨h, fun x => hf x.2⟩
theorem fieldAddr (q : Ptr) {f : Ptr → T K V β} (hf : ∀ x, (f x).Pays w p Ψ) : (Par.fieldAddr q >>= f).Pays w p Ψ := by
  cases q with
  | nil => trivial
  | blk b => exact hf _
theorem ofRoot (h : Nat) (l : List PathLink) {f : Slice → T K V β} (hf : ∀ x, (f x).Pays w p Ψ) : (Slice.ofRootT h l >>= f).Pays w p Ψ := hf _
theorem linkAt (q : Slice) (d : BitVec 8) {f : Ref → T K V β} (hf : ∀ x, (f x).Pays w p Ψ) : (q.linkAtT d >>= f).Pays w p Ψ := by
  unfold Slice.linkAtT
  rcases q.view[d.toNat]? with _ | ⟨_, _ | _⟩
  · trivial
  · exact hf _
  · exact hf _
theorem radixAt (q : Slice) (d : BitVec 8) {f : BitVec 8 → T K V β} (hf : ∀ x, (f x).Pays w p Ψ) : (q.radixAtT d >>= f).Pays w p Ψ := by
  unfold Slice.radixAtT
  rcases q.view[d.toNat]? with _ | ⟨_, _⟩
  · trivial
  · exact hf _
theorem clearAt (q : Slice) (d : BitVec 8) {f : Slice → T K V β} (hf : ∀ x, (f x).Pays w p Ψ) : (q.clearAtT d >>= f).Pays w p Ψ := by
  unfold Slice.clearAtT
  split
  · cases q.big with
    | none => exact hf _
    | some b => exact hf _
  · trivial

theorem ite {c : Prop} {i : Decidable c} {t u : T K V α} (h : c → t.Pays w p Φ) (h' : ¬c → u.Pays w p Φ) : T.Pays w (if c then t else u) p Φ := by
  by_cases hc : c
  · rw [if_pos hc]; exact h hc
  · rw [if_neg hc]; exact h' hc

theorem iteB {c : Prop} {i : Decidable c} {t u : T K V α} {f : α → T K V β} (h : c → (t >>= f).Pays w p Ψ) (h' : ¬c → (u >>= f).Pays w p Ψ) :
    T.Pays w ((if c then t else u) >>= f) p Ψ := by
  by_cases hc : c
  · rw [if_pos hc]; exact h hc
  · rw [if_neg hc]; exact h' hc

theorem retB {a : α} {f : α → T K V β} (h : (f a).Pays w p Ψ) : T.Pays w (Pure.pure a >>= f) p Ψ := h

theorem bind_assoc {γ : Type} (t : T K V α) (f : α → T K V β) (g : β → T K V γ) : ((t >>= f) >>= g) = (t >>= fun a => f a >>= g) := by
  show T.bind (T.bind t f) g = T.bind t fun a => T.bind (f a) g
  induction t with
  | ret a => rfl
  | fail e => rfl
  | load r k ih => simp only [T.bind, ih]
  | store r x k ih => simp only [T.bind, ih]
  | put r x k ih => simp only [T.bind, ih]
  | alloc r k ih => simp only [T.bind, ih]
  | loadKv r k ih => simp only [T.bind, ih]
  | storeVal r x k ih => simp only [T.bind, ih]
  | getRoot r k ih => simp only [T.bind, ih]
  | modRoot r x k ih => simp only [T.bind, ih]

/-- A loop whose state `s`, with `n` rounds left, is worth the credit `I n s`. -/
theorem loop {σ : Type} {g : σ → T K V (ForInStep σ)} {Φ : σ → Nat} (I : Nat → σ → Nat)
    (h : ∀ n s, (g s).Pays w (I (n + 1) s) fun r => match r with | .done s => Φ s | .yield s => I n s) : ∀ n s, (Par.loop g n s).Pays w (I n s) Φ
  | 0, _ => trivial
  | n + 1, s => bind (fun r => by
    cases r with
    | done s => exact Nat.le_refl _
    | yield s => exact loop I h n s) (h n s)

theorem forIn {σ : Type} {g : Unit → σ → T K V (ForInStep σ)} (b : Go.Budget) (s : σ) {f : σ → T K V β} (I : Nat → σ → Nat) (Φ : σ → Nat) (hI : I b.n s ≤ p)
    (h : ∀ n s, (g () s).Pays w (I (n + 1) s) fun r => match r with | .done s => Φ s | .yield s => I n s) (hf : ∀ s, (f s).Pays w (Φ s) Ψ) :
    (ForIn.forIn b s g >>= f).Pays w p Ψ :=
  bind (t := ForIn.forIn b s g) (Φ := Φ) hf (mono hI (loop I h b.n s))
where
  mono {t : T K V σ} {p q : Nat} (h : p ≤ q) (h' : t.Pays w p Φ) : t.Pays w q Φ := by
    exact bind (t := (Pure.pure () : T K V Unit)) (Φ := fun _ => p) (f := fun _ => t) (fun _ => h') h

end Pays

/-! ### Fewer rounds -/

/-- `u` does what `t` does, and goes on where `t` runs out of rounds. -/
inductive Le : T K V α → T K V α → Prop where
  | ret (a : α) : Le (.ret a) (.ret a)
  | out (u : T K V α) : Le (.fail .diverge) u
  | fail (e : Fault) : Le (.fail e) (.fail e)
  | load (r : Ref) {k k' : Link → T K V α} (h : ∀ x, Le (k x) (k' x)) : Le (.load r k) (.load r k')
  | store (r : Ref) (x : Link) {k k' : T K V α} (h : Le k k') : Le (.store r x k) (.store r x k')
  | put (r : Ref) (x : Word) {k k' : T K V α} (h : Le k k') : Le (.put r x k) (.put r x k')
  | alloc (o : Obj K V) {k k' : Ptr → T K V α} (h : ∀ x, Le (k x) (k' x)) : Le (.alloc o k) (.alloc o k')
  | loadKv (q : Ptr) {k k' : Option K × V → T K V α} (h : ∀ x, Le (k x) (k' x)) : Le (.loadKv q k) (.loadKv q k')
  | storeVal (q : Ptr) (v : V) {k k' : T K V α} (h : Le k k') : Le (.storeVal q v k) (.storeVal q v k')
  | getRoot (b : Nat) {k k' : Meta → T K V α} (h : ∀ x, Le (k x) (k' x)) : Le (.getRoot b k) (.getRoot b k')
  | modRoot (b : Nat) (g : Meta → Meta) {k k' : T K V α} (h : Le k k') : Le (.modRoot b g k) (.modRoot b g k')

namespace Le

theorem refl : ∀ t : T K V α, Le t t
  | .ret a => .ret a
  | .fail e => .fail e
  | .load r k => .load r fun x => refl (k x)
  | .store r x k => .store r x (refl k)
  | .put r x k => .put r x (refl k)
  | .alloc r k => .alloc r fun x => refl (k x)
  | .loadKv r k => .loadKv r fun x => refl (k x)
  | .storeVal r x k => .storeVal r x (refl k)
  | .getRoot r k => .getRoot r fun x => refl (k x)
  | .modRoot r x k => .modRoot r x (refl k)

theorem bind {t t' : T K V α} {f f' : α → T K V β} (h : Le t t') (hf : ∀ a, Le (f a) (f' a)) : Le (t >>= f) (t' >>= f') := by
  show Le (T.bind t f) (T.bind t' f')
  induction h with
  | ret a => exact hf a
  | out u => exact .out _
  | fail e => exact .fail e
  | load r _ ih => exact .load r ih
  | store r x _ ih => exact .store r x ih
  | put r x _ ih => exact .put r x ih
  | alloc r _ ih => exact .alloc r ih
  | loadKv r _ ih => exact .loadKv r ih
  | storeVal r x _ ih => exact .storeVal r x ih
  | getRoot r _ ih => exact .getRoot r ih
  | modRoot r x _ ih => exact .modRoot r x ih

theorem ite {c : Prop} {i : Decidable c} {t t' u u' : T K V α} (h : Le t t') (h' : Le u u') : Le (if c then t else u) (if c then t' else u') := by
  split <;> assumption

theorem loop {σ : Type} {g g' : σ → T K V (ForInStep σ)} (h : ∀ s, Le (g s) (g' s)) : ∀ {n n'}, n ≤ n' → ∀ s, Le (Par.loop g n s) (Par.loop g' n' s)
  | 0, _, _, _ => .out _
  | n + 1, 0, h, _ => absurd h (Nat.not_succ_le_zero n)
  | n + 1, n' + 1, hn, s => bind (h s) fun r => by
    cases r with
    | done s => exact .ret s
    | yield s => exact loop h (Nat.le_of_succ_le_succ hn) s

theorem forIn {σ : Type} {g g' : Unit → σ → T K V (ForInStep σ)} {b b' : Go.Budget} (hb : b.n ≤ b'.n) (h : ∀ u s, Le (g u s) (g' u s)) (s : σ) :
    Le (ForIn.forIn b s g) (ForIn.forIn b' s g') := loop (h ()) hb s

/-- If `t` returns or panics, `u` costs the same. -/
theorem cost {t u : T K V α} (h : Le t u) : ∀ s, t.denote s ≠ .error .diverge → u.cost w s = t.cost w s := by
  induction h with
  | ret a => exact fun _ _ => rfl
  | out u => exact fun s hs => absurd rfl hs
  | fail e => exact fun _ _ => rfl
  | load r _ ih =>
    intro s hs
    unfold T.cost
    rw [T.denote, bind_run] at hs
    cases e : Amt.load r s with
    | error e => rfl
    | ok x => rw [e] at hs; dsimp only; rw [ih _ _ hs]
  | store r y _ ih =>
    intro s hs
    unfold T.cost
    rw [T.denote, bind_run] at hs
    cases e : Amt.store r y s with
    | error e => rfl
    | ok x => rw [e] at hs; dsimp only; rw [ih _ hs]
  | put r y _ ih =>
    intro s hs
    unfold T.cost
    rw [T.denote, bind_run] at hs
    cases e : modLink r y.put s with
    | error e => rfl
    | ok x => rw [e] at hs; dsimp only; rw [ih _ hs]
  | alloc r _ ih =>
    intro s hs
    unfold T.cost
    rw [T.denote, bind_run] at hs
    cases e : Amt.alloc r s with
    | error e => rfl
    | ok x => rw [e] at hs; dsimp only; rw [ih _ _ hs]
  | loadKv r _ ih =>
    intro s hs
    unfold T.cost
    rw [T.denote, bind_run] at hs
    cases e : Amt.loadKv r s with
    | error e => rfl
    | ok x => rw [e] at hs; dsimp only; rw [ih _ _ hs]
  | storeVal r y _ ih =>
    intro s hs
    unfold T.cost
    rw [T.denote, bind_run] at hs
    cases e : Amt.storeVal r y s with
    | error e => rfl
    | ok x => rw [e] at hs; dsimp only; rw [ih _ hs]
  | getRoot r _ ih =>
    intro s hs
    unfold T.cost
    rw [T.denote, bind_run] at hs
    cases e : Amt.getRoot r s with
    | error e => rfl
    | ok x => rw [e] at hs; dsimp only; rw [ih _ _ hs]
  | modRoot r y _ ih =>
    intro s hs
    unfold T.cost
    rw [T.denote, bind_run] at hs
    cases e : Amt.modRoot r y s with
    | error e => rfl
    | ok x => rw [e] at hs; dsimp only; rw [ih _ hs]

end Le

/-- `t` costs at most `a + c * r` if `X` needs `r` rounds, in the memories that Go programs make. -/
def Costs (w : Price) (a c : Nat) (X : Nat → M K V α) (b : Go.Budget) (t : T K V α) (g : M K V α) : Prop :=
  ∀ s r, Go.Tidy s → r ≤ b.n → X r s ≠ .error .diverge → t.cost w s ≤ a + c * r

theorem Costs.of {a c : Nat} {X : Nat → M K V α} {F : Go.Budget → T K V α} {G : Go.Budget → M K V α} (hd : ∀ b, Den (F b) (G b))
    (hl : ∀ b b' : Go.Budget, b.n ≤ b'.n → Le (F b) (F b')) (hp : ∀ b, (F b).Pays w (a + c * b.n) fun _ => 0)
    (hr : ∀ (b : Go.Budget) s, Go.Tidy s → Go.run (G b) s = Go.run (X b.n) s) : ∀ b, Costs w a c X b (F b) (G b) := by
  intro b s r hs hr' hx
  have h1 := hl ⟨r⟩ b hr'
  rw [h1.cost s (by rw [(hd ⟨r⟩).eq]; exact fun e => hx ((hr ⟨r⟩ s hs).symm.trans e))]
  exact (hp ⟨r⟩).cost s

end

/-- Go through a program with fewer rounds. -/
macro "le_step" : tactic => `(tactic| first
  | with_reducible exact Le.refl _
  | with_reducible refine Le.bind ?_ fun _ => ?_
  | with_reducible refine Le.ite ?_ ?_
  | with_reducible refine Le.forIn (by assumption) (fun _ _ => ?_) _
  | split)

/-- Pay for the accesses one after the other. -/
macro "pay_step" : tactic => `(tactic| first
  | with_reducible exact Pays.fail _
  | (with_reducible refine Pays.ret ?_)
  | with_reducible refine Pays.load _ ?_ fun _ => ?_
  | with_reducible refine Pays.store _ _ ?_ ?_
  | with_reducible refine Pays.setPtr _ _ ?_ ?_
  | with_reducible refine Pays.setPmap _ _ ?_ ?_
  | with_reducible refine Pays.setTmap _ _ ?_ ?_
  | with_reducible refine Pays.alloc _ ?_ fun _ => ?_
  | with_reducible refine Pays.storeVal _ _ ?_ ?_
  | with_reducible refine Pays.getRoot _ ?_ fun _ => ?_
  | with_reducible refine Pays.modLen _ _ ?_ ?_
  | with_reducible refine Pays.modDep _ _ ?_ ?_
  | with_reducible refine Pays.deref _ fun _ => ?_
  | with_reducible refine Pays.newLinkArray _ ?_ fun _ => ?_
  | with_reducible refine Pays.kvKey _ ?_ fun _ => ?_
  | with_reducible refine Pays.kvVal _ ?_ fun _ => ?_
  | with_reducible refine Pays.fieldAddr _ fun _ => ?_
  | with_reducible refine Pays.ofRoot _ _ fun _ => ?_
  | with_reducible refine Pays.linkAt _ _ fun _ => ?_
  | with_reducible refine Pays.radixAt _ _ fun _ => ?_
  | with_reducible refine Pays.clearAt _ _ fun _ => ?_
  | with_reducible refine Pays.retB ?_
  | with_reducible refine Pays.ite (fun _ => ?_) (fun _ => ?_)
  | with_reducible refine Pays.iteB (fun _ => ?_) (fun _ => ?_)
  | (with_reducible rw [Pays.bind_assoc]))

end Amt.Par
