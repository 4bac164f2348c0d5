/-
What holds in every memory whatsoever: not only after the histories that the other theorems cover, but also after a
container has been damaged by one of the bugs, or by anything else.
-/
import Verif.PropsMisc
import Verif.Bugs

set_option linter.unusedVariables false
set_option linter.unusedSectionVars false

namespace Amt
open T Spec

/-! ### Memories that differ in the stored values only -/

/-- What a search can see of an object: everything but the value of a key-value cell. -/
def Obj.frame {K V : Type} : Obj K V → List Link ⊕ Option K
  | .links xs => .inl xs
  | .kv k _ => .inr k

/-- The two memories differ in the values of key-value cells only. -/
def SameShape {K V : Type} (s s' : St K V) : Prop :=
  (∀ a, (s.mem a).map Obj.frame = (s'.mem a).map Obj.frame) ∧ s.roots = s'.roots ∧ s.next = s'.next

/-- The program leaves the memory alone and does not look at stored values. -/
def Reader {K V α : Type} (x : M K V α) : Prop :=
  ∀ s s' : St K V, SameShape s s' → ∃ r : Except Fault α, x s = r.map (fun a => (a, s)) ∧ x s' = r.map (fun a => (a, s'))

section
variable {K V α β : Type}

theorem SameShape.refl (s : St K V) : SameShape s s := ⟨fun _ => rfl, rfl, rfl⟩
theorem SameShape.symm {s s' : St K V} (h : SameShape s s') : SameShape s' s := ⟨fun a => (h.1 a).symm, h.2.1.symm, h.2.2.symm⟩
theorem SameShape.trans {s s' s'' : St K V} (h : SameShape s s') (h' : SameShape s' s'') : SameShape s s'' :=
  ⟨fun a => (h.1 a).trans (h'.1 a), h.2.1.trans h'.2.1, h.2.2.trans h'.2.2⟩

theorem Reader.pure (a : α) : Reader (Pure.pure a : M K V α) := fun s s' _ => ⟨.ok a, rfl, rfl⟩

theorem Reader.fail (e : Fault) : Reader (M.fail e : M K V α) := fun s s' _ => ⟨.error e, rfl, rfl⟩

theorem Reader.bind {x : M K V α} {f : α → M K V β} (h1 : Reader x) (h2 : ∀ a, Reader (f a)) : Reader (x >>= f) := by
  intro s s' h
  obtain ⟨r, e1, e2⟩ := h1 s s' h
  cases r with
  | error e => exact ⟨.error e, bind_err e1, bind_err e2⟩
  | ok a =>
    rw [bind_ok e1, bind_ok e2]
    exact h2 a s s' h

theorem Reader.ite {p : Prop} [Decidable p] {x y : M K V α} (h1 : Reader x) (h2 : Reader y) : Reader (if p then x else y) := by
  split
  · exact h1
  · exact h2

theorem Reader.load (r : Ref) : Reader (load r : M K V Link) := by
  intro s s' h
  obtain ⟨p, i⟩ := r
  cases p with
  | nil => exact ⟨.error .nilDeref, rfl, rfl⟩
  | blk b =>
    have := h.1 b
    cases h1 : s.mem b with
    | none =>
      cases h2 : s'.mem b with
      | none => exact ⟨.error .dangling, by simp [Amt.load, h1, Except.map], by simp [Amt.load, h2, Except.map]⟩
      | some o => rw [h1, h2] at this; cases this
    | some o =>
      cases h2 : s'.mem b with
      | none => rw [h1, h2] at this; cases this
      | some o' =>
        rw [h1, h2] at this
        simp only [Option.map_some, Option.some.injEq] at this
        cases o <;> cases o' <;> simp only [Obj.frame, reduceCtorEq, Sum.inl.injEq] at this
        · subst this
          rename_i xs
          cases hx : xs[i]? with
          | none => exact ⟨.error .outOfBounds, by simp [Amt.load, h1, hx, Except.map], by simp [Amt.load, h2, hx, Except.map]⟩
          | some x => exact ⟨.ok x, by rw [load_ok h1 hx]; rfl, by rw [load_ok h2 hx]; rfl⟩
        · exact ⟨.error .wrongType, by simp [Amt.load, h1, Except.map], by simp [Amt.load, h2, Except.map]⟩

/-- Reading only the key of a cell. -/
theorem Reader.key (p : Amt.Ptr) {f : Option K → M K V α} (hf : ∀ k, Reader (f k)) :
    Reader (loadKv p >>= fun kv => f kv.1) := by
  intro s s' h
  cases p with
  | nil => exact ⟨.error .nilDeref, rfl, rfl⟩
  | blk b =>
    have := h.1 b
    cases h1 : s.mem b with
    | none =>
      cases h2 : s'.mem b with
      | none => exact ⟨.error .dangling, by simp [bind_run, loadKv, h1, Except.map], by simp [bind_run, loadKv, h2, Except.map]⟩
      | some o => rw [h1, h2] at this; cases this
    | some o =>
      cases h2 : s'.mem b with
      | none => rw [h1, h2] at this; cases this
      | some o' =>
        rw [h1, h2] at this
        simp only [Option.map_some, Option.some.injEq] at this
        cases o <;> cases o' <;> simp only [Obj.frame, reduceCtorEq, Sum.inr.injEq] at this
        · exact ⟨.error .wrongType, by simp [bind_run, loadKv, h1, Except.map], by simp [bind_run, loadKv, h2, Except.map]⟩
        · subst this
          rw [bind_ok (loadKv_ok h1), bind_ok (loadKv_ok h2)]
          exact hf _ s s' h

theorem Reader.getRoot (h : Nat) : Reader (getRoot h : M K V Meta) := by
  intro s s' hs
  exact ⟨.ok (s.roots h), rfl, by rw [hs.2.1]; rfl⟩

theorem Reader.deref (m : Handle) : Reader (deref m : M K V Nat) := by
  cases m
  · exact Reader.fail _
  · exact Reader.pure _

theorem Reader.readKey (c : Cfg K) (x : Link) : Reader (readKey c x : M K V K) := by
  unfold Amt.readKey
  split
  · refine Reader.key (f := fun (k : Option K) => (match k with | none => M.fail .wrongType | some k => Pure.pure k : M K V K)) _ fun k => ?_
    split
    · exact Reader.fail _
    · exact Reader.pure _
  · split
    · exact Reader.fail _
    · exact Reader.pure _
  · split
    · exact Reader.fail _
    · exact Reader.pure _

theorem Reader.search (c : Cfg K) (sd : Seed) (key : K) (fuel : Nat) (cur : Cur) :
    Reader (search c sd key fuel cur : M K V (Cur × Bool)) := by
  induction fuel generalizing cur with
  | zero => exact Reader.fail _
  | succ fuel ih =>
    rw [Amt.search]
    exact Reader.bind (Reader.load _) fun lk => Reader.ite (Reader.ite (ih _) (Reader.pure _)) (Reader.pure _)

theorem Reader.lookup (c : Cfg K) (h fuel : Nat) (key : K) : Reader (lookup c h fuel key : M K V (Option Amt.Ptr)) := by
  unfold Amt.lookup Amt.itemRef
  refine Reader.bind (Reader.getRoot _) fun r => Reader.bind (Reader.search _ _ _ _ _) fun x => ?_
  split
  exact Reader.ite (Reader.bind (Reader.bind (Reader.load _) fun _ => Reader.pure _) fun _ => Reader.bind (Reader.load _) fun _ =>
    Reader.bind (Reader.readKey _ _) fun _ => Reader.ite (Reader.pure _) (Reader.pure _)) (Reader.pure _)

theorem Reader.Ptr [Inhabited V] (I : MapImpl K V) (fuel : Nat) (m : Handle) (k : K) : Reader (I.Ptr fuel m k) :=
  Reader.bind (Reader.deref m) fun h => Reader.lookup _ _ _ _

/-- A reader's answer and the memory afterwards. -/
theorem Reader.ok {x : M K V α} (hx : Reader x) {s s' : St K V} {a : α} (h : x s = .ok (a, s')) :
    s' = s ∧ ∀ s₁, SameShape s s₁ → x s₁ = .ok (a, s₁) := by
  refine ⟨?_, fun s₁ hs => ?_⟩
  · obtain ⟨r, e1, _⟩ := hx s s (SameShape.refl s)
    cases r <;> rw [e1] at h <;> cases h
    rfl
  · obtain ⟨r, e1, e2⟩ := hx s s₁ hs
    cases r <;> rw [e1] at h <;> cases h
    exact e2

theorem Reader.err {x : M K V α} (hx : Reader x) {s : St K V} {e : Fault} (h : x s = .error e) {s₁ : St K V}
    (hs : SameShape s s₁) : x s₁ = .error e := by
  obtain ⟨r, e1, e2⟩ := hx s s₁ hs
  cases r <;> rw [e1] at h <;> cases h
  exact e2

theorem SameShape.put {s : St K V} {b : Nat} {k : Option K} {v : V} (hm : s.mem b = some (.kv k v)) (w : V) :
    SameShape s (s.put b (.kv k w)) := by
  refine ⟨fun a => ?_, rfl, rfl⟩
  by_cases h : a = b
  · subst h; simp [hm, Obj.frame]
  · simp [h]

/-- `loadKv` and `storeVal` succeed on the same pointers and fail in the same way on the others. -/
theorem loadKv_cases (p : Amt.Ptr) (s : St K V) :
    (∃ b k v, p = .blk b ∧ s.mem b = some (.kv k v)) ∨ ∃ e, loadKv p s = .error e ∧ ∀ v, storeVal p v s = .error e := by
  cases p with
  | nil => exact .inr ⟨_, rfl, fun _ => rfl⟩
  | blk b =>
    cases h1 : s.mem b with
    | none => exact .inr ⟨.dangling, by simp [loadKv, h1], fun v => by simp [storeVal, h1]⟩
    | some o =>
      cases o with
      | links xs => exact .inr ⟨.wrongType, by simp [loadKv, h1], fun v => by simp [storeVal, h1]⟩
      | kv k v => exact .inl ⟨b, k, v, rfl, h1⟩

end

/-! ### Where a search ends -/

section
variable {K V R : Type} {c : Cfg K} {h fuel : Nat} {key : K} {s s' : St K V}

/-- If the lookup finds the cell `p`, an insertion does what it does on a hit, with `p`. -/
theorem upsert_found {p : Amt.Ptr} (hl : lookup c h fuel key s = .ok (some p, s')) (ins : Ins K V R) :
    upsert c h fuel key ins s = ins.hit p s := by
  unfold lookup at hl
  unfold upsert
  rw [bind_ok (getRoot_run h s)] at hl ⊢
  cases h1 : search c (s.roots h).seed key fuel (start c (s.roots h).seed key h) s with
  | error e => rw [bind_err h1] at hl; cases hl
  | ok r =>
    obtain ⟨⟨cur, hit⟩, s1⟩ := r
    obtain rfl := (Reader.search _ _ _ _ _).ok h1 |>.1
    rw [bind_ok h1] at hl ⊢
    cases hit with
    | false => cases hl
    | true =>
      simp only [if_true] at hl ⊢
      unfold conflict
      cases h2 : (itemRef cur : M K V Ref) s1 with
      | error e => rw [bind_err h2] at hl; cases hl
      | ok r =>
        obtain ⟨item, s2⟩ := r
        obtain rfl := (Reader.bind (Reader.load _) fun _ => Reader.pure _).ok h2 |>.1
        rw [bind_ok h2] at hl ⊢
        cases h3 : (load item : M K V Link) s2 with
        | error e => rw [bind_err h3] at hl; cases hl
        | ok r =>
          obtain ⟨x, s3⟩ := r
          obtain rfl := (Reader.load _).ok h3 |>.1
          rw [bind_ok h3] at hl ⊢
          cases h4 : (readKey c x : M K V K) s3 with
          | error e => rw [bind_err h4] at hl; cases hl
          | ok r =>
            obtain ⟨k, s4⟩ := r
            obtain rfl := (Reader.readKey _ _).ok h4 |>.1
            rw [bind_ok h4] at hl ⊢
            cases hk : c.eq key k with
            | false => rw [hk] at hl; cases hl
            | true => rw [hk] at hl; cases hl; rfl

/-- If the lookup fails, so does an insertion. -/
theorem upsert_fault {e : Fault} (hl : lookup c h fuel key s = .error e) (ins : Ins K V R) :
    upsert c h fuel key ins s = .error e := by
  unfold lookup at hl
  unfold upsert
  rw [bind_ok (getRoot_run h s)] at hl ⊢
  cases h1 : search c (s.roots h).seed key fuel (start c (s.roots h).seed key h) s with
  | error e => rw [bind_err h1] at hl ⊢; cases hl; rfl
  | ok r =>
    obtain ⟨⟨cur, hit⟩, s1⟩ := r
    obtain rfl := (Reader.search _ _ _ _ _).ok h1 |>.1
    rw [bind_ok h1] at hl ⊢
    cases hit with
    | false => cases hl
    | true =>
      simp only [if_true] at hl ⊢
      unfold conflict
      cases h2 : (itemRef cur : M K V Ref) s1 with
      | error e => rw [bind_err h2] at hl ⊢; cases hl; rfl
      | ok r =>
        obtain ⟨item, s2⟩ := r
        obtain rfl := (Reader.bind (Reader.load _) fun _ => Reader.pure _).ok h2 |>.1
        rw [bind_ok h2] at hl ⊢
        cases h3 : (load item : M K V Link) s2 with
        | error e => rw [bind_err h3] at hl ⊢; cases hl; rfl
        | ok r =>
          obtain ⟨x, s3⟩ := r
          obtain rfl := (Reader.load _).ok h3 |>.1
          rw [bind_ok h3] at hl ⊢
          cases h4 : (readKey c x : M K V K) s3 with
          | error e => rw [bind_err h4] at hl ⊢; cases hl; rfl
          | ok r =>
            obtain ⟨k, s4⟩ := r
            obtain rfl := (Reader.readKey _ _).ok h4 |>.1
            rw [bind_ok h4] at hl
            split at hl <;> cases hl

end

/-! ### The number of entries -/

/-- Whenever the program returns, its result satisfies `P`, it has added a number satisfying `D` to the length of the
root `h`, and it has changed no seed and no other root. -/
def Does {K V α : Type} (h : Nat) (D : BitVec 64 → Prop) (P : α → Prop) (x : M K V α) : Prop :=
  ∀ s a s', x s = .ok (a, s') → P a ∧ (∃ δ, D δ ∧ (s'.roots h).len = (s.roots h).len + δ) ∧
    (s'.roots h).seed = (s.roots h).seed ∧ ∀ h', h' ≠ h → s'.roots h' = s.roots h'

section
variable {K V α β R : Type} {h : Nat} {c : Cfg K}

/-- The program does not change the roots. -/
def KeepsRoots (x : M K V α) : Prop := ∀ s a s', x s = .ok (a, s') → s'.roots = s.roots

theorem KeepsRoots.does {x : M K V α} (hx : KeepsRoots x) : Does h (fun δ => δ = 0#64) (fun _ => True) x := by
  intro s a s' e
  rw [hx s a s' e]
  exact ⟨trivial, ⟨_, rfl, by simp⟩, rfl, fun _ _ => rfl⟩

theorem Reader.still {x : M K V α} (hx : Reader x) : KeepsRoots x := by
  intro s a s' e
  rw [(hx.ok e).1]

theorem KeepsRoots.pure (a : α) : KeepsRoots (Pure.pure a : M K V α) := (Reader.pure a).still
theorem KeepsRoots.fail (e : Fault) : KeepsRoots (M.fail e : M K V α) := (Reader.fail e).still
theorem KeepsRoots.load (r : Ref) : KeepsRoots (load r : M K V Link) := (Reader.load r).still

theorem KeepsRoots.bind {x : M K V α} {f : α → M K V β} (h1 : KeepsRoots x) (h2 : ∀ a, KeepsRoots (f a)) : KeepsRoots (x >>= f) := by
  intro s b s' e
  cases hx : x s with
  | error e' => rw [bind_err hx] at e; cases e
  | ok r => rw [bind_ok hx] at e; rw [h2 _ _ _ _ e, h1 _ _ _ hx]

theorem KeepsRoots.ite {p : Prop} [Decidable p] {x y : M K V α} (h1 : KeepsRoots x) (h2 : KeepsRoots y) : KeepsRoots (if p then x else y) := by
  split
  · exact h1
  · exact h2

theorem KeepsRoots.store (r : Ref) (x : Link) : KeepsRoots (store r x : M K V Unit) := by
  intro s a s' e
  unfold Amt.store at e
  split at e
  · cases e
  · split at e
    · cases e
    · cases e
    · split at e
      · cases e; rfl
      · cases e

theorem KeepsRoots.storeVal (p : Amt.Ptr) (v : V) : KeepsRoots (storeVal p v : M K V Unit) := by
  intro s a s' e
  unfold Amt.storeVal at e
  split at e
  · cases e
  · split at e
    · cases e
    · cases e
    · cases e; rfl

theorem KeepsRoots.loadKv (p : Amt.Ptr) : KeepsRoots (loadKv p : M K V (Option K × V)) := by
  intro s a s' e
  rw [Quiet.loadKv _ _ _ _ e]

theorem KeepsRoots.modLink (r : Ref) (f : Link → Link) : KeepsRoots (modLink r f : M K V Unit) :=
  KeepsRoots.bind (KeepsRoots.load _) fun _ => KeepsRoots.store _ _

theorem KeepsRoots.alloc (o : Obj K V) : KeepsRoots (alloc o) := by
  intro s a s' e; cases e; rfl

theorem KeepsRoots.newLinkArray (n : Nat) : KeepsRoots (newLinkArray n : M K V Amt.Ptr) := by
  unfold Amt.newLinkArray
  exact KeepsRoots.ite (KeepsRoots.alloc _) (KeepsRoots.ite (KeepsRoots.alloc _) (KeepsRoots.ite (KeepsRoots.alloc _) (KeepsRoots.alloc _)))

theorem KeepsRoots.newKv (k : K) (v : V) : KeepsRoots (newKv c k v) := by
  unfold Amt.newKv
  split
  · exact KeepsRoots.alloc _
  · exact KeepsRoots.alloc _
  · exact KeepsRoots.pure _

theorem KeepsRoots.liftE (x : Except Fault α) : KeepsRoots (liftE x : M K V α) := by
  intro s a s' e
  unfold Amt.liftE at e
  split at e
  · cases e
  · cases e; rfl

theorem KeepsRoots.shiftUp (arr : Amt.Ptr) (idx n : Nat) : KeepsRoots (shiftUp arr idx n : M K V Unit) := by
  induction n with
  | zero => exact KeepsRoots.pure _
  | succ n ih =>
    rw [Amt.shiftUp]
    exact KeepsRoots.ite (KeepsRoots.bind (KeepsRoots.load _) fun _ => KeepsRoots.bind (KeepsRoots.store _ _) fun _ => ih) (KeepsRoots.pure _)

theorem KeepsRoots.copyUp (dst src : Amt.Ptr) (doff soff n i : Nat) : KeepsRoots (copyUp dst src doff soff n i : M K V Unit) := by
  induction n generalizing i with
  | zero => exact KeepsRoots.pure _
  | succ n ih =>
    rw [Amt.copyUp]
    exact KeepsRoots.bind (KeepsRoots.load _) fun _ => KeepsRoots.bind (KeepsRoots.store _ _) fun _ => ih _

theorem Does.mono {D D' : BitVec 64 → Prop} {P P' : α → Prop} {x : M K V α} (hx : Does h D P x) (hD : ∀ δ, D δ → D' δ)
    (hP : ∀ a, P a → P' a) : Does h D' P' x := by
  intro s a s' e
  obtain ⟨h1, ⟨δ, h2, h3⟩, h4⟩ := hx s a s' e
  exact ⟨hP a h1, ⟨δ, hD δ h2, h3⟩, h4⟩

/-- A program in two parts: `δ₁` entries are added by the first and `D` says how many in all. -/
theorem Does.bind {D₁ D₂ D : BitVec 64 → Prop} {Q : α → Prop} {P : β → Prop} {x : M K V α} {f : α → M K V β}
    (h1 : Does h D₁ Q x) (h2 : ∀ a, Q a → Does h D₂ P (f a)) (hD : ∀ a b, D₁ a → D₂ b → D (a + b)) :
    Does h D P (x >>= f) := by
  intro s b s' e
  cases hx : x s with
  | error e' => rw [bind_err hx] at e; cases e
  | ok r =>
    obtain ⟨a, s1⟩ := r
    rw [bind_ok hx] at e
    obtain ⟨q1, ⟨δ, q2, q3⟩, q4, q5⟩ := h1 _ _ _ hx
    obtain ⟨q6, ⟨δ', q7, q8⟩, q9, q10⟩ := h2 a q1 _ _ _ e
    exact ⟨q6, ⟨δ + δ', hD _ _ q2 q7, by rw [q8, q3, BitVec.add_assoc]⟩, by rw [q9, q4], fun h' hh => by rw [q10 h' hh, q5 h' hh]⟩

/-- First something that does not change the roots. -/
theorem Does.after {D : BitVec 64 → Prop} {P : β → Prop} {x : M K V α} {f : α → M K V β} (h1 : KeepsRoots x)
    (h2 : ∀ a, Does h D P (f a)) : Does h D P (x >>= f) :=
  Does.bind h1.does (fun a _ => h2 a) (fun a b ha hb => by rw [show a = 0#64 from ha, BitVec.zero_add]; exact hb)

theorem Does.fail {D : BitVec 64 → Prop} {P : α → Prop} (e : Fault) : Does h D P (M.fail e : M K V α) := by
  intro s a s' e; cases e

theorem Does.ite {D : BitVec 64 → Prop} {P : α → Prop} {p : Prop} [Decidable p] {x y : M K V α} (h1 : Does h D P x) (h2 : Does h D P y) :
    Does h D P (if p then x else y) := by
  split
  · exact h1
  · exact h2

theorem Does.pure {P : α → Prop} {a : α} (ha : P a) : Does h (fun δ => δ = 0#64) P (Pure.pure a : M K V α) := by
  intro s b s' e; cases e
  exact ⟨ha, ⟨_, rfl, by simp⟩, rfl, fun _ _ => rfl⟩

theorem Does.modRoot {f : Meta → Meta} {δ : BitVec 64} (hl : ∀ m, (f m).len = m.len + δ) (hs : ∀ m, (f m).seed = m.seed) :
    Does h (fun x => x = δ) (fun _ => True) (modRoot h f : M K V Unit) := by
  intro s b s' e; cases e
  exact ⟨trivial, ⟨_, rfl, by simp [hl]⟩, by simp [hs], fun h' hh => by simp [hh]⟩

/-- How an insertion makes the cell of a new key. -/
structure Makes (ins : Ins K V R) (P : R → Prop) : Prop where
  split : Does h (fun δ => δ = 0#64) (fun r => P r.2) ins.newSplit
  slot : Does h (fun δ => δ = 0#64) (fun r => P r.2) ins.newSlot

theorem Does.split {ins : Ins K V R} {P : R → Prop} (hi : Makes (h := h) ins P) (sd : Seed) (key ckey : K) (cptr : Amt.Ptr)
    (fuel : Nat) (item : Ref) (d : Nat) (hd chd : BitVec 64) (w cw : Nat) :
    Does h (fun δ => δ = 1#64) P (split c sd h key ckey cptr ins fuel item d hd chd w cw) := by
  induction fuel generalizing item d hd chd w cw with
  | zero => exact Does.fail _
  | succ fuel ih =>
    rw [Amt.split]
    refine Does.after (KeepsRoots.modLink _ _) fun _ => Does.ite ?_ ?_
    · refine Does.after (KeepsRoots.modLink _ _) fun _ => Does.after (KeepsRoots.newLinkArray _) fun arr =>
        Does.after (KeepsRoots.modLink _ _) fun _ => ?_
      refine Does.bind hi.split (D₂ := fun δ => δ = 1#64) (fun r hr => ?_) (fun a b ha hb => by rw [ha, hb]; rfl)
      have fin : Does h (fun δ => δ = 1#64) P
          ((Amt.modRoot h fun m => { m with len := m.len + 1, dep := m.dep + BitVec.ofNat 64 ((d + 1) % 256) * 2 }) >>= fun _ => (Pure.pure r.2 : M K V R)) :=
        Does.bind (Does.modRoot (δ := 1#64) (fun _ => rfl) (fun _ => rfl)) (fun _ _ => Does.pure hr) (fun a b ha hb => by rw [ha, hb]; rfl)
      exact Does.after (KeepsRoots.load _) fun y => Does.ite
        (Does.after (KeepsRoots.modLink _ _) fun _ => Does.after (KeepsRoots.modLink _ _) fun _ => fin)
        (Does.after (KeepsRoots.modLink _ _) fun _ => Does.after (KeepsRoots.modLink _ _) fun _ => fin)
    · exact Does.after (KeepsRoots.newLinkArray _) fun arr => Does.after (KeepsRoots.modLink _ _) fun _ => ih _ _ _ _ _ _

theorem Does.insertSlot {ins : Ins K V R} {P : R → Prop} (hi : Makes (h := h) ins P) (key : K) (cur : Cur) :
    Does h (fun δ => δ = 1#64) P (insertSlot c h key ins cur) := by
  unfold Amt.insertSlot
  refine Does.after (KeepsRoots.load _) fun lk => Does.bind hi.slot (D₂ := fun δ => δ = 1#64) (fun r hr => ?_) (fun a b ha hb => by rw [ha, hb]; rfl)
  have fin : Does h (fun δ => δ = 1#64) P
      ((Amt.modLink cur.l fun x => { x with pmap := x.pmap ||| bitOf (radixOf cur.hd), tmap := x.tmap ||| bitOf (radixOf cur.hd) }) >>= fun _ =>
        ((Amt.modRoot h fun m => { m with len := m.len + 1, dep := m.dep + BitVec.ofNat 64 cur.d }) >>= fun _ => (Pure.pure r.2 : M K V R))) :=
    Does.after (KeepsRoots.modLink _ _) fun _ =>
      Does.bind (Does.modRoot (δ := 1#64) (fun _ => rfl) (fun _ => rfl)) (fun _ _ => Does.pure hr) (fun a b ha hb => by rw [ha, hb]; rfl)
  exact Does.after (KeepsRoots.load _) fun lk => Does.ite
    (Does.after (KeepsRoots.shiftUp _ _ _) fun _ => Does.after (KeepsRoots.store _ _) fun _ => fin)
    (Does.after (KeepsRoots.newLinkArray _) fun arr => Does.after (KeepsRoots.modLink _ _) fun _ => Does.after (KeepsRoots.copyUp _ _ _ _ _ _) fun _ =>
      Does.after (KeepsRoots.store _ _) fun _ => Does.after (KeepsRoots.copyUp _ _ _ _ _ _) fun _ => fin)

/-- If the lookup does not find the key and the insertion returns, there is one more entry.  (`BytesMap` may also
replace an item whose key has been modified.) -/
theorem upsert_missing {ins : Ins K V R} {P : R → Prop} (hi : Makes (h := h) ins P) {fuel : Nat} {key : K} {s s' s₁ : St K V}
    (hl : lookup c h fuel key s = .ok (none, s')) {r : R} (hu : upsert c h fuel key ins s = .ok (r, s₁)) :
    P r ∧ (∃ δ, (δ = 1#64 ∨ (ins.guard = true ∧ δ = 0#64)) ∧ (s₁.roots h).len = (s.roots h).len + δ) ∧
      (s₁.roots h).seed = (s.roots h).seed ∧ ∀ h', h' ≠ h → s₁.roots h' = s.roots h' := by
  unfold lookup at hl
  unfold upsert at hu
  rw [bind_ok (getRoot_run h s)] at hl hu
  cases h1 : search c (s.roots h).seed key fuel (start c (s.roots h).seed key h) s with
  | error e => rw [bind_err h1] at hl; cases hl
  | ok r =>
    obtain ⟨⟨cur, hit⟩, s1⟩ := r
    obtain rfl := (Reader.search _ _ _ _ _).ok h1 |>.1
    rw [bind_ok h1] at hl hu
    cases hit with
    | false => exact (Does.insertSlot hi key cur).mono (fun δ hδ => .inl hδ) (fun _ h => h) _ _ _ hu
    | true =>
      simp only [if_true] at hl hu
      unfold conflict at hu
      cases h2 : (itemRef cur : M K V Ref) s1 with
      | error e => rw [bind_err h2] at hl; cases hl
      | ok r =>
        obtain ⟨item, s2⟩ := r
        obtain rfl := (Reader.bind (Reader.load _) fun _ => Reader.pure _).ok h2 |>.1
        rw [bind_ok h2] at hl hu
        cases h3 : (load item : M K V Link) s2 with
        | error e => rw [bind_err h3] at hl; cases hl
        | ok r =>
          obtain ⟨x, s3⟩ := r
          obtain rfl := (Reader.load _).ok h3 |>.1
          rw [bind_ok h3] at hl hu
          cases h4 : (readKey c x : M K V K) s3 with
          | error e => rw [bind_err h4] at hl; cases hl
          | ok r =>
            obtain ⟨k, s4⟩ := r
            obtain rfl := (Reader.readKey _ _).ok h4 |>.1
            rw [bind_ok h4] at hl hu
            cases hk : c.eq key k with
            | true => rw [hk] at hl; cases hl
            | false =>
              rw [hk] at hu
              simp only [Bool.false_eq_true, if_false] at hu
              refine Does.after (h := h) (D := fun δ => δ = 1#64 ∨ (ins.guard = true ∧ δ = 0#64)) (P := P) (KeepsRoots.liftE _) (fun cc => ?_) _ _ _ hu
              split
              · rename_i hg
                exact Does.bind hi.slot (fun r hr => Does.after (KeepsRoots.modLink _ _) fun _ => Does.pure hr)
                  (fun a b ha hb => .inr ⟨hg.1, by rw [ha, hb]; rfl⟩)
              · refine Does.after (KeepsRoots.modLink _ _) fun _ => Does.bind (Does.modRoot (δ := 0#64) (fun _ => by simp) (fun _ => rfl))
                  (fun _ _ => Does.split hi _ _ _ _ _ _ _ _ _ _ _) (fun a b ha hb => .inl (by rw [ha, hb]; rfl))

end

/-! ### Deletion -/

section
variable {K V : Type} {h : Nat} {c : Cfg K}

theorem KeepsRoots.pathAt (path : List (Nat × Option Ref)) (d : Nat) : KeepsRoots (pathAt path d : M K V (Nat × Ref)) := by
  unfold Amt.pathAt
  split
  · exact KeepsRoots.fail _
  · exact KeepsRoots.fail _
  · exact KeepsRoots.pure _

theorem KeepsRoots.shiftBack (d : Nat) (l : Ref) (idx count : Nat) : KeepsRoots (shiftBack d l idx count : M K V Unit) := by
  unfold Amt.shiftBack
  exact KeepsRoots.bind (KeepsRoots.load _) fun lk => KeepsRoots.ite
    (KeepsRoots.bind (KeepsRoots.newLinkArray _) fun arr => KeepsRoots.bind (KeepsRoots.modLink _ _) fun _ => KeepsRoots.bind (KeepsRoots.copyUp _ _ _ _ _ _) fun _ =>
      KeepsRoots.copyUp _ _ _ _ _ _)
    (KeepsRoots.copyUp _ _ _ _ _ _)

theorem Does.collapse (d : Nat) (path : List (Nat × Option Ref)) (l : Ref) (count : Nat) :
    Does h (fun δ => δ = 0#64) (fun _ => True) (collapse h d path l count : M K V Unit) := by
  induction d generalizing path l count with
  | zero => exact Does.pure trivial
  | succ d ih =>
    rw [Amt.collapse]
    exact Does.after (KeepsRoots.load _) fun lk => Does.ite
      (Does.after (KeepsRoots.load _) fun x => Does.after (KeepsRoots.store _ _) fun _ =>
        Does.bind (Does.modRoot (δ := 0#64) (fun _ => by simp) (fun _ => rfl)) (fun _ _ =>
          Does.after (KeepsRoots.pathAt _ _) fun r => Does.after (KeepsRoots.modLink _ _) fun _ => Does.after (KeepsRoots.load _) fun lk' => ih _ _ _)
          (fun a b ha hb => by rw [ha, hb]; rfl))
      (Does.pure trivial)

theorem Does.unlink (d : Nat) (path : List (Nat × Option Ref)) (l : Ref) (idx count : Nat) :
    Does h (fun δ => δ = 0#64) (fun _ => True) (unlink h d path l idx count : M K V Unit) := by
  induction d generalizing path l idx count with
  | zero => exact Does.after (KeepsRoots.shiftBack _ _ _ _) fun _ => Does.collapse _ _ _ _
  | succ d ih =>
    rw [Amt.unlink]
    exact Does.ite
      (Does.after (KeepsRoots.modLink _ _) fun _ => Does.after (KeepsRoots.pathAt _ _) fun r => Does.after (KeepsRoots.load _) fun lk =>
        Does.after (KeepsRoots.modLink _ _) fun _ => Does.after (KeepsRoots.load _) fun lk' => ih _ _ _ _)
      (Does.after (KeepsRoots.shiftBack _ _ _ _) fun _ => Does.collapse _ _ _ _)

/-- `Del` after a lookup: nothing happens if the test says so or if nothing is there; otherwise one entry less. -/
theorem delete_after {skip : Bool → Bool} {fuel : Nat} {key : K} {s s' : St K V} {p : Option Amt.Ptr}
    (hl : lookup c h fuel key s = .ok (p, s')) :
    ((skip p.isSome = true ∨ p = none) ∧ delete c h fuel skip key s = .ok ((), s)) ∨
    (skip p.isSome = false ∧ ∀ s₁, delete c h fuel skip key s = .ok ((), s₁) →
      (s₁.roots h).len = (s.roots h).len - 1#64 ∧ (s₁.roots h).seed = (s.roots h).seed ∧ ∀ h', h' ≠ h → s₁.roots h' = s.roots h') := by
  unfold lookup at hl
  unfold delete
  rw [bind_ok (getRoot_run h s)] at hl ⊢
  cases h1 : search c (s.roots h).seed key fuel (start c (s.roots h).seed key h) s with
  | error e => rw [bind_err h1] at hl; cases hl
  | ok r =>
    obtain ⟨⟨cur, hit⟩, s1⟩ := r
    obtain rfl := (Reader.search _ _ _ _ _).ok h1 |>.1
    rw [bind_ok h1] at hl ⊢
    cases hit with
    | false =>
      cases hl
      exact .inl ⟨.inr rfl, rfl⟩
    | true =>
      simp only [if_true] at hl ⊢
      unfold remove
      cases h2 : (itemRef cur : M K V Ref) s1 with
      | error e => rw [bind_err h2] at hl; cases hl
      | ok r =>
        obtain ⟨item, s2⟩ := r
        obtain rfl := (Reader.bind (Reader.load _) fun _ => Reader.pure _).ok h2 |>.1
        rw [bind_ok h2] at hl ⊢
        cases h3 : (load item : M K V Link) s2 with
        | error e => rw [bind_err h3] at hl; cases hl
        | ok r =>
          obtain ⟨x, s3⟩ := r
          obtain rfl := (Reader.load _).ok h3 |>.1
          rw [bind_ok h3] at hl ⊢
          cases h4 : (readKey c x : M K V K) s3 with
          | error e => rw [bind_err h4] at hl; cases hl
          | ok r =>
            obtain ⟨k, s4⟩ := r
            obtain rfl := (Reader.readKey _ _).ok h4 |>.1
            rw [bind_ok h4] at hl ⊢
            have hp : p.isSome = c.eq key k := by
              cases hk : c.eq key k <;> rw [hk] at hl <;> cases hl <;> rfl
            rw [hp]
            cases hsk : skip (c.eq key k) with
            | true => exact .inl ⟨.inl rfl, rfl⟩
            | false =>
              simp only [Bool.false_eq_true, if_false]
              refine .inr ⟨trivial, fun s₁ e => ?_⟩
              have fin : ∀ x : M K V Unit, Does h (fun δ => δ = -1#64) (fun _ => True) x → x s4 = .ok ((), s₁) →
                  (s₁.roots h).len = (s4.roots h).len - 1#64 ∧ (s₁.roots h).seed = (s4.roots h).seed ∧
                    ∀ h', h' ≠ h → s₁.roots h' = s4.roots h' := by
                intro x hx e
                obtain ⟨_, ⟨δ, hδ, q⟩, q'⟩ := hx _ _ _ e
                exact ⟨by rw [q, hδ, BitVec.sub_eq_add_neg], q'⟩
              refine fin _ ?_ e
              exact Does.after (KeepsRoots.load _) fun lk => Does.after (KeepsRoots.modLink _ _) fun _ =>
                Does.bind (Does.modRoot (δ := -1#64) (fun m => BitVec.sub_eq_add_neg ..) (fun _ => rfl))
                  (fun _ _ => Does.after (KeepsRoots.load _) fun lk' => Does.unlink _ _ _ _ _) (fun a b ha hb => by rw [ha, hb]; rfl)

theorem delete_fault {skip : Bool → Bool} {fuel : Nat} {key : K} {s : St K V} {e : Fault} (hl : lookup c h fuel key s = .error e) :
    delete c h fuel skip key s = .error e := by
  unfold lookup at hl
  unfold delete
  rw [bind_ok (getRoot_run h s)] at hl ⊢
  cases h1 : search c (s.roots h).seed key fuel (start c (s.roots h).seed key h) s with
  | error e => rw [bind_err h1] at hl ⊢; cases hl; rfl
  | ok r =>
    obtain ⟨⟨cur, hit⟩, s1⟩ := r
    obtain rfl := (Reader.search _ _ _ _ _).ok h1 |>.1
    rw [bind_ok h1] at hl ⊢
    cases hit with
    | false => cases hl
    | true =>
      simp only [if_true] at hl ⊢
      unfold remove
      cases h2 : (itemRef cur : M K V Ref) s1 with
      | error e => rw [bind_err h2] at hl ⊢; cases hl; rfl
      | ok r =>
        obtain ⟨item, s2⟩ := r
        obtain rfl := (Reader.bind (Reader.load _) fun _ => Reader.pure _).ok h2 |>.1
        rw [bind_ok h2] at hl ⊢
        cases h3 : (load item : M K V Link) s2 with
        | error e => rw [bind_err h3] at hl ⊢; cases hl; rfl
        | ok r =>
          obtain ⟨x, s3⟩ := r
          obtain rfl := (Reader.load _).ok h3 |>.1
          rw [bind_ok h3] at hl ⊢
          cases h4 : (readKey c x : M K V K) s3 with
          | error e => rw [bind_err h4] at hl ⊢; cases hl; rfl
          | ok r =>
            obtain ⟨k, s4⟩ := r
            obtain rfl := (Reader.readKey _ _).ok h4 |>.1
            rw [bind_ok h4] at hl
            split at hl <;> cases hl

end

/-! ### The containers -/

/-- The five maps, whatever their history; the flag is set for `BytesMap`, which replaces items whose keys have been
modified by the caller. -/
inductive IsMap {V : Type} [Inhabited V] : {K : Type} → MapImpl K V → Bool → Prop where
  | string (sum : Maphash) : IsMap (StringMap sum) false
  | bytes (sum : Maphash) : IsMap (BytesMap sum) true
  | arr (sum : Maphash) {K : Type} [DecidableEq K] (kb : K → List UInt8) : IsMap (ArrMap sum kb) false
  | int (sum : Maphash) : IsMap (IntMap sum) false
  | generic {K : Type} (J : KeyImpl K) : IsMap (GenericMap J) false

/-- The four maps whose cells contain their keys; the `Equal` of a generic key identifies no two keys. -/
inductive KeyedMap {V : Type} [Inhabited V] : {K : Type} → MapImpl K V → Prop where
  | string (sum : Maphash) : KeyedMap (StringMap sum)
  | bytes (sum : Maphash) : KeyedMap (BytesMap sum)
  | arr (sum : Maphash) {K : Type} [DecidableEq K] (kb : K → List UInt8) : KeyedMap (ArrMap sum kb)
  | generic {K : Type} (J : KeyImpl K) (heq : ∀ a b, J.equal a b = true → a = b) : KeyedMap (GenericMap J)

/-- What the five maps have in common. -/
structure MapFacts {K V : Type} [Inhabited V] (I : MapImpl K V) (g : Bool) : Prop where
  setHit : ∀ k v p, (I.setI k v).hit p = storeVal p v
  setNew : ∀ h k v, Makes (h := h) (I.setI k v) (fun _ => True)
  setGuard : ∀ k v, (I.setI k v).guard = g
  modHit : ∀ k f p, (I.modI k f).hit p = (do let kv ← loadKv p; storeVal p (f kv.2 true); pure [(kv.2, true)])
  modNew : ∀ h k f, Makes (h := h) (I.modI k f) (fun r => r = [(default, false)])
  modGuard : ∀ k f, (I.modI k f).guard = g
  skip : ∀ b, I.delSkip b = !b

theorem makes_newKv {K V R : Type} {c : Cfg K} {h : Nat} {k : K} {v : V} {r : R} {P : R → Prop} (hr : P r) :
    Does h (fun δ => δ = 0#64) (fun x => P x.2) (do let p ← newKv c k v; pure (p, r)) :=
  Does.after (KeepsRoots.newKv _ _) fun p => Does.pure hr

theorem IsMap.facts {K V : Type} [Inhabited V] {I : MapImpl K V} {g : Bool} (hI : IsMap I g) : MapFacts I g := by
  cases hI <;>
    exact ⟨fun _ _ _ => rfl, fun h k v => ⟨makes_newKv (P := fun _ => True) trivial, makes_newKv (P := fun _ => True) trivial⟩, fun _ _ => rfl, fun _ _ _ => rfl,
      fun h k f => ⟨makes_newKv (P := fun r => r = [(default, false)]) rfl, makes_newKv (P := fun r => r = [(default, false)]) rfl⟩, fun _ _ => rfl, fun _ => rfl⟩

section
variable {K V : Type} [Inhabited V] {I : MapImpl K V} {g : Bool} {fuel h : Nat} {k : K} {s : St K V}

theorem Ptr_some (I : MapImpl K V) (fuel h : Nat) (k : K) : I.Ptr fuel (some h) k = lookup I.cfg h fuel k := rfl

/-- What `Get` says about the lookup. -/
theorem get_lookup {v : V} {b : Bool} {s' : St K V} (hg : I.exec fuel (some h) (.get k) s = .ok (.pair v b, s')) :
    s' = s ∧ ((b = false ∧ v = default ∧ lookup I.cfg h fuel k s = .ok (none, s)) ∨
      (b = true ∧ ∃ a ko, lookup I.cfg h fuel k s = .ok (some (.blk a), s) ∧ s.mem a = some (.kv ko v))) := by
  simp only [MapImpl.exec, MapImpl.Get, Ptr_some, bind_assoc_M] at hg
  cases hl : lookup I.cfg h fuel k s with
  | error e => rw [bind_err hl] at hg; cases hg
  | ok r =>
    obtain ⟨p, s₁⟩ := r
    obtain rfl := (Reader.lookup _ _ _ _).ok hl |>.1
    rw [bind_ok hl] at hg
    cases p with
    | none => cases hg; exact ⟨rfl, .inl ⟨rfl, rfl, rfl⟩⟩
    | some p =>
      rcases loadKv_cases p s₁ with ⟨a, ko, w, rfl, hm⟩ | ⟨e, h1, _⟩
      · simp only [bind_assoc_M] at hg
        rw [bind_ok (loadKv_ok hm)] at hg
        cases hg
        exact ⟨rfl, .inr ⟨rfl, a, ko, rfl, hm⟩⟩
      · simp only [bind_assoc_M] at hg
        rw [bind_err h1] at hg; cases hg

theorem exec_found {a : Nat} {ko : Option K} {v : V} (hl : lookup I.cfg h fuel k s = .ok (some (.blk a), s)) (hm : s.mem a = some (.kv ko v)) :
    I.exec fuel (some h) (.get k) s = .ok (.pair v true, s) ∧ I.exec fuel (some h) (.val k) s = .ok (.one v, s) ∧
      I.exec fuel (some h) (.ptr k) s = .ok (.opt (some v), s) ∧
      ∀ w, I.exec fuel (some h) (.write k w) s = .ok (.unit, s.put a (.kv ko w)) := by
  simp only [MapImpl.exec, MapImpl.Get, MapImpl.Val, Ptr_some, bind_assoc_M]
  refine ⟨?_, ?_, ?_, fun w => ?_⟩
  · rw [bind_ok hl]; simp only [bind_assoc_M]; rw [bind_ok (loadKv_ok hm)]; rfl
  · rw [bind_ok hl]; simp only [bind_assoc_M]; rw [bind_ok (loadKv_ok hm)]; rfl
  · rw [bind_ok hl]; simp only; rw [bind_ok (loadKv_ok hm)]; rfl
  · rw [bind_ok hl]; simp only; rw [bind_ok (storeVal_ok hm)]; rfl

theorem set_found (hI : IsMap I g) {a : Nat} {ko : Option K} {v : V} (hl : lookup I.cfg h fuel k s = .ok (some (.blk a), s))
    (hm : s.mem a = some (.kv ko v)) (w : V) : I.exec fuel (some h) (.set k w) s = .ok (.unit, s.put a (.kv ko w)) := by
  show ((upsert I.cfg h fuel k (I.setI k w)) >>= fun _ => pure MOut.unit) s = _
  rw [bind_ok (a := ()) (s' := s.put a (.kv ko w))]
  · rfl
  · rw [upsert_found hl, hI.facts.setHit, storeVal_ok hm]

/-- In the memory `s`, `Len` of the container at `h` returns `n`. -/
def LenIs (I : MapImpl K V) (fuel h : Nat) (s : St K V) (n : BitVec 64) : Prop :=
  I.exec fuel (some h) .len s = .ok (.num n, s)

/-- `Len` and `Dep` of the container at `h` return the same in both memories. -/
def SameCounters (I : MapImpl K V) (fuel h : Nat) (s s₁ : St K V) : Prop :=
  ∀ op, op = MOp.len ∨ op = MOp.dep → ∃ o, I.exec fuel (some h) op s = .ok (o, s) ∧ I.exec fuel (some h) op s₁ = .ok (o, s₁)

theorem lenIs (I : MapImpl K V) (fuel h : Nat) (s : St K V) : LenIs I fuel h s (s.roots h).len := rfl

theorem LenIs.eq {n : BitVec 64} (h1 : LenIs I fuel h s n) : n = (s.roots h).len := by
  have := h1.symm.trans (lenIs I fuel h s)
  cases this; rfl

theorem sameCounters {s₁ : St K V} (hr : s₁.roots h = s.roots h) : SameCounters I fuel h s s₁ := by
  intro op hop
  rcases hop with rfl | rfl
  · exact ⟨_, rfl, by simp only [MapImpl.exec, MapImpl.Len, bind_assoc_M]; rw [bind_ok (getRoot_run h _), hr]; rfl⟩
  · simp only [MapImpl.exec, MapImpl.Dep, bind_assoc_M]
    rw [bind_ok (getRoot_run h _), bind_ok (getRoot_run h _), hr]
    split
    · exact ⟨_, rfl, rfl⟩
    · exact ⟨_, rfl, rfl⟩

/-- C55.  In any memory, if `Get(k)` finds a value then `Val` and `Ptr` find it, `Set(k, v)` is the same as writing `v`
through `Ptr(k)` and the same as a `Mod` whose callback leaves `v`; that callback is called once, with the value found.
After that `Get(k)` returns `v`, `Len` and `Dep` (of any container) are unchanged, every key that was missing is still missing, every key that was found
is still found, and setting the old value brings back exactly the old memory. -/
theorem C55_stored (hI : IsMap I g) {v₀ : V} {s₀ : St K V} (hg : I.exec fuel (some h) (.get k) s = .ok (.pair v₀ true, s₀)) :
    s₀ = s ∧ I.exec fuel (some h) (.val k) s = .ok (.one v₀, s) ∧ I.exec fuel (some h) (.ptr k) s = .ok (.opt (some v₀), s) ∧
    ∀ v, ∃ s₁, I.exec fuel (some h) (.set k v) s = .ok (.unit, s₁) ∧ I.exec fuel (some h) (.write k v) s = .ok (.unit, s₁) ∧
      (∀ f, f v₀ true = v → I.exec fuel (some h) (.mod k f) s = .ok (.calls [(v₀, true)], s₁)) ∧
      I.exec fuel (some h) (.get k) s₁ = .ok (.pair v true, s₁) ∧
      (∀ h', SameCounters I fuel h' s s₁) ∧
      (∀ k' w b, I.exec fuel (some h) (.get k') s = .ok (.pair w b, s) →
        ∃ w', (w' = w ∨ (b = true ∧ w' = v)) ∧ I.exec fuel (some h) (.get k') s₁ = .ok (.pair w' b, s₁)) ∧
      I.exec fuel (some h) (.set k v₀) s₁ = .ok (.unit, s) := by
  obtain ⟨rfl, ⟨hb, _⟩ | ⟨_, a, ko, hl, hm⟩⟩ := get_lookup hg
  · cases hb
  obtain ⟨e1, e2, e3, e4⟩ := exec_found hl hm
  refine ⟨rfl, e2, e3, fun v => ⟨_, set_found hI hl hm v, e4 v, fun f hf => ?_, ?_⟩⟩
  · show ((upsert I.cfg h fuel k (I.modI k f)) >>= fun l => pure (MOut.calls l)) s₀ = _
    rw [bind_ok (a := [(v₀, true)]) (s' := s₀.put a (.kv ko v))]
    · rfl
    · rw [upsert_found hl, hI.facts.modHit, bind_ok (loadKv_ok hm)]
      simp only [hf]
      rw [bind_ok (storeVal_ok hm)]
      rfl
  · have hs := SameShape.put hm v
    have hl' := (Reader.lookup I.cfg h fuel k).ok hl |>.2 _ hs
    have hm' : (s₀.put a (.kv ko v)).mem a = some (.kv ko v) := by simp
    refine ⟨(exec_found hl' hm').1, fun h' => sameCounters rfl, fun k' w b e => ?_, ?_⟩
    · obtain ⟨_, ⟨rfl, rfl, hn⟩ | ⟨rfl, a', ko', hl2, hm2⟩⟩ := get_lookup e
      · refine ⟨default, .inl rfl, ?_⟩
        have := (Reader.lookup I.cfg h fuel k').ok hn |>.2 _ hs
        simp only [MapImpl.exec, MapImpl.Get, Ptr_some, bind_assoc_M]
        rw [bind_ok this]
        rfl
      · have := (Reader.lookup I.cfg h fuel k').ok hl2 |>.2 _ hs
        by_cases ha : a' = a
        · subst ha
          exact ⟨v, .inr ⟨rfl, rfl⟩, (exec_found this hm').1⟩
        · exact ⟨w, .inl rfl, (exec_found this (by rw [put_mem, if_neg ha]; exact hm2)).1⟩
    · have := set_found hI hl' hm' v₀
      rw [put_put, put_self hm] at this
      exact this

/-- In a map whose cells contain their keys, the cell that a lookup finds contains the key. -/
theorem KeyedMap.cell (hK : KeyedMap I) {p : Amt.Ptr} {s' : St K V} (hl : lookup I.cfg h fuel k s = .ok (some p, s')) :
    ∃ a v, p = .blk a ∧ s.mem a = some (.kv (some k) v) := by
  have hs : I.cfg.store = .boxed := by cases hK <;> rfl
  have heq : ∀ a b, I.cfg.eq a b = true → a = b := by
    cases hK with
    | generic J heq => exact heq
    | _ => exact fun a b h => of_decide_eq_true h
  unfold lookup at hl
  rw [bind_ok (getRoot_run h s)] at hl
  cases h1 : search I.cfg (s.roots h).seed k fuel (start I.cfg (s.roots h).seed k h) s with
  | error e => rw [bind_err h1] at hl; cases hl
  | ok r =>
    obtain ⟨⟨cur, hit⟩, s1⟩ := r
    obtain rfl := (Reader.search _ _ _ _ _).ok h1 |>.1
    rw [bind_ok h1] at hl
    cases hit with
    | false => cases hl
    | true =>
      simp only [if_true] at hl
      cases h2 : (itemRef cur : M K V Ref) s1 with
      | error e => rw [bind_err h2] at hl; cases hl
      | ok r =>
        obtain ⟨item, s2⟩ := r
        obtain rfl := (Reader.bind (Reader.load _) fun _ => Reader.pure _).ok h2 |>.1
        rw [bind_ok h2] at hl
        cases h3 : (load item : M K V Link) s2 with
        | error e => rw [bind_err h3] at hl; cases hl
        | ok r =>
          obtain ⟨x, s3⟩ := r
          obtain rfl := (Reader.load _).ok h3 |>.1
          rw [bind_ok h3] at hl
          cases h4 : (readKey I.cfg x : M K V K) s3 with
          | error e => rw [bind_err h4] at hl; cases hl
          | ok r =>
            obtain ⟨k', s4⟩ := r
            obtain rfl := (Reader.readKey _ _).ok h4 |>.1
            rw [bind_ok h4] at hl
            simp only [readKey, hs] at h4
            rcases loadKv_cases x.ptr s4 with ⟨a, ko, w, hx, hm⟩ | ⟨e, h5, _⟩
            · rw [hx, bind_ok (loadKv_ok hm)] at h4
              cases ko with
              | none => cases h4
              | some k'' =>
                cases h4
                cases hk : I.cfg.eq k k' with
                | false => rw [hk] at hl; cases hl
                | true =>
                  rw [hk] at hl; cases hl
                  rw [heq _ _ hk]
                  exact ⟨a, w, hx, hm⟩
            · rw [bind_err h5] at h4; cases h4

/-- C55, other keys: in the four maps whose cells contain their keys, in any memory, `Set` of a stored key does not
change what `Get` does with any other key (whether it returns or not). -/
theorem C55_local (hI : IsMap I g) (hK : KeyedMap I) {v₀ : V} {s₀ : St K V} (hg : I.exec fuel (some h) (.get k) s = .ok (.pair v₀ true, s₀))
    (v : V) {s₁ : St K V} (hs : I.exec fuel (some h) (.set k v) s = .ok (.unit, s₁)) {k' : K} (hk : k' ≠ k) :
    I.exec fuel (some h) (.get k') s₁ = (I.exec fuel (some h) (.get k') s).map (fun r => (r.1, s₁)) := by
  obtain ⟨rfl, ⟨hb, _⟩ | ⟨_, a, ko, hl, hm⟩⟩ := get_lookup hg
  · cases hb
  rw [set_found hI hl hm v] at hs
  cases hs
  have hsh := SameShape.put hm v
  obtain ⟨r, e1, e2⟩ := Reader.lookup I.cfg h fuel k' _ _ hsh
  simp only [MapImpl.exec, MapImpl.Get, Ptr_some, bind_assoc_M]
  cases r with
  | error e => rw [bind_err e1, bind_err e2]; rfl
  | ok p =>
    rw [bind_ok e1, bind_ok e2]
    cases p with
    | none => rfl
    | some p =>
      obtain ⟨a', w, rfl, hm2⟩ := hK.cell e1
      obtain ⟨a₁, v₁, h1, hm1⟩ := hK.cell hl
      cases h1
      have ha : a' ≠ a := by
        intro h; subst h
        rw [hm1] at hm2; cases hm2; exact hk rfl
      simp only [bind_assoc_M]
      rw [bind_ok (loadKv_ok hm2), bind_ok (loadKv_ok (v := w) (k := some k') (by rw [put_mem, if_neg ha]; exact hm2))]
      rfl

/-- C56.  In any memory, if `Get(k)` says that the key is missing, it returns the zero value, `Val` the zero value and
`Ptr` nil; writing through the (nil) pointer if it is not nil, and `Del(k)`, change nothing. -/
theorem C56_missing (hI : IsMap I g) {v₀ : V} {s₀ : St K V} (hg : I.exec fuel (some h) (.get k) s = .ok (.pair v₀ false, s₀)) :
    s₀ = s ∧ v₀ = default ∧ I.exec fuel (some h) (.val k) s = .ok (.one default, s) ∧ I.exec fuel (some h) (.ptr k) s = .ok (.opt none, s) ∧
      (∀ v, I.exec fuel (some h) (.write k v) s = .ok (.unit, s)) ∧ I.exec fuel (some h) (.del k) s = .ok (.unit, s) := by
  obtain ⟨rfl, ⟨_, rfl, hl⟩ | ⟨hb, _⟩⟩ := get_lookup hg
  · refine ⟨rfl, rfl, ?_, ?_, fun v => ?_, ?_⟩
    · simp only [MapImpl.exec, MapImpl.Val, Ptr_some, bind_assoc_M]
      rw [bind_ok hl]; rfl
    · simp only [MapImpl.exec, Ptr_some]
      rw [bind_ok hl]; rfl
    · simp only [MapImpl.exec, Ptr_some]
      rw [bind_ok hl]; rfl
    · show (delete I.cfg h fuel I.delSkip k >>= fun _ => pure MOut.unit) s₀ = _
      rcases delete_after (skip := I.delSkip) hl with ⟨_, h1⟩ | ⟨h1, _⟩
      · rw [bind_ok h1]; rfl
      · rw [hI.facts.skip] at h1; cases h1
  · cases hb

/-- C56, insertion: in any memory, if `Get(k)` says that the key is missing and `Mod(k, f)` returns, `f` has been called
exactly once, with a zero value and `false`; after `Mod` or `Set` there is one more entry (`BytesMap` may
have replaced one instead).  The counters and seeds of other containers are untouched. -/
theorem C56_insert (hI : IsMap I g) {v₀ : V} {s₀ : St K V} (hg : I.exec fuel (some h) (.get k) s = .ok (.pair v₀ false, s₀))
    {o : MOut K V} {s₁ : St K V} :
    (∀ f, I.exec fuel (some h) (.mod k f) s = .ok (o, s₁) → o = .calls [(default, false)] ∧
      (∀ n, LenIs I fuel h s n → LenIs I fuel h s₁ (n + 1#64) ∨ (g = true ∧ LenIs I fuel h s₁ n)) ∧
      ∀ h', h' ≠ h → SameCounters I fuel h' s s₁) ∧
    (∀ v, I.exec fuel (some h) (.set k v) s = .ok (o, s₁) → o = .unit ∧
      (∀ n, LenIs I fuel h s n → LenIs I fuel h s₁ (n + 1#64) ∨ (g = true ∧ LenIs I fuel h s₁ n)) ∧
      ∀ h', h' ≠ h → SameCounters I fuel h' s s₁) := by
  obtain ⟨rfl, ⟨_, rfl, hl⟩ | ⟨hb, _⟩⟩ := get_lookup hg
  · refine ⟨fun f e => ?_, fun v e => ?_⟩
    · have e : (upsert I.cfg h fuel k (I.modI k f) >>= fun l => pure (MOut.calls l)) s₀ = _ := e
      cases hu : upsert I.cfg h fuel k (I.modI k f) s₀ with
      | error x => rw [bind_err hu] at e; cases e
      | ok r =>
        rw [bind_ok hu] at e; cases e
        obtain ⟨h1, ⟨δ, h2, h3⟩, _, h4⟩ := upsert_missing (hI.facts.modNew h k f) hl hu
        refine ⟨by rw [h1], fun n hn => ?_, fun h' hh => sameCounters (h4 h' hh)⟩
        rw [hn.eq]
        rcases h2 with rfl | ⟨h2, rfl⟩
        · exact .inl (by rw [← h3]; exact lenIs ..)
        · exact .inr ⟨by rw [← hI.facts.modGuard k f, h2], by rw [← BitVec.add_zero (s₀.roots h).len, ← h3]; exact lenIs ..⟩
    · have e : (upsert I.cfg h fuel k (I.setI k v) >>= fun _ => pure MOut.unit) s₀ = _ := e
      cases hu : upsert I.cfg h fuel k (I.setI k v) s₀ with
      | error x => rw [bind_err hu] at e; cases e
      | ok r =>
        rw [bind_ok hu] at e; cases e
        obtain ⟨h1, ⟨δ, h2, h3⟩, _, h4⟩ := upsert_missing (hI.facts.setNew h k v) hl hu
        refine ⟨rfl, fun n hn => ?_, fun h' hh => sameCounters (h4 h' hh)⟩
        rw [hn.eq]
        rcases h2 with rfl | ⟨h2, rfl⟩
        · exact .inl (by rw [← h3]; exact lenIs ..)
        · exact .inr ⟨by rw [← hI.facts.setGuard k v, h2], by rw [← BitVec.add_zero (s₀.roots h).len, ← h3]; exact lenIs ..⟩
  · cases hb

/-- C55, deletion: in any memory, if `Get(k)` finds the key and `Del(k)` returns, there is one entry less. -/
theorem C55_del (hI : IsMap I g) {v₀ : V} {s₀ : St K V} (hg : I.exec fuel (some h) (.get k) s = .ok (.pair v₀ true, s₀))
    {o : MOut K V} {s₁ : St K V} (hd : I.exec fuel (some h) (.del k) s = .ok (o, s₁)) :
    o = .unit ∧ (∀ n, LenIs I fuel h s n → LenIs I fuel h s₁ (n - 1#64)) ∧ ∀ h', h' ≠ h → SameCounters I fuel h' s s₁ := by
  obtain ⟨rfl, ⟨hb, _⟩ | ⟨_, a, ko, hl, hm⟩⟩ := get_lookup hg
  · cases hb
  have e : (delete I.cfg h fuel I.delSkip k >>= fun _ => pure MOut.unit) s₀ = _ := hd
  cases hu : delete I.cfg h fuel I.delSkip k s₀ with
  | error x => rw [bind_err hu] at e; cases e
  | ok r =>
    rw [bind_ok hu] at e; cases e
    rcases delete_after (skip := I.delSkip) hl with ⟨h1 | h1, _⟩ | ⟨_, h1⟩
    · rw [hI.facts.skip] at h1; cases h1
    · cases h1
    · exact ⟨rfl, fun n hn => by rw [hn.eq, ← (h1 _ hu).1]; exact lenIs .., fun h' hh => sameCounters ((h1 _ hu).2.2 h' hh)⟩

/-- C57.  In any memory, if `Get(k)` fails in some way (panics, or does not return), then `Val`, `Ptr`, writing through the pointer, `Set` and
`Mod` fail in the same way; in a map whose cells contain their keys, so does `Del`. -/
theorem C57_faults (hI : IsMap I g) {e : Fault} (hg : I.exec fuel (some h) (.get k) s = .error e) :
    I.exec fuel (some h) (.val k) s = .error e ∧ I.exec fuel (some h) (.ptr k) s = .error e ∧
      (∀ v, I.exec fuel (some h) (.write k v) s = .error e) ∧ (∀ v, I.exec fuel (some h) (.set k v) s = .error e) ∧
      (∀ f, I.exec fuel (some h) (.mod k f) s = .error e) ∧ (KeyedMap I → I.exec fuel (some h) (.del k) s = .error e) := by
  have hset : ∀ v, I.exec fuel (some h) (.set k v) s = (upsert I.cfg h fuel k (I.setI k v) >>= fun _ => pure MOut.unit) s := fun _ => rfl
  have hmod : ∀ f, I.exec fuel (some h) (.mod k f) s = (upsert I.cfg h fuel k (I.modI k f) >>= fun l => pure (MOut.calls l)) s := fun _ => rfl
  have hdel : I.exec fuel (some h) (.del k) s = (delete I.cfg h fuel I.delSkip k >>= fun _ => pure MOut.unit) s := rfl
  cases hl : lookup I.cfg h fuel k s with
  | error e' =>
    have : e' = e := by
      simp only [MapImpl.exec, MapImpl.Get, Ptr_some, bind_assoc_M] at hg
      rw [bind_err hl] at hg; cases hg; rfl
    subst this
    refine ⟨?_, ?_, fun v => ?_, fun v => ?_, fun f => ?_, fun _ => ?_⟩
    · simp only [MapImpl.exec, MapImpl.Val, Ptr_some, bind_assoc_M]; rw [bind_err hl]
    · simp only [MapImpl.exec, Ptr_some]; rw [bind_err hl]
    · simp only [MapImpl.exec, Ptr_some]; rw [bind_err hl]
    · rw [hset, bind_err (upsert_fault hl _)]
    · rw [hmod, bind_err (upsert_fault hl _)]
    · rw [hdel, bind_err (delete_fault hl)]
  | ok r =>
    obtain ⟨p, s'⟩ := r
    obtain rfl := (Reader.lookup _ _ _ _).ok hl |>.1
    simp only [MapImpl.exec, MapImpl.Get, Ptr_some, bind_assoc_M] at hg
    rw [bind_ok hl] at hg
    cases p with
    | none => cases hg
    | some p =>
      simp only [bind_assoc_M] at hg
      rcases loadKv_cases p s' with ⟨a, ko, w, rfl, hm⟩ | ⟨e', h1, h2⟩
      · rw [bind_ok (loadKv_ok hm)] at hg; cases hg
      · rw [bind_err h1] at hg; cases hg
        refine ⟨?_, ?_, fun v => ?_, fun v => ?_, fun f => ?_, fun hK => ?_⟩
        · simp only [MapImpl.exec, MapImpl.Val, Ptr_some, bind_assoc_M]; rw [bind_ok hl]; simp only [bind_assoc_M]; rw [bind_err h1]
        · simp only [MapImpl.exec, Ptr_some]; rw [bind_ok hl]; simp only; rw [bind_err h1]
        · simp only [MapImpl.exec, Ptr_some]; rw [bind_ok hl]; simp only; rw [bind_err (h2 v)]
        · rw [hset, bind_err]; rw [upsert_found hl, hI.facts.setHit, h2 v]
        · rw [hmod, bind_err]; rw [upsert_found hl, hI.facts.modHit, bind_err h1]
        · obtain ⟨a, v, rfl, hm⟩ := hK.cell hl
          rw [loadKv_ok hm] at h1; cases h1

end

/-! ### Iteration -/

/-- The calls of the callback on the items `xs`, in order, with nothing in between; the result says whether the last call returned
true (or there was none). -/
def Visits {K V U : Type} (visit : U → Link → M K V (U × Bool)) : List Link → U → St K V → U × Bool → St K V → Prop
  | [], u, s, r, s' => r = (u, true) ∧ s' = s
  | x :: xs, u, s, r, s' => ∃ u₁ go s₁, visit u x s = .ok ((u₁, go), s₁) ∧
    if go = true then Visits visit xs u₁ s₁ r s' else xs = [] ∧ r = (u₁, false) ∧ s' = s₁

/-- The items of a branch and below, in the order of a scan. -/
def listItems {K V : Type} (rec : Ref → M K V (List Link)) (l : Ref) (tmap : BitVec 32) : (n i : Nat) → (pmap : BitVec 32) → M K V (List Link)
  | 0, _, _ => pure []
  | n + 1, i, pmap => do
    let bit := bitOf (trailingZeros pmap)
    let lk ← load l
    let item : Ref := ⟨lk.ptr, i⟩
    let xs ← if tmap &&& bit ≠ 0#32 then do
        let x ← load item
        pure [x]
      else rec item
    let ys ← listItems rec l tmap n (i + 1) (pmap &&& ~~~bit)
    pure (xs ++ ys)

def listScan {K V : Type} : (fuel : Nat) → Ref → M K V (List Link)
  | 0, _ => M.fail .diverge
  | fuel + 1, l => do
    let lk ← load l
    listItems (listScan fuel) l lk.tmap (popcount lk.pmap) 0 lk.pmap

section
variable {K V U : Type}

theorem Reader.listItems {rec : Ref → M K V (List Link)} (h : ∀ r, Reader (rec r)) (l : Ref) (tm : BitVec 32) (n i : Nat) (pm : BitVec 32) :
    Reader (listItems rec l tm n i pm) := by
  induction n generalizing i pm with
  | zero => exact Reader.pure _
  | succ n ih =>
    rw [Amt.listItems]
    exact Reader.bind (Reader.load _) fun lk => Reader.ite
      (Reader.bind (Reader.load _) fun x => Reader.bind (Reader.pure _) fun _ => Reader.bind (ih _ _) fun _ => Reader.pure _)
      (Reader.bind (h _) fun xs => Reader.bind (ih _ _) fun _ => Reader.pure _)

theorem Reader.listScan (fuel : Nat) (l : Ref) : Reader (listScan fuel l : M K V (List Link)) := by
  induction fuel generalizing l with
  | zero => exact Reader.fail _
  | succ fuel ih =>
    rw [Amt.listScan]
    exact Reader.bind (Reader.load _) fun lk => Reader.listItems ih _ _ _ _ _

variable {visit : U → Link → M K V (U × Bool)}

theorem Visits.append {xs ys : List Link} : ∀ {u u₁ : U} {s s₁ s' : St K V} {r : U × Bool}, Visits visit xs u s (u₁, true) s₁ →
    Visits visit ys u₁ s₁ r s' → Visits visit (xs ++ ys) u s r s' := by
  induction xs with
  | nil => intro u u₁ s s₁ s' r h1 h2; obtain ⟨h1, rfl⟩ := h1; cases h1; exact h2
  | cons x xs ih =>
    intro u u₁ s s₁ s' r h1 h2
    obtain ⟨u₂, go, s₂, e1, e2⟩ := h1
    refine ⟨u₂, go, s₂, e1, ?_⟩
    cases go with
    | false => obtain ⟨_, h, _⟩ := e2; cases h
    | true => exact ih e2 h2

/-- The callback only changes values. -/
def Mild (visit : U → Link → M K V (U × Bool)) : Prop := ∀ u x s r s', visit u x s = .ok (r, s') → SameShape s s'

theorem Visits.shape (hv : Mild visit) {xs : List Link} : ∀ {u : U} {s s' : St K V} {r : U × Bool}, Visits visit xs u s r s' → SameShape s s' := by
  induction xs with
  | nil => intro u s s' r h; rw [h.2]; exact SameShape.refl _
  | cons x xs ih =>
    intro u s s' r h
    obtain ⟨u₂, go, s₂, e1, e2⟩ := h
    cases go with
    | false => obtain ⟨_, _, rfl⟩ := e2; exact hv _ _ _ _ _ e1
    | true => exact (hv _ _ _ _ _ e1).trans (ih e2)

/-- What a scan does, whatever the memory: it calls the callback on a prefix of the items, which are determined
beforehand, until a call returns false. -/
def ScanOk (visit : U → Link → M K V (U × Bool)) (x : M K V (U × Bool)) (u : U) (items : M K V (List Link)) : Prop :=
  ∀ s r s', x s = .ok (r, s') → ∃ xs, Visits visit xs u s r s' ∧
    (∀ all, items s = .ok (all, s) → xs <+: all) ∧ (r.2 = true → items s = .ok (xs, s))

theorem scanItems_ok (hv : Mild visit) {rec : U → Ref → M K V (U × Bool)} {lrec : Ref → M K V (List Link)} (hl : ∀ r, Reader (lrec r))
    (hr : ∀ u r, ScanOk visit (rec u r) u (lrec r)) (l : Ref) (tm : BitVec 32) (n i : Nat) (pm : BitVec 32) (u : U) :
    ScanOk visit (scanItems visit rec l tm n i pm u) u (listItems lrec l tm n i pm) := by
  induction n generalizing i pm u with
  | zero =>
    intro s r s' e
    cases e
    exact ⟨[], ⟨rfl, rfl⟩, fun all _ => List.nil_prefix, fun _ => rfl⟩
  | succ n ih =>
    intro s r s' e
    rw [scanItems] at e
    rw [listItems]
    cases h1 : (load l : M K V Link) s with
    | error x => rw [bind_err h1] at e; cases e
    | ok q =>
      obtain ⟨lk, s1⟩ := q
      obtain rfl := (Reader.load _).ok h1 |>.1
      rw [bind_ok h1] at e ⊢
      simp only at e ⊢
      -- the calls made for the first item, then the others
      have fin : ∀ (y : M K V (U × Bool)) (ly : M K V (List Link)), ScanOk visit y u ly → Reader ly →
          (y >>= fun p => if p.2 = true then scanItems visit rec l tm n (i + 1) (pm &&& ~~~bitOf (trailingZeros pm)) p.1 else pure (p.1, false)) s1 = .ok (r, s') →
          ∃ xs, Visits visit xs u s1 r s' ∧
            (∀ all, (ly >>= fun xs => listItems lrec l tm n (i + 1) (pm &&& ~~~bitOf (trailingZeros pm)) >>= fun ys => pure (xs ++ ys)) s1 = .ok (all, s1) → xs <+: all) ∧
            (r.2 = true → (ly >>= fun xs => listItems lrec l tm n (i + 1) (pm &&& ~~~bitOf (trailingZeros pm)) >>= fun ys => pure (xs ++ ys)) s1 = .ok (xs, s1)) := by
        intro y ly hy hly e
        cases h2 : y s1 with
        | error x => rw [bind_err h2] at e; cases e
        | ok q =>
          obtain ⟨⟨u₁, go⟩, s2⟩ := q
          rw [bind_ok h2] at e
          obtain ⟨xs, v1, v2, v3⟩ := hy _ _ _ h2
          cases go with
          | false =>
            cases e
            refine ⟨xs, v1, fun all ha => ?_, fun h => by cases h⟩
            cases h3 : ly s1 with
            | error x => rw [bind_err h3] at ha; cases ha
            | ok q =>
              obtain ⟨zs, s3⟩ := q
              obtain rfl := hly.ok h3 |>.1
              rw [bind_ok h3] at ha
              cases h4 : listItems lrec l tm n (i + 1) (pm &&& ~~~bitOf (trailingZeros pm)) s3 with
              | error x => rw [bind_err h4] at ha; cases ha
              | ok q =>
                rw [bind_ok h4] at ha; cases ha
                exact (v2 _ h3).trans (List.prefix_append _ _)
          | true =>
            simp only [if_true] at e
            obtain ⟨ys, w1, w2, w3⟩ := ih _ _ _ _ _ _ e
            have hsh : SameShape s2 s1 := (v1.shape hv).symm
            have hR := Reader.listItems hl l tm n (i + 1) (pm &&& ~~~bitOf (trailingZeros pm))
            refine ⟨xs ++ ys, v1.append w1, fun all ha => ?_, fun h => ?_⟩
            · rw [bind_ok (v3 rfl)] at ha
              cases h4 : listItems lrec l tm n (i + 1) (pm &&& ~~~bitOf (trailingZeros pm)) s1 with
              | error x => rw [bind_err h4] at ha; cases ha
              | ok q =>
                rw [bind_ok h4] at ha; cases ha
                exact (List.prefix_append_right_inj _).2 (w2 _ ((hR.ok h4).2 _ hsh.symm))
            · rw [bind_ok (v3 rfl), bind_ok ((hR.ok (w3 h)).2 _ hsh)]
              rfl
      by_cases ht : tm &&& bitOf (trailingZeros pm) ≠ 0#32
      · rw [if_pos ht] at e ⊢
        have q := fin (load ⟨lk.ptr, i⟩ >>= fun x => visit u x) (load ⟨lk.ptr, i⟩ >>= fun x => pure [x]) (fun s r s' e => by
          cases h2 : (load (⟨lk.ptr, i⟩ : Ref) : M K V Link) s with
          | error x => rw [bind_err h2] at e; cases e
          | ok q =>
            obtain ⟨x, s2⟩ := q
            obtain rfl := (Reader.load _).ok h2 |>.1
            rw [bind_ok h2] at e
            refine ⟨[x], ?_, fun all ha => ?_, fun _ => by rw [bind_ok h2]; rfl⟩
            · refine ⟨r.1, r.2, s', e, ?_⟩
              obtain ⟨u₁, go⟩ := r
              cases go
              · exact ⟨rfl, rfl, rfl⟩
              · exact ⟨rfl, rfl⟩
            · rw [bind_ok h2] at ha; cases ha; exact List.prefix_refl _)
          (Reader.bind (Reader.load _) fun _ => Reader.pure _) (by rw [bind_assoc_M]; exact e)
        simp only [bind_assoc_M] at q ⊢
        exact q
      · rw [if_neg ht] at e ⊢
        exact fin _ _ (hr _ _) (hl _) e

theorem scan_ok (hv : Mild visit) (fuel : Nat) (u : U) (l : Ref) : ScanOk visit (scan visit fuel u l) u (listScan fuel l) := by
  induction fuel generalizing u l with
  | zero => intro s r s' e; cases e
  | succ fuel ih =>
    intro s r s' e
    rw [scan] at e
    rw [listScan]
    cases h1 : (load l : M K V Link) s with
    | error x => rw [bind_err h1] at e; cases e
    | ok q =>
      obtain ⟨lk, s1⟩ := q
      obtain rfl := (Reader.load _).ok h1 |>.1
      rw [bind_ok h1] at e ⊢
      exact scanItems_ok hv (Reader.listScan fuel) ih _ _ _ _ _ _ _ _ _ e

end

/-! ### Every key that can be found is visited -/

theorem rankOf_cnt (x : BitVec 32) {r : Nat} (hr : r < 32) : rankOf x r = cnt (fun i => x.getLsbD i) r := by
  unfold rankOf
  rw [popcount_eq]
  have key : ∀ i, i < 32 → (x &&& ~~~(BitVec.allOnes 32 <<< r)).getLsbD i = (decide (i < r) && x.getLsbD i) := by
    intro i hi
    rw [BitVec.getLsbD_and, BitVec.getLsbD_not, BitVec.getLsbD_shiftLeft]
    by_cases h1 : i < r
    · simp [h1, hi]
    · have h3 : (BitVec.allOnes 32).getLsbD (i - r) = true := by
        rw [BitVec.getLsbD_allOnes]; simp; omega
      rw [h3]; simp [h1, hi]
  rw [cnt_congr key, cnt_zeros (m := r) (by omega)]
  · exact cnt_congr (fun i hi => by simp [hi])
  · intro i h1 _; have : ¬ i < r := by omega
    simp [this]

theorem lowest_bit {x : BitVec 32} (r : Nat) (h : x.getLsbD r = true) :
    ∃ t, t ≤ r ∧ x.getLsbD t = true ∧ ∀ i, i < t → x.getLsbD i = false := by
  induction r using Nat.strongRecOn with
  | _ r ih =>
    by_cases hl : ∃ i, i < r ∧ x.getLsbD i = true
    · obtain ⟨i, hi, hx⟩ := hl
      obtain ⟨t, h1, h2⟩ := ih i hi hx
      exact ⟨t, by omega, h2⟩
    · refine ⟨r, Nat.le_refl _, h, fun i hi => ?_⟩
      cases hx : x.getLsbD i with
      | false => rfl
      | true => exact absurd ⟨i, hi, hx⟩ hl

section
variable {K V : Type}

/-- The item for a set bit is among those listed. -/
theorem listItems_mem {rec : Ref → M K V (List Link)} (hrec : ∀ r, Reader (rec r)) {l : Ref} {tm : BitVec 32} {s : St K V} {lk : Link}
    (hl : load l s = .ok (lk, s)) {r : Nat} (hr : r < 32) :
    ∀ {n i : Nat} {pm : BitVec 32} {all : List Link}, listItems rec l tm n i pm s = .ok (all, s) → pm.getLsbD r = true →
      cnt (fun i => pm.getLsbD i) r < n →
      (tm &&& bitOf r ≠ 0#32 → ∃ x, load ⟨lk.ptr, i + cnt (fun i => pm.getLsbD i) r⟩ s = .ok (x, s) ∧ x ∈ all) ∧
      (tm &&& bitOf r = 0#32 → ∃ sub, rec ⟨lk.ptr, i + cnt (fun i => pm.getLsbD i) r⟩ s = .ok (sub, s) ∧ ∀ x ∈ sub, x ∈ all) := by
  intro n
  induction n with
  | zero => intro i pm all _ _ h; omega
  | succ n ih =>
    intro i pm all e hb hn
    rw [listItems, bind_ok hl] at e
    simp only at e
    obtain ⟨t, ht, hbt, hlow⟩ := lowest_bit r hb
    have htz : trailingZeros pm = t := trailingZeros_spec (by omega) hbt hlow
    rw [htz] at e
    by_cases htr : t = r
    · subst htr
      have h0 : cnt (fun i => pm.getLsbD i) t = 0 := cnt_eq_zero.2 hlow
      rw [h0, Nat.add_zero]
      refine ⟨fun hty => ?_, fun hty => ?_⟩
      · rw [if_pos hty] at e
        cases h2 : (load (⟨lk.ptr, i⟩ : Ref) : M K V Link) s with
        | error x => rw [bind_err h2] at e; cases e
        | ok q =>
          obtain ⟨x, s2⟩ := q
          obtain rfl := (Reader.load _).ok h2 |>.1
          rw [bind_ok h2, bind_ok (pure_run _ _)] at e
          cases h3 : listItems rec l tm n (i + 1) (pm &&& ~~~bitOf t) s2 with
          | error x => rw [bind_err h3] at e; cases e
          | ok q => rw [bind_ok h3] at e; cases e; exact ⟨x, rfl, by simp⟩
      · rw [if_neg (by simpa using hty)] at e
        cases h2 : rec ⟨lk.ptr, i⟩ s with
        | error x => rw [bind_err h2] at e; cases e
        | ok q =>
          obtain ⟨sub, s2⟩ := q
          obtain rfl := (hrec _).ok h2 |>.1
          rw [bind_ok h2] at e
          cases h3 : listItems rec l tm n (i + 1) (pm &&& ~~~bitOf t) s2 with
          | error x => rw [bind_err h3] at e; cases e
          | ok q => rw [bind_ok h3] at e; cases e; exact ⟨sub, rfl, fun x hx => by simp [hx]⟩
    · have hrest : ∃ xs ys, listItems rec l tm n (i + 1) (pm &&& ~~~bitOf t) s = .ok (ys, s) ∧ all = xs ++ ys := by
        have hR := Reader.listItems hrec l tm n (i + 1) (pm &&& ~~~bitOf t)
        have fin : ∀ x : M K V (List Link), Reader x →
            (x >>= fun xs => listItems rec l tm n (i + 1) (pm &&& ~~~bitOf t) >>= fun ys => pure (xs ++ ys)) s = .ok (all, s) →
            ∃ xs ys, listItems rec l tm n (i + 1) (pm &&& ~~~bitOf t) s = .ok (ys, s) ∧ all = xs ++ ys := by
          intro x hx e
          cases h2 : x s with
          | error y => rw [bind_err h2] at e; cases e
          | ok q =>
            obtain ⟨xs, s2⟩ := q
            obtain rfl := hx.ok h2 |>.1
            rw [bind_ok h2] at e
            cases h3 : listItems rec l tm n (i + 1) (pm &&& ~~~bitOf t) s2 with
            | error y => rw [bind_err h3] at e; cases e
            | ok q =>
              obtain ⟨ys, s3⟩ := q
              obtain rfl := hR.ok h3 |>.1
              rw [bind_ok h3] at e; cases e
              exact ⟨xs, ys, rfl, rfl⟩
        by_cases hty : tm &&& bitOf t ≠ 0#32
        · rw [if_pos hty] at e
          exact fin (load ⟨lk.ptr, i⟩ >>= fun x => pure [x]) (Reader.bind (Reader.load _) fun _ => Reader.pure _) (by rw [bind_assoc_M]; exact e)
        · rw [if_neg hty] at e
          exact fin _ (hrec _) e
      obtain ⟨xs, ys, e1, rfl⟩ := hrest
      have hgs : ∀ j, (pm &&& ~~~bitOf t).getLsbD j = (pm.getLsbD j && !decide (j = t)) := fun j => getLsbD_andNot_bitOf (by omega) j
      have hc : cnt (fun i => pm.getLsbD i) r = cnt (fun i => (pm &&& ~~~bitOf t).getLsbD i) r + 1 := by
        rw [cnt_set (f := fun i => (pm &&& ~~~bitOf t).getLsbD i) (g := fun i => pm.getLsbD i) (i := t) (by rw [hgs]; simp) hbt
          (fun j hj => by rw [hgs]; simp [hj]) r, if_pos (by omega)]
      obtain ⟨q1, q2⟩ := ih e1 (by rw [hgs]; simp [hb, Ne.symm htr]) (by omega)
      have hi : i + 1 + cnt (fun i => (pm &&& ~~~bitOf t).getLsbD i) r = i + cnt (fun i => pm.getLsbD i) r := by omega
      rw [hi] at q1 q2
      refine ⟨fun h => ?_, fun h => ?_⟩
      · obtain ⟨x, h1, h2⟩ := q1 h
        exact ⟨x, h1, by simp [h2]⟩
      · obtain ⟨sub, h1, h2⟩ := q2 h
        exact ⟨sub, h1, fun x hx => by simp [h2 x hx]⟩

/-- The item at which a search ends is among those that a scan lists. -/
theorem search_listed {c : Cfg K} {sd : Seed} {key : K} {s : St K V} :
    ∀ {fuel fuel' : Nat} {cur cur' : Cur} {all : List Link}, search c sd key fuel cur s = .ok ((cur', true), s) →
      listScan fuel' cur.l s = .ok (all, s) → ∃ x, (itemRef cur' >>= fun item => load item) s = .ok (x, s) ∧ x ∈ all := by
  intro fuel
  induction fuel with
  | zero => intro fuel' cur cur' all h; cases h
  | succ fuel ih =>
    intro fuel' cur cur' all h hs
    cases fuel' with
    | zero => cases hs
    | succ fuel' =>
      rw [listScan] at hs
      rw [search] at h
      cases hl : (load cur.l : M K V Link) s with
      | error e => rw [bind_err hl] at h; cases h
      | ok q =>
        obtain ⟨lk, s1⟩ := q
        obtain rfl := (Reader.load _).ok hl |>.1
        rw [bind_ok hl] at h hs
        simp only at h
        have hr : radixOf cur.hd < 32 := by have := radixOf_lt cur.hd; omega
        split at h
        · rename_i hp
          have hb : lk.pmap.getLsbD (radixOf cur.hd) = true := (and_bitOf_ne_zero hr).1 hp
          obtain ⟨q1, q2⟩ := listItems_mem (Reader.listScan fuel') hl hr hs hb (by rw [popcount_eq]; exact cnt_lt _ hr hb)
          rw [Nat.zero_add, ← rankOf_cnt _ hr] at q1 q2
          split at h
          · rename_i ht
            obtain ⟨sub, e1, e2⟩ := q2 ht
            have hd : (descend c sd key { cur with path := cur.path ++ [(radixOf cur.hd, some cur.l)] } ⟨lk.ptr, rankOf lk.pmap (radixOf cur.hd)⟩).l
                = ⟨lk.ptr, rankOf lk.pmap (radixOf cur.hd)⟩ := by
              unfold descend; simp only; split <;> rfl
            obtain ⟨x, e3, e4⟩ := ih h (by rw [hd]; exact e1)
            exact ⟨x, e3, e2 x e4⟩
          · rename_i ht
            cases h
            obtain ⟨x, e1, e2⟩ := q1 ht
            refine ⟨x, ?_, e2⟩
            simp only [itemRef, bind_assoc_M, pure_bind_M]
            rw [bind_ok hl]
            exact e1
        · cases h

end

section
variable {K V : Type} {c : Cfg K}

/-- The item that a lookup finds is among those that a scan lists. -/
theorem lookup_listed {h fuel fuel' : Nat} {key : K} {s : St K V} {p : Amt.Ptr} {all : List Link}
    (hl : lookup c h fuel key s = .ok (some p, s)) (hs : listScan fuel' ⟨.blk h, 0⟩ s = .ok (all, s)) :
    ∃ x k', x ∈ all ∧ x.ptr = p ∧ readKey c x s = .ok (k', s) ∧ c.eq key k' = true := by
  unfold lookup at hl
  rw [bind_ok (getRoot_run h s)] at hl
  cases h1 : search c (s.roots h).seed key fuel (start c (s.roots h).seed key h) s with
  | error e => rw [bind_err h1] at hl; cases hl
  | ok r =>
    obtain ⟨⟨cur, hit⟩, s1⟩ := r
    obtain rfl := (Reader.search _ _ _ _ _).ok h1 |>.1
    rw [bind_ok h1] at hl
    cases hit with
    | false => cases hl
    | true =>
      obtain ⟨x, e1, e2⟩ := search_listed h1 hs
      simp only [if_true] at hl
      cases h2 : (itemRef cur : M K V Ref) s1 with
      | error e => rw [bind_err h2] at hl; cases hl
      | ok r =>
        obtain ⟨item, s2⟩ := r
        obtain rfl := (Reader.bind (Reader.load _) fun _ => Reader.pure _).ok h2 |>.1
        rw [bind_ok h2] at hl e1
        rw [bind_ok e1] at hl
        cases h4 : (readKey c x : M K V K) s2 with
        | error e => rw [bind_err h4] at hl; cases hl
        | ok r =>
          obtain ⟨k, s4⟩ := r
          obtain rfl := (Reader.readKey _ _).ok h4 |>.1
          rw [bind_ok h4] at hl
          cases hk : c.eq key k with
          | false => rw [hk] at hl; cases hl
          | true => rw [hk] at hl; cases hl; exact ⟨x, k, e2, rfl, h4, hk⟩

/-- One call of the callback of a map's `All`. -/
theorem visitMap_any {U : Type} {F : U → K → V → U × V × Bool} {u : U} {x : Link} {s s' : St K V} {r : U × Bool}
    (e : visitMap c F u x s = .ok (r, s')) : ∃ k a ko w, readKey c x s = .ok (k, s) ∧ x.ptr = .blk a ∧
      s.mem a = some (.kv ko w) ∧ r = ((F u k w).1, (F u k w).2.2) ∧ s' = s.put a (.kv ko (F u k w).2.1) := by
  unfold visitMap at e
  cases h1 : (readKey c x : M K V K) s with
  | error y => rw [bind_err h1] at e; cases e
  | ok q =>
    obtain ⟨k, s1⟩ := q
    obtain rfl := (Reader.readKey _ _).ok h1 |>.1
    rw [bind_ok h1] at e
    rcases loadKv_cases x.ptr s1 with ⟨a, ko, w, hx, hm⟩ | ⟨y, h2, _⟩
    · rw [hx, bind_ok (loadKv_ok hm)] at e
      simp only at e
      rw [bind_ok (storeVal_ok hm)] at e
      cases e
      exact ⟨k, a, ko, w, rfl, hx, hm, rfl, rfl⟩
    · rw [bind_err h2] at e; cases e

theorem Mild.visitMap {U : Type} (F : U → K → V → U × V × Bool) : Mild (visitMap c F) := by
  intro u x s r s' e
  obtain ⟨k, a, ko, w, _, _, hm, _, rfl⟩ := visitMap_any e
  exact SameShape.put hm _

theorem Mild.visitSet {U : Type} (F : U → K → U × Bool) : Mild (visitSet c F : U → Link → M K V (U × Bool)) := by
  intro u x s r s' e
  rw [Quiet.visitSet _ _ _ _ _ _ _ e]
  exact SameShape.refl _

/-- The calls of a callback that keeps a log. -/
theorem visits_log {f : List (K × V) → K → V → V × Bool} : ∀ {xs : List Link} {log : List (K × V)} {s s' : St K V} {r : List (K × V) × Bool},
    Visits (visitMap c fun log k v => (log ++ [(k, v)], f log k v)) xs log s r s' → ∃ es : List (K × V), r.1 = log ++ es ∧ es.length = xs.length ∧
      (∀ (i : Nat) (x : Link), xs[i]? = some x → ∃ k w, es[i]? = some (k, w) ∧ readKey c x s = .ok (k, s)) ∧
      (∀ (i : Nat) (e : K × V), es[i]? = some e → i + 1 < es.length → (f (log ++ es.take i) e.1 e.2).2 = true) ∧
      (∀ (i : Nat) (e : K × V), es[i]? = some e → i + 1 = es.length → (f (log ++ es.take i) e.1 e.2).2 = r.2) ∧ (es = [] → r.2 = true) ∧
      (∀ a ko v, s.mem a = some (.kv ko v) → ∃ v', s'.mem a = some (.kv ko v') ∧ ((∀ x ∈ xs, x.ptr ≠ .blk a) → v' = v) ∧
        ((∃ x ∈ xs, x.ptr = .blk a) → (∃ (i : Nat) (x : Link) (k : K), xs[i]? = some x ∧ x.ptr = .blk a ∧ es[i]? = some (k, v)) ∧
          ∃ (j : Nat) (x : Link) (k : K) (w : V), xs[j]? = some x ∧ x.ptr = .blk a ∧ es[j]? = some (k, w) ∧ v' = (f (log ++ es.take j) k w).1)) := by
  intro xs
  induction xs with
  | nil =>
    intro log s s' r h
    obtain ⟨rfl, rfl⟩ := h
    refine ⟨[], by simp, rfl, fun i x h => by simp at h, fun i e h => by simp at h, fun i e h => by simp at h, fun _ => rfl, fun a ko v hm => ⟨v, hm, fun _ => rfl, ?_⟩⟩
    rintro ⟨x, hx, _⟩; cases hx
  | cons x xs ih =>
    intro log s s' r h
    obtain ⟨u₁, go, s₁, e1, e2⟩ := h
    obtain ⟨k, a, ko, w, h1, h2, h3, h4, h5⟩ := visitMap_any e1
    cases h4
    have hsh : SameShape s s₁ := Mild.visitMap _ _ _ _ _ _ e1
    by_cases hgo : (f log k w).2 = true
    · simp only [hgo, if_true] at e2
      obtain ⟨es, q1, q2, q3, q4, q5, q6, q7⟩ := ih e2
      have htake : ∀ i, log ++ ((k, w) :: es).take (i + 1) = log ++ [(k, w)] ++ es.take i := by intro i; simp
      refine ⟨(k, w) :: es, by rw [q1]; simp, by simp [q2], ?_, ?_, ?_, (by simp), ?_⟩
      · intro i y hy
        cases i with
        | zero => simp at hy; subst hy; exact ⟨k, w, by simp, h1⟩
        | succ i =>
          obtain ⟨k', w', g1, g2⟩ := q3 i y (by simpa using hy)
          exact ⟨k', w', by simpa using g1, (Reader.readKey c y).ok g2 |>.2 _ hsh.symm⟩
      · intro i e he hi
        cases i with
        | zero => simp at he; subst he; simpa using hgo
        | succ i => rw [htake]; exact q4 i e (by simpa using he) (by simpa using hi)
      · intro i e he hi
        cases i with
        | zero =>
          simp at he; subst he
          have : es = [] := by simpa using hi
          rw [q6 this]; simpa using hgo
        | succ i => rw [htake]; exact q5 i e (by simpa using he) (by simpa using hi)
      · intro b ko' v hm
        by_cases hab : a = b
        · subst hab
          rw [h3] at hm; cases hm
          obtain ⟨v', g1, g2, g3⟩ := q7 a ko (f log k w).1 (by rw [h5]; simp)
          refine ⟨v', g1, fun h => absurd h2 (h x (by simp)), fun _ => ⟨⟨0, x, k, by simp, h2, by simp⟩, ?_⟩⟩
          by_cases hx : ∃ y ∈ xs, y.ptr = .blk a
          · obtain ⟨_, j, y, k', w', j1, j2, j3, j4⟩ := g3 hx
            exact ⟨j + 1, y, k', w', by simpa using j1, j2, by simpa using j3, by rw [htake]; exact j4⟩
          · refine ⟨0, x, k, w, by simp, h2, by simp, ?_⟩
            rw [g2 (fun y hy h => hx ⟨y, hy, h⟩)]; simp
        · obtain ⟨v', g1, g2, g3⟩ := q7 b ko' v (by rw [h5, put_mem, if_neg (Ne.symm hab)]; exact hm)
          refine ⟨v', g1, fun h => g2 fun y hy => h y (by simp [hy]), fun hx => ?_⟩
          have hx : ∃ y ∈ xs, y.ptr = .blk b := by
            obtain ⟨y, hy, hyb⟩ := hx
            rcases List.mem_cons.1 hy with rfl | hy
            · rw [h2] at hyb; cases hyb; exact absurd rfl hab
            · exact ⟨y, hy, hyb⟩
          obtain ⟨⟨i, y, k', i1, i2, i3⟩, j, z, k'', w', j1, j2, j3, j4⟩ := g3 hx
          exact ⟨⟨i + 1, y, k', by simpa using i1, i2, by simpa using i3⟩,
            j + 1, z, k'', w', by simpa using j1, j2, by simpa using j3, by rw [htake]; exact j4⟩
    · simp only [hgo] at e2
      obtain ⟨rfl, rfl, rfl⟩ := e2
      refine ⟨[(k, w)], rfl, rfl, ?_, fun i e he hi => ?_, fun i e he hi => ?_, (by simp), ?_⟩
      · intro i y hy
        cases i with
        | zero => simp at hy; subst hy; exact ⟨k, w, by simp, h1⟩
        | succ i => simp at hy
      · simp at hi
      · have : i = 0 := by simpa using hi
        subst this
        simp at he; subst he
        simpa using hgo
      · intro b ko' v hm
        by_cases hab : a = b
        · subst hab
          rw [h3] at hm; cases hm
          refine ⟨_, by rw [h5]; simp; rfl, fun h => absurd h2 (h x (by simp)), fun _ => ⟨⟨0, x, k, by simp, h2, by simp⟩, 0, x, k, w, by simp, h2, by simp, by simp⟩⟩
        · refine ⟨v, by rw [h5, put_mem, if_neg (Ne.symm hab)]; exact hm, fun _ => rfl, ?_⟩
          rintro ⟨y, hy, hyb⟩
          simp at hy; subst hy
          rw [h2] at hyb; cases hyb; exact absurd rfl hab

end

section
variable {K V : Type} [Inhabited V] {I : MapImpl K V} {g : Bool} {fuel h : Nat} {k : K} {s : St K V}

/-- The callback `f` never told `All` to stop in this run. -/
def GoesOn (f : List (K × V) → K → V → V × Bool) (L : List (K × V)) : Prop :=
  ∀ (i : Nat) (e : K × V), L[i]? = some e → (f (L.take i) e.1 e.2).2 = true

theorem all_visits {f : List (K × V) → K → V → V × Bool} {o : MOut K V} {s' : St K V}
    (e : I.exec fuel (some h) (.all f) s = .ok (o, s')) : ∃ L b xs, o = .log L ∧
      Visits (visitMap I.cfg fun log k v => (log ++ [(k, v)], f log k v)) xs [] s (L, b) s' ∧
      (∀ all, listScan fuel ⟨.blk h, 0⟩ s = .ok (all, s) → xs <+: all) ∧ (b = true → listScan fuel ⟨.blk h, 0⟩ s = .ok (xs, s)) := by
  have e : ((scan (visitMap I.cfg fun log k v => (log ++ [(k, v)], f log k v)) fuel [] ⟨.blk h, 0⟩ >>= fun r => pure r.1) >>= fun l =>
    pure (MOut.log l)) s = .ok (o, s') := e
  rw [bind_assoc_M] at e
  cases h1 : scan (visitMap I.cfg fun log k v => (log ++ [(k, v)], f log k v)) fuel [] ⟨.blk h, 0⟩ s with
  | error x => rw [bind_err h1] at e; cases e
  | ok q =>
    rw [bind_ok h1] at e
    cases e
    obtain ⟨xs, v1, v2, v3⟩ := scan_ok (Mild.visitMap _) _ _ _ _ _ _ h1
    exact ⟨q.1.1, q.1.2, xs, rfl, v1, v2, v3⟩

end

section
variable {K V : Type} [Inhabited V] {I : MapImpl K V} {g : Bool} {fuel h : Nat} {k : K} {s : St K V}

theorem visits_extends {c : Cfg K} {f : List (K × V) → K → V → V × Bool} {xs : List Link} {log : List (K × V)} {s s' : St K V} {r : List (K × V) × Bool}
    (hv : Visits (visitMap c fun log k v => (log ++ [(k, v)], f log k v)) xs log s r s') : log <+: r.1 := by
  obtain ⟨es, h1, _⟩ := visits_log hv
  rw [h1]
  exact List.prefix_append _ _

/-- Two runs, the second with the same assignments but without stops. -/
theorem visits_prefix {c : Cfg K} {f : List (K × V) → K → V → V × Bool} {xs : List Link} :
    ∀ {ys : List Link} {log : List (K × V)} {s s' s'' : St K V} {r r' : List (K × V) × Bool}, xs <+: ys →
    Visits (visitMap c fun log k v => (log ++ [(k, v)], f log k v)) xs log s r s' →
    Visits (visitMap c fun log k v => (log ++ [(k, v)], ((f log k v).1, true))) ys log s r' s'' → r.1 <+: r'.1 := by
  induction xs with
  | nil =>
    intro ys log s s' s'' r r' _ h1 h2
    obtain ⟨rfl, _⟩ := h1
    exact visits_extends (f := fun log k v => ((f log k v).1, true)) h2
  | cons x xs ih =>
    intro ys log s s' s'' r r' hp h1 h2
    obtain ⟨zs, rfl⟩ := hp
    obtain ⟨u₁, go, s₁, e1, e2⟩ := h1
    obtain ⟨u₂, go₂, s₂, e3, e4⟩ := h2
    obtain ⟨k, a, ko, w, a1, a2, a3, a4, a5⟩ := visitMap_any e1
    obtain ⟨k', a', ko', w', b1, b2, b3, b4, b5⟩ := visitMap_any e3
    rw [a2] at b2; cases b2
    rw [a3] at b3; cases b3
    rw [a1] at b1; cases b1
    cases a4; cases b4
    simp only [if_true] at e4
    split at e2
    · exact ih (List.prefix_append _ _) (a5 ▸ e2) (b5 ▸ e4)
    · obtain ⟨rfl, rfl, _⟩ := e2
      exact visits_extends (f := fun log k v => ((f log k v).1, true)) e4

theorem visits_keys {c : Cfg K} {f f' : List (K × V) → K → V → V × Bool} {xs ys : List Link} {s s' s'' : St K V} {r r' : List (K × V) × Bool}
    (hp : xs <+: ys) (h1 : Visits (visitMap c fun log k v => (log ++ [(k, v)], f log k v)) xs [] s r s')
    (h2 : Visits (visitMap c fun log k v => (log ++ [(k, v)], f' log k v)) ys [] s r' s'') :
    r.1.map (fun e => e.1) <+: r'.1.map (fun e => e.1) := by
  obtain ⟨es, a1, a2, a3, _⟩ := visits_log h1
  obtain ⟨es', b1, b2, b3, _⟩ := visits_log h2
  obtain ⟨zs, rfl⟩ := hp
  rw [a1, b1, List.nil_append, List.nil_append, List.prefix_iff_eq_take]
  simp only [List.length_map]
  apply List.ext_getElem?
  intro i
  rw [List.getElem?_map, List.getElem?_take]
  by_cases hi : i < es.length
  · rw [if_pos hi, List.getElem?_map]
    have hx : xs[i]? = some xs[i] := List.getElem?_eq_getElem (by omega)
    obtain ⟨k, w, c1, c2⟩ := a3 i _ hx
    obtain ⟨k', w', d1, d2⟩ := b3 i xs[i] (by rw [List.getElem?_append_left (by omega)]; exact hx)
    rw [c2] at d2; cases d2
    rw [c1, d1]; rfl
  · rw [if_neg hi, List.getElem?_eq_none (by omega)]; rfl

/-- C17, in any memory whatsoever: if `All` returns, every call of the callback but the last returned true.  The calls are
a prefix of those that `All` makes with a callback that assigns the same values but never stops, and the whole of them unless the
last call returned false; the keys are a prefix of those that `All` visits with any callback that does not stop. -/
theorem C17_any {f : List (K × V) → K → V → V × Bool} {o : MOut K V} {s' : St K V}
    (e : I.exec fuel (some h) (.all f) s = .ok (o, s')) : ∃ L, o = .log L ∧
      (∀ (i : Nat) (e : K × V), L[i]? = some e → i + 1 < L.length → (f (L.take i) e.1 e.2).2 = true) ∧
      (∀ L' s'', I.exec fuel (some h) (.all fun log k v => ((f log k v).1, true)) s = .ok (.log L', s'') →
        L <+: L' ∧ (GoesOn f L → L = L')) ∧
      (∀ f' L' s'', I.exec fuel (some h) (.all f') s = .ok (.log L', s'') → GoesOn f' L' →
        L.map (fun e => e.1) <+: L'.map (fun e => e.1)) := by
  obtain ⟨L, b, xs, rfl, v1, v2, v3⟩ := all_visits e
  obtain ⟨es, a1, a2, a3, a4, a5, a6, _⟩ := visits_log v1
  simp only [List.nil_append] at a1 a4 a5
  subst a1
  have goes : ∀ {f : List (K × V) → K → V → V × Bool} {L : List (K × V)} {b : Bool} {xs : List Link} {s' : St K V},
      Visits (visitMap I.cfg fun log k v => (log ++ [(k, v)], f log k v)) xs [] s (L, b) s' → GoesOn f L → b = true := by
    intro f L b xs s' v hg
    obtain ⟨es, b1, _, _, _, b5, b6, _⟩ := visits_log v
    simp only [List.nil_append] at b1 b5
    subst b1
    cases hL : L.length with
    | zero => exact b6 (List.eq_nil_of_length_eq_zero hL)
    | succ n =>
      have hx : L[n]? = some L[n] := List.getElem?_eq_getElem (by omega)
      rw [← b5 n _ hx (by omega)]
      exact hg n _ hx
  refine ⟨L, rfl, a4, fun L' s'' e' => ?_, fun f' L' s'' e' hg => ?_⟩
  · obtain ⟨L₂, b', ys, h1, w1, w2, w3⟩ := all_visits e'
    cases h1
    obtain rfl : b' = true := goes w1 (fun _ _ _ => rfl)
    have hp := v2 _ (w3 rfl)
    refine ⟨visits_prefix hp v1 w1, fun hg => ?_⟩
    obtain rfl := goes v1 hg
    have hxy := v3 rfl
    rw [w3 rfl] at hxy
    cases hxy
    obtain ⟨es', b1, b2, _⟩ := visits_log (f := fun log k v => ((f log k v).1, true)) w1
    simp only [List.nil_append] at b1
    subst b1
    exact (visits_prefix hp v1 w1).eq_of_length (by rw [a2, b2])
  · obtain ⟨L₂, b', ys, h1, w1, w2, w3⟩ := all_visits e'
    cases h1
    obtain rfl : b' = true := goes w1 hg
    exact visits_keys (v2 _ (w3 rfl)) v1 w1

end

section
variable {K V : Type} [Inhabited V] {I : MapImpl K V} {g : Bool} {fuel h : Nat} {k : K} {s : St K V}

theorem get_missing (hl : lookup I.cfg h fuel k s = .ok (none, s)) : I.exec fuel (some h) (.get k) s = .ok (.pair default false, s) := by
  simp only [MapImpl.exec, MapImpl.Get, Ptr_some, bind_assoc_M]
  rw [bind_ok hl]; rfl

theorem GoesOn.flag {c : Cfg K} {f : List (K × V) → K → V → V × Bool} {L : List (K × V)} {b : Bool} {xs : List Link} {s' : St K V}
    (hg : GoesOn f L) (v : Visits (visitMap c fun log k v => (log ++ [(k, v)], f log k v)) xs [] s (L, b) s') : b = true := by
  obtain ⟨es, b1, _, _, _, b5, b6, _⟩ := visits_log v
  simp only [List.nil_append] at b1 b5
  subst b1
  cases hL : L.length with
  | zero => exact b6 (List.eq_nil_of_length_eq_zero hL)
  | succ n =>
    have hx : L[n]? = some L[n] := List.getElem?_eq_getElem (by omega)
    rw [← b5 n _ hx (by omega)]
    exact hg n _ hx

theorem loadKv_err {p : Amt.Ptr} {s s' : St K V} {e : Fault} (he : loadKv p s = .error e) (hs : SameShape s s') : loadKv p s' = .error e := by
  have h1 := (Reader.key (K := K) (V := V) p fun _ => Reader.pure ()).err (bind_err he) hs
  cases h2 : loadKv p s' with
  | error x => rw [bind_err h2] at h1; cases h1; rfl
  | ok r => rw [bind_ok (a := r.1) (s' := r.2) h2] at h1; cases h1

/-- C58.  In any memory, if `All` returns, then `Len` and `Dep` of all containers are as before, `Get` finds exactly the keys
that it found before and fails as before, and if the callback never stopped `All`, every key that `Get` finds has been visited (under a
key equal to it). -/
theorem C58_visits {f : List (K × V) → K → V → V × Bool} {L : List (K × V)} {s' : St K V}
    (e : I.exec fuel (some h) (.all f) s = .ok (.log L, s')) :
    (∀ h', SameCounters I fuel h' s s') ∧
    (∀ k v b, I.exec fuel (some h) (.get k) s = .ok (.pair v b, s) →
      (∃ v', I.exec fuel (some h) (.get k) s' = .ok (.pair v' b, s')) ∧
      (b = true → GoesOn f L → ∃ e ∈ L, I.cfg.eq k e.1 = true)) ∧
    (∀ k x, I.exec fuel (some h) (.get k) s = .error x → I.exec fuel (some h) (.get k) s' = .error x) := by
  obtain ⟨L₂, b, xs, hL, v1, v2, v3⟩ := all_visits e
  cases hL
  have hsh := v1.shape (Mild.visitMap _)
  obtain ⟨es, a1, a2, a3, a4, a5, a6, a7⟩ := visits_log v1
  simp only [List.nil_append] at a1
  subst a1
  refine ⟨fun h' => sameCounters (by rw [hsh.2.1]), fun k v b' hg => ?_, fun k x hg => ?_⟩
  · obtain ⟨_, ⟨rfl, rfl, hl⟩ | ⟨rfl, a, ko, hl, hm⟩⟩ := get_lookup hg
    · exact ⟨⟨_, get_missing ((Reader.lookup I.cfg h fuel k).ok hl |>.2 _ hsh)⟩, by simp⟩
    · obtain ⟨v', h1, _⟩ := a7 a ko v hm
      refine ⟨⟨v', (exec_found ((Reader.lookup I.cfg h fuel k).ok hl |>.2 _ hsh) h1).1⟩, fun _ ho => ?_⟩
      obtain rfl := ho.flag v1
      obtain ⟨x, k', h2, h3, h4, h5⟩ := lookup_listed hl (v3 rfl)
      obtain ⟨i, hi, hx⟩ := List.mem_iff_getElem.1 h2
      obtain ⟨k₂, w, c1, c2⟩ := a3 i x (by rw [List.getElem?_eq_getElem hi, hx])
      rw [h4] at c2; cases c2
      exact ⟨_, List.mem_of_getElem? c1, h5⟩
  · simp only [MapImpl.exec, MapImpl.Get, Ptr_some, bind_assoc_M] at hg ⊢
    cases hl : lookup I.cfg h fuel k s with
    | error y =>
      rw [bind_err hl] at hg; cases hg
      rw [bind_err ((Reader.lookup I.cfg h fuel k).err hl hsh)]
    | ok r =>
      obtain ⟨p, s₁⟩ := r
      obtain rfl := (Reader.lookup _ _ _ _).ok hl |>.1
      rw [bind_ok hl] at hg
      rw [bind_ok ((Reader.lookup I.cfg h fuel k).ok hl |>.2 _ hsh)]
      cases p with
      | none => cases hg
      | some p =>
        rcases loadKv_cases p s₁ with ⟨a, ko, w, rfl, hm⟩ | ⟨y, h1, h2⟩
        · simp only [bind_assoc_M] at hg
          rw [bind_ok (loadKv_ok hm)] at hg; cases hg
        · simp only [bind_assoc_M] at hg ⊢
          rw [bind_err h1] at hg; cases hg
          rw [bind_err (loadKv_err h1 hsh)]

theorem KeyedMap.boxed (hK : KeyedMap I) : I.cfg.store = .boxed := by cases hK <;> rfl

theorem KeyedMap.eqKeys (hK : KeyedMap I) {a b : K} : I.cfg.eq a b = true → a = b := by
  cases hK with
  | generic J heq => exact heq a b
  | _ => exact fun h => of_decide_eq_true h

theorem readKey_boxed {c : Cfg K} (hs : c.store = .boxed) {x : Link} {a : Nat} {k k' : K} {v : V} {s : St K V} (hx : x.ptr = .blk a)
    (hm : s.mem a = some (.kv (some k) v)) (hr : readKey c x s = .ok (k', s)) : k' = k := by
  simp only [readKey, hs] at hr
  rw [hx, bind_ok (loadKv_ok hm)] at hr
  cases hr; rfl

/-- C58, values: in the four maps whose cells contain their keys, in any memory, if `All` returns and `Get(k)` found
`v` before, then either it still finds `v` and the callback has stopped `All`, or `k` has been visited with `v`
and `Get(k)` now returns what the callback assigned in some visit of `k`. -/
theorem C58_values (hK : KeyedMap I) {f : List (K × V) → K → V → V × Bool} {L : List (K × V)} {s' : St K V}
    (e : I.exec fuel (some h) (.all f) s = .ok (.log L, s')) {v : V} (hg : I.exec fuel (some h) (.get k) s = .ok (.pair v true, s)) :
    ∃ v', I.exec fuel (some h) (.get k) s' = .ok (.pair v' true, s') ∧
      ((v' = v ∧ ¬ GoesOn f L) ∨
        ((k, v) ∈ L ∧ ∃ (j : Nat) (w : V), L[j]? = some (k, w) ∧ v' = (f (L.take j) k w).1)) := by
  obtain ⟨L₂, b, xs, hL, v1, v2, v3⟩ := all_visits e
  cases hL
  have hsh := v1.shape (Mild.visitMap _)
  obtain ⟨es, a1, a2, a3, a4, a5, a6, a7⟩ := visits_log v1
  simp only [List.nil_append] at a1 a7
  subst a1
  obtain ⟨_, ⟨hb, _⟩ | ⟨_, a, ko, hl, hm⟩⟩ := get_lookup hg
  · cases hb
  obtain ⟨a', v₂, h1, h2⟩ := hK.cell hl
  cases h1
  rw [hm] at h2; cases h2
  obtain ⟨v', h3, h4, h5⟩ := a7 a _ v hm
  refine ⟨v', (exec_found ((Reader.lookup I.cfg h fuel k).ok hl |>.2 _ hsh) h3).1, ?_⟩
  by_cases hv : ∃ x ∈ xs, x.ptr = .blk a
  · obtain ⟨⟨i, x, k₁, i1, i2, i3⟩, j, y, k₂, w, j1, j2, j3, j4⟩ := h5 hv
    refine .inr ?_
    obtain ⟨k₃, w₃, l1, l2⟩ := a3 i x i1
    rw [i3] at l1; cases l1
    obtain rfl := readKey_boxed hK.boxed i2 hm l2
    obtain ⟨k₄, w₄, m1, m2⟩ := a3 j y j1
    rw [j3] at m1; cases m1
    obtain rfl := readKey_boxed hK.boxed j2 hm m2
    exact ⟨List.mem_of_getElem? i3, j, w, j3, j4⟩
  · refine .inl ⟨h4 fun x hx hp => hv ⟨x, hx, hp⟩, fun ho => ?_⟩
    obtain rfl := ho.flag v1
    obtain ⟨x, _, h6, h7, _⟩ := lookup_listed hl (v3 rfl)
    exact hv ⟨x, h6, h7⟩

end

/-! ### `Len` over a whole history -/

section
variable {K V : Type} [Inhabited V] {I : MapImpl K V} {g : Bool} {fuel h : Nat} {k : K} {s : St K V}

/-- Whether `Ptr(k)` returns a pointer (`b = true`) or nil (`b = false`) just before a call. -/
def says (I : MapImpl K V) (fuel h : Nat) (s : St K V) (k : K) (b : Bool) : Bool :=
  match I.Ptr fuel (some h) k s with
  | .ok (p, _) => b == p.isSome
  | .error _ => false

/-- One more entry for an insertion of a key for which `Ptr` returns nil, one less for a deletion of a key for which it does not. -/
def tally1 (I : MapImpl K V) (fuel h : Nat) (s : St K V) : MOp K V → BitVec 64
  | .set k _ | .mod k _ => if says I fuel h s k false then 1#64 else 0#64
  | .del k => if says I fuel h s k true then -1#64 else 0#64
  | _ => 0#64

/-- The balance of a whole history. -/
def tally (I : MapImpl K V) (fuel h : Nat) : List (MOp K V) → St K V → BitVec 64
  | [], _ => 0#64
  | op :: ops, s => tally1 I fuel h s op +
      match I.exec fuel (some h) op s with
      | .ok (_, s') => tally I fuel h ops s'
      | .error _ => 0#64

theorem get_form (e : Except Fault (MOut K V × St K V)) (he : I.exec fuel (some h) (.get k) s = e) :
    (∃ v b, e = .ok (.pair v b, s)) ∨ ∃ x, e = .error x := by
  subst he
  cases h1 : I.exec fuel (some h) (.get k) s with
  | error x => exact .inr ⟨x, rfl⟩
  | ok r =>
    refine .inl ?_
    have h2 := h1
    simp only [MapImpl.exec] at h2
    cases h3 : I.Get fuel (some h) k s with
    | error x => rw [bind_err h3] at h2; cases h2
    | ok q =>
      obtain ⟨⟨v, b⟩, s1⟩ := q
      rw [bind_ok h3] at h2
      cases h2
      exact ⟨v, b, by rw [(get_lookup h1).1]⟩

theorem SameCounters.len {s₁ : St K V} (hs : SameCounters I fuel h s s₁) {n : BitVec 64} (hn : LenIs I fuel h s n) : LenIs I fuel h s₁ n := by
  obtain ⟨o, e1, e2⟩ := hs .len (.inl rfl)
  rw [show I.exec fuel (some h) .len s = .ok (.num n, s) from hn] at e1
  cases e1
  exact e2

theorem says_get {v : V} {b b' : Bool} (e : I.exec fuel (some h) (.get k) s = .ok (.pair v b, s)) : says I fuel h s k b' = (b' == b) := by
  obtain ⟨_, ⟨rfl, _, hl⟩ | ⟨rfl, a, ko, hl, _⟩⟩ := get_lookup e <;>
    · simp only [says, Ptr_some, hl]; rfl

theorem len_step (hI : IsMap I false) {op : MOp K V} {o : MOut K V} {s₁ : St K V} (he : I.exec fuel (some h) op s = .ok (o, s₁)) {n : BitVec 64}
    (hn : LenIs I fuel h s n) : LenIs I fuel h s₁ (n + tally1 I fuel h s op) := by
  cases op with
  | get k =>
    rcases get_form _ he with ⟨v, b, e⟩ | ⟨x, e⟩ <;> cases e
    simpa [tally1] using hn
  | val k =>
    rcases get_form (I := I) (fuel := fuel) (h := h) (k := k) (s := s) _ rfl with ⟨v, b, e⟩ | ⟨x, e⟩
    · cases b with
      | false => rw [(C56_missing hI e).2.2.1] at he; cases he; simpa [tally1] using hn
      | true => rw [(C55_stored hI e).2.1] at he; cases he; simpa [tally1] using hn
    · rw [(C57_faults hI e).1] at he; cases he
  | ptr k =>
    rcases get_form (I := I) (fuel := fuel) (h := h) (k := k) (s := s) _ rfl with ⟨v, b, e⟩ | ⟨x, e⟩
    · cases b with
      | false => rw [(C56_missing hI e).2.2.2.1] at he; cases he; simpa [tally1] using hn
      | true => rw [(C55_stored hI e).2.2.1] at he; cases he; simpa [tally1] using hn
    · rw [(C57_faults hI e).2.1] at he; cases he
  | set k v =>
    rcases get_form (I := I) (fuel := fuel) (h := h) (k := k) (s := s) _ rfl with ⟨v₀, b, e⟩ | ⟨x, e⟩
    · cases b with
      | false =>
        have : tally1 I fuel h s (.set k v) = 1#64 := by simp only [tally1, says_get e]; rfl
        rw [this]
        rcases ((C56_insert hI e (o := o) (s₁ := s₁)).2 v he).2.1 n hn with h1 | ⟨h1, _⟩
        · exact h1
        · cases h1
      | true =>
        have : tally1 I fuel h s (.set k v) = 0#64 := by simp only [tally1, says_get e]; rfl
        rw [this, BitVec.add_zero]
        obtain ⟨s₂, e1, _, _, _, e2, _⟩ := (C55_stored hI e).2.2.2 v
        rw [e1] at he; cases he
        exact (e2 h).len hn
    · rw [(C57_faults hI e).2.2.2.1 v] at he; cases he
  | mod k f =>
    rcases get_form (I := I) (fuel := fuel) (h := h) (k := k) (s := s) _ rfl with ⟨v₀, b, e⟩ | ⟨x, e⟩
    · cases b with
      | false =>
        have : tally1 I fuel h s (.mod k f) = 1#64 := by simp only [tally1, says_get e]; rfl
        rw [this]
        rcases ((C56_insert hI e (o := o) (s₁ := s₁)).1 f he).2.1 n hn with h1 | ⟨h1, _⟩
        · exact h1
        · cases h1
      | true =>
        have : tally1 I fuel h s (.mod k f) = 0#64 := by simp only [tally1, says_get e]; rfl
        rw [this, BitVec.add_zero]
        obtain ⟨s₂, _, _, e1, _, e2, _⟩ := (C55_stored hI e).2.2.2 (f v₀ true)
        rw [e1 f rfl] at he; cases he
        exact (e2 h).len hn
    · rw [(C57_faults hI e).2.2.2.2.1 f] at he; cases he
  | write k v =>
    rcases get_form (I := I) (fuel := fuel) (h := h) (k := k) (s := s) _ rfl with ⟨v₀, b, e⟩ | ⟨x, e⟩
    · cases b with
      | false => rw [(C56_missing hI e).2.2.2.2.1] at he; cases he; simpa [tally1] using hn
      | true =>
        obtain ⟨s₂, _, e1, _, _, e2, _⟩ := (C55_stored hI e).2.2.2 v
        rw [e1] at he; cases he
        have := (e2 h).len hn
        simpa [tally1] using this
    · rw [(C57_faults hI e).2.2.1 v] at he; cases he
  | del k =>
    rcases get_form (I := I) (fuel := fuel) (h := h) (k := k) (s := s) _ rfl with ⟨v₀, b, e⟩ | ⟨x, e⟩
    · cases b with
      | false =>
        have : tally1 I fuel h s (.del k) = 0#64 := by simp only [tally1, says_get e]; rfl
        rw [this, BitVec.add_zero]
        rw [(C56_missing hI e).2.2.2.2.2] at he; cases he; exact hn
      | true =>
        have : tally1 I fuel h s (.del k) = -1#64 := by simp only [tally1, says_get e]; rfl
        rw [this, ← BitVec.sub_eq_add_neg]
        exact (C55_del hI e he).2.1 n hn
    · have he : (delete I.cfg h fuel I.delSkip k >>= fun _ => pure MOut.unit) s = _ := he
      cases hl : lookup I.cfg h fuel k s with
      | error y => rw [bind_err (delete_fault hl)] at he; cases he
      | ok r =>
        obtain ⟨p, s'⟩ := r
        obtain rfl := (Reader.lookup _ _ _ _).ok hl |>.1
        cases p with
        | none => rw [get_missing hl] at e; cases e
        | some p =>
          have : tally1 I fuel h s' (.del k) = -1#64 := by simp only [tally1, says, Ptr_some, hl]; rfl
          rw [this, ← BitVec.sub_eq_add_neg]
          rcases delete_after (skip := I.delSkip) hl with ⟨h1 | h1, _⟩ | ⟨_, h1⟩
          · rw [hI.facts.skip] at h1; cases h1
          · cases h1
          · cases hu : delete I.cfg h fuel I.delSkip k s' with
            | error x => rw [bind_err hu] at he; cases he
            | ok r =>
              rw [bind_ok hu] at he; cases he
              rw [hn.eq, ← (h1 _ hu).1]
              exact lenIs ..
  | len =>
    rw [show I.exec fuel (some h) .len s = .ok (.num n, s) from hn] at he
    cases he
    simpa [tally1] using hn
  | dep =>
    obtain ⟨o', e1, _⟩ := sameCounters (I := I) (fuel := fuel) (h := h) (s := s) (s₁ := s) rfl .dep (.inr rfl)
    rw [he] at e1; cases e1
    simpa [tally1] using hn
  | all f =>
    obtain ⟨L, rfl, _⟩ := C17_any he
    have := ((C58_visits he).1 h).len hn
    simpa [tally1] using this

/-- C59.  In any memory, whatever the history of a container other than `BytesMap`: after any calls that return, `Len`
is what it was before, plus one for every `Set` or `Mod` of a key for which `Ptr` would have returned nil just before, minus one
for every `Del` of a key for which it would not have (modulo 2^64). -/
theorem C59_len (hI : IsMap I false) {ops : List (MOp K V)} : ∀ {s s₁ : St K V} {os : List (MOut K V)}, I.run fuel (some h) ops s = .ok (os, s₁) →
    ∀ {n : BitVec 64}, LenIs I fuel h s n → LenIs I fuel h s₁ (n + tally I fuel h ops s) := by
  induction ops with
  | nil =>
    intro s s₁ os e n hn
    cases e
    simpa [tally] using hn
  | cons op ops ih =>
    intro s s₁ os e n hn
    simp only [MapImpl.run] at e
    cases h1 : I.exec fuel (some h) op s with
    | error x => rw [bind_err h1] at e; cases e
    | ok r =>
      obtain ⟨o, s2⟩ := r
      rw [bind_ok h1] at e
      cases h2 : I.run fuel (some h) ops s2 with
      | error x => rw [bind_err h2] at e; cases e
      | ok q =>
        rw [bind_ok (a := q.1) (s' := q.2) h2] at e
        cases e
        have := ih h2 (len_step hI h1 hn)
        simpa only [tally, h1, BitVec.add_assoc] using this

end

/-! ### Sets -/

/-- The five sets, whatever their history; the flag is set for `BytesSet`, whose `Del` returns early when the keys are equal (bytes_set.go:206). -/
inductive IsSet : {K : Type} → SetImpl K → Bool → Prop where
  | string (sum : Maphash) : IsSet (StringSet sum) false
  | bytes (sum : Maphash) : IsSet (BytesSet sum) true
  | arr (sum : Maphash) {K : Type} [DecidableEq K] (kb : K → List UInt8) : IsSet (ArrSet sum kb) false
  | int (sum : Maphash) : IsSet (IntSet sum) false
  | generic {K : Type} (J : KeyImpl K) : IsSet (GenericSet J) false

structure SetFacts {K : Type} (I : SetImpl K) (g : Bool) : Prop where
  hit : ∀ k p, (I.addI k).hit p = pure ()
  new : ∀ h k, Makes (h := h) (I.addI k) (fun _ => True)
  guard : ∀ k, (I.addI k).guard = false
  skip : ∀ b, I.delSkip b = (b == g)

theorem IsSet.facts {K : Type} {I : SetImpl K} {g : Bool} (hI : IsSet I g) : SetFacts I g := by
  cases hI <;>
    exact ⟨fun _ _ => rfl, fun h k => ⟨makes_newKv (P := fun _ => True) trivial, makes_newKv (P := fun _ => True) trivial⟩, fun _ => rfl,
      fun b => by cases b <;> rfl⟩

section
variable {K : Type} {I : SetImpl K} {g : Bool} {fuel h : Nat} {k : K} {s : St K Unit}

/-- In the memory `s`, `Len` of the set at `h` returns `n`. -/
def SLenIs (I : SetImpl K) (fuel h : Nat) (s : St K Unit) (n : BitVec 64) : Prop :=
  I.exec fuel (some h) .len s = .ok (.num n, s)

/-- `Len` and `Dep` of the set at `h` return the same in both memories. -/
def SSameCounters (I : SetImpl K) (fuel h : Nat) (s s₁ : St K Unit) : Prop :=
  ∀ op, op = SOp.len ∨ op = SOp.dep → ∃ o, I.exec fuel (some h) op s = .ok (o, s) ∧ I.exec fuel (some h) op s₁ = .ok (o, s₁)

theorem sLenIs (I : SetImpl K) (fuel h : Nat) (s : St K Unit) : SLenIs I fuel h s (s.roots h).len := rfl

theorem SLenIs.eq {n : BitVec 64} (h1 : SLenIs I fuel h s n) : n = (s.roots h).len := by
  have := h1.symm.trans (sLenIs I fuel h s)
  cases this; rfl

theorem sSameCounters {s₁ : St K Unit} (hr : s₁.roots h = s.roots h) : SSameCounters I fuel h s s₁ := by
  intro op hop
  rcases hop with rfl | rfl
  · exact ⟨_, rfl, by simp only [SetImpl.exec, SetImpl.Len, MapImpl.Len, bind_assoc_M]; rw [bind_ok (getRoot_run h _), hr]; rfl⟩
  · simp only [SetImpl.exec, SetImpl.Dep, MapImpl.Dep, bind_assoc_M]
    rw [bind_ok (getRoot_run h _), bind_ok (getRoot_run h _), hr]
    split
    · exact ⟨_, rfl, rfl⟩
    · exact ⟨_, rfl, rfl⟩

theorem has_lookup {b : Bool} {s' : St K Unit} (hh : I.exec fuel (some h) (.has k) s = .ok (.bool b, s')) :
    s' = s ∧ ∃ p, lookup I.cfg h fuel k s = .ok (p, s) ∧ b = p.isSome := by
  have hh : ((lookup I.cfg h fuel k >>= fun p => pure p.isSome) >>= fun b => pure (SOut.bool b)) s = _ := hh
  cases hl : lookup I.cfg h fuel k s with
  | error e => rw [bind_assoc_M, bind_err hl] at hh; cases hh
  | ok r =>
    obtain ⟨p, s₁⟩ := r
    obtain rfl := (Reader.lookup _ _ _ _).ok hl |>.1
    rw [bind_assoc_M, bind_ok hl] at hh
    cases hh
    exact ⟨rfl, p, rfl, rfl⟩

/-- C55 for sets: in any memory, if `Has(k)` returns true, `Add(k)` changes nothing.  After `Del(k)`, if it returns, there is one element less,
but `Del` of a `BytesSet` changes nothing. -/
theorem C55_set (hI : IsSet I g) {s₀ : St K Unit} (hh : I.exec fuel (some h) (.has k) s = .ok (.bool true, s₀)) :
    s₀ = s ∧ I.exec fuel (some h) (.add k) s = .ok (.unit, s) ∧
      (g = false → ∀ o s₁, I.exec fuel (some h) (.del k) s = .ok (o, s₁) → o = .unit ∧ (∀ n, SLenIs I fuel h s n → SLenIs I fuel h s₁ (n - 1#64)) ∧
        ∀ h', h' ≠ h → SSameCounters I fuel h' s s₁) ∧
      (g = true → I.exec fuel (some h) (.del k) s = .ok (.unit, s)) := by
  obtain ⟨rfl, p, hl, hp⟩ := has_lookup hh
  have hdel : I.exec fuel (some h) (.del k) s₀ = (delete I.cfg h fuel I.delSkip k >>= fun _ => pure SOut.unit) s₀ := rfl
  cases p with
  | none => cases hp
  | some p =>
    refine ⟨rfl, ?_, fun hg o s₁ e => ?_, fun hg => ?_⟩
    · show (upsert I.cfg h fuel k (I.addI k) >>= fun _ => pure SOut.unit) s₀ = _
      rw [bind_ok (a := ()) (s' := s₀)]
      · rfl
      · rw [upsert_found hl, hI.facts.hit]; rfl
    · subst hg
      rw [hdel] at e
      rcases delete_after (skip := I.delSkip) hl with ⟨h1 | h1, _⟩ | ⟨_, h1⟩
      · rw [hI.facts.skip] at h1; cases h1
      · cases h1
      · cases hu : delete I.cfg h fuel I.delSkip k s₀ with
        | error x => rw [bind_err hu] at e; cases e
        | ok r =>
          rw [bind_ok hu] at e; cases e
          exact ⟨rfl, fun n hn => by rw [hn.eq, ← (h1 _ hu).1]; exact sLenIs .., fun h' hh => sSameCounters ((h1 _ hu).2.2 h' hh)⟩
    · subst hg
      rw [hdel]
      rcases delete_after (skip := I.delSkip) hl with ⟨_, h1⟩ | ⟨h1, _⟩
      · rw [bind_ok h1]; rfl
      · rw [hI.facts.skip] at h1; cases h1

/-- C56 for sets: in any memory, if `Has(k)` returns false, there is one more element after `Add(k)`, if it returns; `Del(k)` changes
nothing, but in a `BytesSet` it may remove an element. -/
theorem C56_set (hI : IsSet I g) {s₀ : St K Unit} (hh : I.exec fuel (some h) (.has k) s = .ok (.bool false, s₀)) :
    s₀ = s ∧ (∀ o s₁, I.exec fuel (some h) (.add k) s = .ok (o, s₁) → o = .unit ∧ (∀ n, SLenIs I fuel h s n → SLenIs I fuel h s₁ (n + 1#64)) ∧
        ∀ h', h' ≠ h → SSameCounters I fuel h' s s₁) ∧
      (g = false → I.exec fuel (some h) (.del k) s = .ok (.unit, s)) ∧
      (g = true → ∀ o s₁, I.exec fuel (some h) (.del k) s = .ok (o, s₁) → o = .unit ∧ (s₁ = s ∨ ∀ n, SLenIs I fuel h s n → SLenIs I fuel h s₁ (n - 1#64))) := by
  obtain ⟨rfl, p, hl, hp⟩ := has_lookup hh
  have hdel : I.exec fuel (some h) (.del k) s₀ = (delete I.cfg h fuel I.delSkip k >>= fun _ => pure SOut.unit) s₀ := rfl
  cases p with
  | some p => cases hp
  | none =>
    refine ⟨rfl, fun o s₁ e => ?_, fun hg => ?_, fun hg o s₁ e => ?_⟩
    · have e : (upsert I.cfg h fuel k (I.addI k) >>= fun _ => pure SOut.unit) s₀ = _ := e
      cases hu : upsert I.cfg h fuel k (I.addI k) s₀ with
      | error x => rw [bind_err hu] at e; cases e
      | ok r =>
        rw [bind_ok hu] at e; cases e
        obtain ⟨_, ⟨δ, h2, h3⟩, _, h4⟩ := upsert_missing (hI.facts.new h k) hl hu
        refine ⟨rfl, fun n hn => ?_, fun h' hh => sSameCounters (h4 h' hh)⟩
        rw [hn.eq]
        rcases h2 with rfl | ⟨h2, _⟩
        · rw [← h3]; exact sLenIs ..
        · rw [hI.facts.guard] at h2; cases h2
    · subst hg
      rw [hdel]
      rcases delete_after (skip := I.delSkip) hl with ⟨_, h1⟩ | ⟨h1, _⟩
      · rw [bind_ok h1]; rfl
      · rw [hI.facts.skip] at h1; cases h1
    · rw [hdel] at e
      rcases delete_after (skip := I.delSkip) hl with ⟨_, h1⟩ | ⟨_, h1⟩
      · rw [bind_ok h1] at e; cases e; exact ⟨rfl, .inl rfl⟩
      · cases hu : delete I.cfg h fuel I.delSkip k s₀ with
        | error x => rw [bind_err hu] at e; cases e
        | ok r =>
          rw [bind_ok hu] at e; cases e
          exact ⟨rfl, .inr fun n hn => by rw [hn.eq, ← (h1 _ hu).1]; exact sLenIs ..⟩

/-- C57 for sets. -/
theorem C57_set {e : Fault} (hh : I.exec fuel (some h) (.has k) s = .error e) :
    I.exec fuel (some h) (.add k) s = .error e ∧ I.exec fuel (some h) (.del k) s = .error e := by
  have hh : ((lookup I.cfg h fuel k >>= fun p => pure p.isSome) >>= fun b => pure (SOut.bool b)) s = _ := hh
  cases hl : lookup I.cfg h fuel k s with
  | ok r => rw [bind_assoc_M, bind_ok (a := r.1) (s' := r.2) hl] at hh; cases hh
  | error x =>
    rw [bind_assoc_M, bind_err hl] at hh
    cases hh
    exact ⟨by show (upsert I.cfg h fuel k (I.addI k) >>= fun _ => pure SOut.unit) s = _; rw [bind_err (upsert_fault hl _)],
      by show (delete I.cfg h fuel I.delSkip k >>= fun _ => pure SOut.unit) s = _; rw [bind_err (delete_fault hl)]⟩

/-- What a run of the visitor of a set does. -/
theorem visitsS_log {c : Cfg K} {f : List K → K → Bool} : ∀ {xs : List Link} {log : List K} {s s' : St K Unit} {r : List K × Bool},
    Visits (visitSet c fun log k => (log ++ [k], f log k)) xs log s r s' → s' = s ∧ ∃ es : List K, r.1 = log ++ es ∧ es.length = xs.length ∧
      (∀ (i : Nat) (x : Link), xs[i]? = some x → ∃ k, es[i]? = some k ∧ readKey c x s = .ok (k, s)) ∧
      (∀ (i : Nat) (e : K), es[i]? = some e → i + 1 < es.length → f (log ++ es.take i) e = true) ∧
      (∀ (i : Nat) (e : K), es[i]? = some e → i + 1 = es.length → f (log ++ es.take i) e = r.2) ∧ (es = [] → r.2 = true) := by
  intro xs
  induction xs with
  | nil =>
    intro log s s' r h
    obtain ⟨rfl, rfl⟩ := h
    exact ⟨rfl, [], by simp, rfl, fun i x h => by simp at h, fun i e h => by simp at h, fun i e h => by simp at h, fun _ => rfl⟩
  | cons x xs ih =>
    intro log s s' r h
    obtain ⟨u₁, go, s₁, e1, e2⟩ := h
    have e1 : (readKey c x >>= fun k => pure (log ++ [k], f log k)) s = .ok ((u₁, go), s₁) := e1
    cases hk : (readKey c x : M K Unit K) s with
    | error y => rw [bind_err hk] at e1; cases e1
    | ok q =>
      obtain ⟨k, s2⟩ := q
      obtain rfl := (Reader.readKey _ _).ok hk |>.1
      rw [bind_ok hk] at e1
      cases e1
      cases hgo : f log k with
      | true =>
        simp only [hgo, if_true] at e2
        obtain ⟨rfl, es, b1, b2, b3, b4, b5, b6⟩ := ih e2
        refine ⟨rfl, k :: es, by simp [b1], by simp [b2], ?_, ?_, ?_, by simp⟩
        · intro i y hy
          cases i with
          | zero => cases hy; exact ⟨k, rfl, hk⟩
          | succ i => exact b3 i y hy
        · intro i e he hi
          cases i with
          | zero => cases he; simpa using hgo
          | succ i => simpa using b4 i e he (by simpa using hi)
        · intro i e he hi
          cases i with
          | zero =>
            cases he
            have : es = [] := List.eq_nil_of_length_eq_zero (by simpa using hi)
            rw [b6 this]
            simpa using hgo
          | succ i => simpa using b5 i e he (by simpa using hi)
      | false =>
        simp only [hgo] at e2
        obtain ⟨rfl, rfl, rfl⟩ := e2
        refine ⟨rfl, [k], by simp, rfl, ?_, ?_, ?_, by simp⟩
        · intro i y hy
          cases i with
          | zero => cases hy; exact ⟨k, rfl, hk⟩
          | succ i => simp at hy
        · intro i e he hi
          simp at hi
        · intro i e he hi
          cases i with
          | zero => cases he; simpa using hgo
          | succ i => simp at he

theorem allS_visits {f : List K → K → Bool} {o : SOut K} {s' : St K Unit}
    (e : I.exec fuel (some h) (.all f) s = .ok (o, s')) : ∃ L b xs, o = .log L ∧
      Visits (visitSet I.cfg fun log k => (log ++ [k], f log k)) xs [] s (L, b) s' ∧
      (∀ all, listScan fuel ⟨.blk h, 0⟩ s = .ok (all, s) → xs <+: all) ∧ (b = true → listScan fuel ⟨.blk h, 0⟩ s = .ok (xs, s)) := by
  have e : ((scan (visitSet I.cfg fun log k => (log ++ [k], f log k)) fuel [] ⟨.blk h, 0⟩ >>= fun r => pure r.1) >>= fun l =>
    pure (SOut.log l)) s = .ok (o, s') := e
  rw [bind_assoc_M] at e
  cases h1 : scan (visitSet I.cfg fun log k => (log ++ [k], f log k)) fuel [] ⟨.blk h, 0⟩ s with
  | error x => rw [bind_err h1] at e; cases e
  | ok q =>
    rw [bind_ok h1] at e
    cases e
    obtain ⟨xs, v1, v2, v3⟩ := scan_ok (Mild.visitSet _) _ _ _ _ _ _ h1
    exact ⟨q.1.1, q.1.2, xs, rfl, v1, v2, v3⟩

/-- The callback `f` never told `All` to stop in this run. -/
def SGoesOn (f : List K → K → Bool) (L : List K) : Prop :=
  ∀ (i : Nat) (e : K), L[i]? = some e → f (L.take i) e = true

theorem SGoesOn.flag {c : Cfg K} {f : List K → K → Bool} {L : List K} {b : Bool} {xs : List Link} {s' : St K Unit}
    (hg : SGoesOn f L) (v : Visits (visitSet c fun log k => (log ++ [k], f log k)) xs [] s (L, b) s') : b = true := by
  obtain ⟨_, es, b1, _, _, _, b5, b6⟩ := visitsS_log v
  simp only [List.nil_append] at b1 b5
  subst b1
  cases hL : L.length with
  | zero => exact b6 (List.eq_nil_of_length_eq_zero hL)
  | succ n =>
    have hx : L[n]? = some L[n] := List.getElem?_eq_getElem (by omega)
    rw [← b5 n _ hx (by omega)]
    exact hg n _ hx

/-- C17 and C58 for sets, in any memory whatsoever: if `All` returns, the memory is unchanged; every call of the callback but the last
returned true; the elements visited are a prefix of those that `All` visits with any callback that does not stop, and all of them if this callback has not
stopped either; then every `k` for which `Has(k)` returns true has been visited. -/
theorem C17_anyS {f : List K → K → Bool} {o : SOut K} {s' : St K Unit}
    (e : I.exec fuel (some h) (.all f) s = .ok (o, s')) : s' = s ∧ ∃ L, o = .log L ∧
      (∀ (i : Nat) (e : K), L[i]? = some e → i + 1 < L.length → f (L.take i) e = true) ∧
      (∀ f' L' s'', I.exec fuel (some h) (.all f') s = .ok (.log L', s'') → SGoesOn f' L' → L <+: L' ∧ (SGoesOn f L → L = L')) ∧
      (SGoesOn f L → ∀ k, I.exec fuel (some h) (.has k) s = .ok (.bool true, s) → ∃ e ∈ L, I.cfg.eq k e = true) := by
  obtain ⟨L, b, xs, rfl, v1, v2, v3⟩ := allS_visits e
  obtain ⟨rfl, es, a1, a2, a3, a4, a5, a6⟩ := visitsS_log v1
  simp only [List.nil_append] at a1 a4 a5
  subst a1
  refine ⟨rfl, L, rfl, a4, fun f' L' s'' e' hg' => ?_, fun hg k hk => ?_⟩
  · obtain ⟨L₂, b', ys, h1, w1, w2, w3⟩ := allS_visits e'
    cases h1
    obtain rfl := hg'.flag w1
    obtain ⟨rfl, es', b1, b2, b3, _⟩ := visitsS_log w1
    simp only [List.nil_append] at b1
    subst b1
    have hp := v2 _ (w3 rfl)
    have hpre : L <+: L' := by
      obtain ⟨zs, rfl⟩ := hp
      rw [List.prefix_iff_eq_take]
      apply List.ext_getElem?
      intro i
      rw [List.getElem?_take]
      by_cases hi : i < L.length
      · rw [if_pos hi]
        have hx : xs[i]? = some xs[i] := List.getElem?_eq_getElem (by omega)
        obtain ⟨k, c1, c2⟩ := a3 i _ hx
        obtain ⟨k', d1, d2⟩ := b3 i xs[i] (by rw [List.getElem?_append_left (by omega)]; exact hx)
        rw [c2] at d2; cases d2
        rw [c1, d1]
      · rw [if_neg hi, List.getElem?_eq_none (by omega)]
    refine ⟨hpre, fun hg => hpre.eq_of_length ?_⟩
    obtain rfl := hg.flag v1
    have hxy := v3 rfl
    rw [w3 rfl] at hxy
    cases hxy
    rw [a2, b2]
  · obtain rfl := hg.flag v1
    obtain ⟨_, p, hl, hp⟩ := has_lookup hk
    cases p with
    | none => cases hp
    | some p =>
      obtain ⟨x, k', h2, h3, h4, h5⟩ := lookup_listed hl (v3 rfl)
      obtain ⟨i, hi, hx⟩ := List.mem_iff_getElem.1 h2
      obtain ⟨k₂, c1, c2⟩ := a3 i x (by rw [List.getElem?_eq_getElem hi, hx])
      rw [h4] at c2; cases c2
      exact ⟨_, List.mem_of_getElem? c1, h5⟩

end

section
variable {K : Type} {I : SetImpl K} {g : Bool} {fuel h : Nat} {k : K} {s : St K Unit}

/-- One more element for an `Add` of a key for which `Has` returns false, one less for a `Del` of a key for which it returns true. -/
def tallyS1 (I : SetImpl K) (fuel h : Nat) (s : St K Unit) : SOp K → BitVec 64
  | .add k => match I.Has fuel (some h) k s with
    | .ok (false, _) => 1#64
    | _ => 0#64
  | .del k => match I.Has fuel (some h) k s with
    | .ok (true, _) => -1#64
    | _ => 0#64
  | _ => 0#64

/-- The balance of a whole history. -/
def tallyS (I : SetImpl K) (fuel h : Nat) : List (SOp K) → St K Unit → BitVec 64
  | [], _ => 0#64
  | op :: ops, s => tallyS1 I fuel h s op +
      match I.exec fuel (some h) op s with
      | .ok (_, s') => tallyS I fuel h ops s'
      | .error _ => 0#64

theorem has_form {e : Except Fault (Bool × St K Unit)} (he : I.Has fuel (some h) k s = e) :
    (∃ b, e = .ok (b, s) ∧ I.exec fuel (some h) (.has k) s = .ok (.bool b, s)) ∨ ∃ x, e = .error x ∧ I.exec fuel (some h) (.has k) s = .error x := by
  subst he
  cases h1 : I.Has fuel (some h) k s with
  | error x => exact .inr ⟨x, rfl, by simp only [SetImpl.exec]; rw [bind_err h1]⟩
  | ok r =>
    obtain ⟨b, s'⟩ := r
    have h2 : I.exec fuel (some h) (.has k) s = .ok (.bool b, s') := by simp only [SetImpl.exec]; rw [bind_ok h1]; rfl
    obtain ⟨rfl, _⟩ := has_lookup h2
    exact .inl ⟨b, rfl, h2⟩

theorem lenS_step (hI : IsSet I false) {op : SOp K} {o : SOut K} {s₁ : St K Unit} (he : I.exec fuel (some h) op s = .ok (o, s₁)) {n : BitVec 64}
    (hn : SLenIs I fuel h s n) : SLenIs I fuel h s₁ (n + tallyS1 I fuel h s op) := by
  cases op with
  | has k =>
    rcases has_form (I := I) (fuel := fuel) (h := h) (k := k) (s := s) rfl with ⟨b, _, e⟩ | ⟨x, _, e⟩ <;> rw [e] at he <;> cases he
    simpa [tallyS1] using hn
  | add k =>
    rcases has_form (I := I) (fuel := fuel) (h := h) (k := k) (s := s) rfl with ⟨b, e0, e⟩ | ⟨x, _, e⟩
    · cases b with
      | false =>
        simp only [tallyS1, e0]
        exact ((C56_set hI e).2.1 _ _ he).2.1 n hn
      | true =>
        simp only [tallyS1, e0, BitVec.add_zero]
        rw [(C55_set hI e).2.1] at he; cases he; exact hn
    · rw [(C57_set e).1] at he; cases he
  | del k =>
    rcases has_form (I := I) (fuel := fuel) (h := h) (k := k) (s := s) rfl with ⟨b, e0, e⟩ | ⟨x, _, e⟩
    · cases b with
      | false =>
        simp only [tallyS1, e0, BitVec.add_zero]
        rw [(C56_set hI e).2.2.1 rfl] at he; cases he; exact hn
      | true =>
        simp only [tallyS1, e0]
        rw [← BitVec.sub_eq_add_neg]
        exact ((C55_set hI e).2.2.1 rfl _ _ he).2.1 n hn
    · rw [(C57_set e).2] at he; cases he
  | len =>
    rw [show I.exec fuel (some h) .len s = .ok (.num n, s) from hn] at he
    cases he
    simpa [tallyS1] using hn
  | dep =>
    obtain ⟨o', e1, _⟩ := sSameCounters (I := I) (fuel := fuel) (h := h) (s := s) (s₁ := s) rfl .dep (.inr rfl)
    rw [he] at e1; cases e1
    simpa [tallyS1] using hn
  | all f =>
    obtain ⟨rfl, _⟩ := C17_anyS he
    simpa [tallyS1] using hn

/-- C59 for sets other than `BytesSet`. -/
theorem C59_lenS (hI : IsSet I false) {ops : List (SOp K)} : ∀ {s s₁ : St K Unit} {os : List (SOut K)}, I.run fuel (some h) ops s = .ok (os, s₁) →
    ∀ {n : BitVec 64}, SLenIs I fuel h s n → SLenIs I fuel h s₁ (n + tallyS I fuel h ops s) := by
  induction ops with
  | nil =>
    intro s s₁ os e n hn
    cases e
    simpa [tallyS] using hn
  | cons op ops ih =>
    intro s s₁ os e n hn
    simp only [SetImpl.run] at e
    cases h1 : I.exec fuel (some h) op s with
    | error x => rw [bind_err h1] at e; cases e
    | ok r =>
      obtain ⟨o, s2⟩ := r
      rw [bind_ok h1] at e
      cases h2 : I.run fuel (some h) ops s2 with
      | error x => rw [bind_err h2] at e; cases e
      | ok q =>
        rw [bind_ok (a := q.1) (s' := q.2) h2] at e
        cases e
        have := ih h2 (lenS_step hI h1 hn)
        simpa only [tallyS, h1, BitVec.add_assoc] using this

end

/-! ### Concrete cases -/

/-- A map that has lost a key: `Set` of 0x211, 0x001 and 0x311 (see `C05_Map_refuted_set`); the handle is `some 0`. -/
def lossyMap : St Nat Nat :=
  match (GenericMap onceKey).session 256 0#64 [.set 0x211 1, .set 0x001 2, .set 0x311 3] (St.init : St Nat Nat) with
  | .ok r => r.2
  | .error _ => St.init

/-- The same for a set. -/
def lossySet : St Nat Unit :=
  match (GenericSet onceKey).session 256 0#64 [.add 0x211, .add 0x001, .add 0x311] (St.init : St Nat Unit) with
  | .ok r => r.2
  | .error _ => St.init

theorem of_answer {K V : Type} [Inhabited V] {I : MapImpl K V} {fuel h : Nat} {k : K} {s : St K V} {v : V} {b : Bool}
    (e : (I.exec fuel (some h) (.get k) s).map (fun r => r.1) = .ok (.pair v b)) : I.exec fuel (some h) (.get k) s = .ok (.pair v b, s) := by
  rcases get_form (I := I) (fuel := fuel) (h := h) (k := k) (s := s) _ rfl with ⟨v', b', e'⟩ | ⟨x, e'⟩ <;> rw [e'] at e <;> cases e
  exact e'

theorem of_answerS {K : Type} {I : SetImpl K} {fuel h : Nat} {k : K} {s : St K Unit} {b : Bool}
    (e : (I.exec fuel (some h) (.has k) s).map (fun r => r.1) = .ok (.bool b)) : I.exec fuel (some h) (.has k) s = .ok (.bool b, s) := by
  rcases has_form (I := I) (fuel := fuel) (h := h) (k := k) (s := s) rfl with ⟨b', _, e'⟩ | ⟨x, _, e'⟩ <;> rw [e'] at e <;> cases e
  exact e'

theorem lossy_001 : (GenericMap onceKey).exec 256 (some 0) (.get 0x001) lossyMap = .ok (.pair 2 true, lossyMap) := of_answer (by decide +kernel)
theorem lossy_211 : (GenericMap onceKey).exec 256 (some 0) (.get 0x211) lossyMap = .ok (.pair 0 false, lossyMap) := of_answer (by decide +kernel)

example := C55_stored (IsMap.generic onceKey) lossy_001
example := C55_local (IsMap.generic onceKey) (KeyedMap.generic onceKey (by simp [onceKey])) lossy_001
example := C56_missing (IsMap.generic onceKey) lossy_211

/-- The lost key is inserted again: `Len` is 4. -/
example : ((GenericMap onceKey).run 256 (some 0) [.set 0x211 7, .len, .get 0x211, .del 0x001, .len] lossyMap).map (fun r => r.1) =
    .ok [.unit, .num 4#64, .pair 7 true, .unit, .num 3#64] := by decide +kernel
example : tally (GenericMap onceKey) 256 0 [.set 0x211 7, .len, .get 0x211, .del 0x001, .len] lossyMap = 0#64 := by decide +kernel
example : (((GenericMap onceKey).run 256 (some 0) [.all fun log _ v => (v + 1, log.length < 1), .get 0x001, .get 0x311, .get 0x211] lossyMap).map fun r => r.1) =
    .ok [.log [(0x001, 2), (0x211, 1)], .pair 3 true, .pair 3 true, .pair 0 false] := by decide +kernel

theorem lossyS_001 : (GenericSet onceKey).exec 256 (some 0) (.has 0x001) lossySet = .ok (.bool true, lossySet) := of_answerS (by decide +kernel)
theorem lossyS_211 : (GenericSet onceKey).exec 256 (some 0) (.has 0x211) lossySet = .ok (.bool false, lossySet) := of_answerS (by decide +kernel)

example := C55_set (IsSet.generic onceKey) lossyS_001
example := C56_set (IsSet.generic onceKey) lossyS_211

/-- A hash that sends every key whose lowest bytes are 01 80 where -1 and 255 are. -/
def phantomHash : Maphash := fun sd bs => if bs.take 2 = [0x01, 0x80] then 0x5ff#64 else toyHash sd bs

/-- The phantom key: the bitmaps of the branch that separates -1 from 255, read as a key. -/
def phantomKey : IntKey := 0x0000800100008001#64

/-- An `IntMap` that contains -1 and 255, which it does not find any more. -/
def phantomMap : St IntKey Nat :=
  match (IntMap phantomHash).session 256 0#64 [.set (-1#64) 7, .set 255#64 8] (St.init : St IntKey Nat) with
  | .ok r => r.2
  | .error _ => St.init

theorem phantom_get : (IntMap phantomHash).exec 256 (some 0) (.get phantomKey) phantomMap = .error .wrongType := by
  have h : ((IntMap phantomHash).exec 256 (some 0) (.get phantomKey) phantomMap).map (fun r => r.1) = .error .wrongType := by decide +kernel
  cases h1 : (IntMap phantomHash).exec 256 (some 0) (.get phantomKey) phantomMap with
  | error e => rw [h1] at h; cases h; rfl
  | ok r => rw [h1] at h; cases h

example := C57_faults (IsMap.int phantomHash) phantom_get

/-- C24 is false for `Get` and `Set` too: after `Set(-1, 7)` and `Set(255, 8)`, `Get` of a key that has never been stored takes an array of
links for the value (`Set` overwrites the links). -/
theorem C24_IntMap_refuted_get :
    ∃ (sum : Maphash) (sd : Seed) (k : IntKey) (ops : List (MOp IntKey Nat)),
      Separated (byteStream sum sd intbytes) (fun x => Stores ops x ∨ x = k) ∧ ¬ Stores ops k ∧
      ∀ op, op = .get k ∨ op = .val k ∨ op = .ptr k ∨ op = .set k 5 →
        ∀ fuel, 256 ≤ fuel → (IntMap sum).session fuel sd (ops ++ [op]) St.init = .error .wrongType := by
  refine ⟨phantomHash, 0#64, phantomKey, [.set (-1#64) 7, .set 255#64 8], ?_, ?_, fun op hop fuel hf => ?_⟩
  · intro a b ha hb hab
    simp [Stores, MOp.stores] at ha hb
    rcases ha with (rfl | rfl) | rfl <;> rcases hb with (rfl | rfl) | rfl <;>
      first | exact absurd rfl hab | exact ⟨2, by decide, by decide +kernel⟩
  · simp [Stores, MOp.stores, phantomKey]
  · rcases hop with rfl | rfl | rfl | rfl <;>
      exact MapImpl.fault_of (V := Nat) (IntMap_mono phantomHash) (f := 256) (by decide) (by decide +kernel) hf

end Amt
