/-
Histories of calls of the translated methods, compared with histories of calls of the model.
-/
import Verif.GoBridge

set_option linter.unusedVariables false
set_option linter.unusedSectionVars false
set_option linter.unusedSimpArgs false

namespace Amt.Go
open Amt Spec

/-! ### Client programs of the translated methods -/

/-- The methods of a map as they stand in the translation.  The callbacks of `Mod` and `All` receive the value as a pointer. -/
structure MapCode (K V : Type) where
  Ptr : Nat → Handle → K → M K V Amt.Ptr
  Get : Nat → Handle → K → M K V (V × Bool)
  Val : Nat → Handle → K → M K V V
  Set : Nat → Handle → K → V → M K V Unit
  Mod : Nat → Handle → K → (List (V × Bool) → Amt.Ptr → Bool → M K V (List (V × Bool))) → List (V × Bool) → M K V (List (V × Bool))
  Del : Nat → Handle → K → List PathLink → M K V (List PathLink)
  All : Nat → Handle → (List (K × V) → K → Amt.Ptr → M K V (List (K × V) × Bool)) → List (K × V) → M K V (List (K × V))

/-- The methods of a set. -/
structure SetCode (K : Type) where
  Has : Nat → Handle → K → M K Unit Bool
  Add : Nat → Handle → K → M K Unit Unit
  Del : Nat → Handle → K → List PathLink → M K Unit (List PathLink)
  All : Nat → Handle → (List K → K → M K Unit (List K × Bool)) → List K → M K Unit (List K)

/-- The callback for `All` on a set. -/
def allCbS {K : Type} (f : List K → K → Bool) (log : List K) (k : K) : M K Unit (List K × Bool) := pure (log ++ [k], f log k)

section
variable {K V : Type} [Inhabited V]

/-- One call, given what is in the scratch area of the root; only `Del` uses it.  `Len` and `Dep` (amt.go:79-92) are those of the
model. -/
def MapCode.exec (G : MapCode K V) (n : Nat) (m : Handle) (path : List PathLink) : MOp K V → M K V (MOut K V × List PathLink)
  | .get k => do let r ← G.Get n m k; pure (.pair r.1 r.2, path)
  | .val k => do let v ← G.Val n m k; pure (.one v, path)
  | .ptr k => do
    let p ← G.Ptr n m k
    if p = .nil then pure (.opt none, path) else do let v ← kvVal p; pure (.opt (some v), path)
  | .set k v => do G.Set n m k v; pure (.unit, path)
  | .mod k f => do let l ← G.Mod n m k (modCb f) []; pure (.calls l, path)
  | .del k => do let path ← G.Del n m k path; pure (.unit, path)
  | .len => do let l ← MapImpl.Len m; pure (.num l, path)
  | .dep => do let q ← MapImpl.Dep m; pure (.rat q, path)
  | .write k v => do
    let p ← G.Ptr n m k
    if p = .nil then pure (.unit, path) else do storeVal p v; pure (.unit, path)
  | .all f => do let l ← G.All n m (allCb f) []; pure (.log l, path)

def MapCode.run (G : MapCode K V) (n : Nat) (m : Handle) : List PathLink → List (MOp K V) → M K V (List (MOut K V))
  | _, [] => pure []
  | path, op :: ops => do
    let r ← G.exec n m path op
    let os ← MapCode.run G n m r.2 ops
    pure (r.1 :: os)

/-- A new map, and calls on it. -/
def MapCode.session (G : MapCode K V) (n : Nat) (sd : Seed) (ops : List (MOp K V)) : M K V (Handle × List (MOut K V)) := do
  let m ← newRoot sd
  let os ← G.run n m blank ops
  pure (m, os)

def SetCode.exec (G : SetCode K) (n : Nat) (m : Handle) (path : List PathLink) : SOp K → M K Unit (SOut K × List PathLink)
  | .has k => do let b ← G.Has n m k; pure (.bool b, path)
  | .add k => do G.Add n m k; pure (.unit, path)
  | .del k => do let path ← G.Del n m k path; pure (.unit, path)
  | .len => do let l ← MapImpl.Len m; pure (.num l, path)
  | .dep => do let q ← MapImpl.Dep m; pure (.rat q, path)
  | .all f => do let l ← G.All n m (allCbS f) []; pure (.log l, path)

def SetCode.run (G : SetCode K) (n : Nat) (m : Handle) : List PathLink → List (SOp K) → M K Unit (List (SOut K))
  | _, [] => pure []
  | path, op :: ops => do
    let r ← G.exec n m path op
    let os ← SetCode.run G n m r.2 ops
    pure (r.1 :: os)

def SetCode.session (G : SetCode K) (n : Nat) (sd : Seed) (ops : List (SOp K)) : M K Unit (Handle × List (SOut K)) := do
  let m ← newRoot sd
  let os ← G.run n m blank ops
  pure (m, os)

end

/-! ### One call -/

section
variable {K V Op Out : Type}

/-- The outcome of a translated call, and that of the model in the same memory. -/
def Drop : Except Fault ((Out × List PathLink) × St K V) → Except Fault (Out × St K V) → Prop
  | .error e, .error e' => e = e'
  | .ok ((a, p), s), .ok (b, t) => a = b ∧ s = t ∧ p.length = 12 ∧ Tidy s
  | _, _ => False

/-- The translated call does what `y n` does, up to the loop bounds. -/
structure Between (x : M K V (Out × List PathLink)) (y : Nat → M K V Out) (n : Nat) (s : St K V) : Prop where
  lo : y n s = .error .diverge ∨ Drop (x s) (y n s)
  hi : x s = .error .diverge ∨ Drop (x s) (y (n + 301) s)

theorem Drop.of {x' : M K V Out} (hx : Neat x') {path : List PathLink} (hp : path.length = 12) {s : St K V} (hs : Tidy s) :
    Drop ((x' >>= fun o => pure (o, path)) s) (x' s) := by
  rw [bind_run]
  cases h : x' s with
  | error e => exact rfl
  | ok r => exact ⟨rfl, rfl, hp, hx _ _ _ hs h⟩

/-- A call that does not use the scratch area. -/
theorem Between.plain {x : M K V (Out × List PathLink)} {x' : M K V Out} {y : Nat → M K V Out} {n : Nat} {path : List PathLink} (hp : path.length = 12)
    {s : St K V} (hs : Tidy s) (hx : Neat x') (he : Go.run x s = Go.run (x' >>= fun o => pure (o, path)) s) (h1 : Ext (y n) x') (h2 : Ext x' (y (n + 301))) :
    Between x y n s := by
  have he : x s = (x' >>= fun o => pure (o, path)) s := he
  refine ⟨?_, ?_⟩
  · rcases h1 s with h | h
    · exact Or.inl h
    · right; rw [he, ← h]; exact Drop.of hx hp hs
  · rcases h2 s with h | h
    · left; rw [he, bind_run, h]
    · right; rw [he, h]; exact Drop.of hx hp hs

/-- `Del`. -/
theorem Between.del (c : Cfg K) (h : Nat) (skip : Bool → Bool) (key : K) {n : Nat} {path : List PathLink} (hp : path.length = 12) {s : St K V} (hs : Tidy s)
    {D : M K V (List PathLink)} (he : Go.run D s = Go.run (deleteX c h (n + 300) skip key path) s) (o : Out) :
    Between (D >>= fun path => pure (o, path)) (fun n => delete c h n skip key >>= fun _ => pure o) n s := by
  have he : D s = deleteX c h (n + 300) skip key path s := he
  have main : ∀ m, deleteX c h (n + 300) skip key path s = deleteS c h m skip key path s →
      Drop ((D >>= fun path => pure (o, path)) s) ((delete c h m skip key >>= fun _ => pure o) s) := by
    intro m hm
    have h1 := deleteS_sim (V := V) c h m skip key hp s
    rw [bind_run, bind_run, he, hm]
    cases h2 : deleteS c h m skip key path s with
    | error e =>
      rw [h2] at h1
      cases h3 : delete c h m skip key s with
      | error e' => rw [h3] at h1; exact h1
      | ok r => rw [h3] at h1; exact h1.elim
    | ok r =>
      rw [h2] at h1
      cases h3 : delete c h m skip key s with
      | error e' => rw [h3] at h1; exact h1.elim
      | ok r' =>
        rw [h3] at h1
        obtain ⟨h4, h5⟩ := h1
        exact ⟨rfl, h4, h5, deleteX_neat c h (n + 300) skip key path _ _ _ hs (hm.trans h2)⟩
  refine ⟨?_, ?_⟩
  · rcases delete_lo (V := V) c h n skip key path s with h1 | h1
    · left
      have h2 := deleteS_sim (V := V) c h n skip key hp s
      rw [h1] at h2
      rw [bind_run]
      cases h3 : delete c h n skip key s with
      | error e => rw [h3] at h2; cases h2; rfl
      | ok r => rw [h3] at h2; exact h2.elim
    · exact Or.inr (main n h1)
  · rcases delete_hi (V := V) c h (n + 300) skip key path s with h1 | h1
    · left; rw [bind_run, he, h1]
    · exact Or.inr (main _ h1.symm)

/-! ### Histories -/

/-- Calls, with the scratch area. -/
def runP (X : List PathLink → Op → M K V (Out × List PathLink)) : List PathLink → List Op → M K V (List Out)
  | _, [] => pure []
  | path, op :: ops => X path op >>= fun r => runP X r.2 ops >>= fun os => pure (r.1 :: os)

theorem runP_lo {X : List PathLink → Op → M K V (Out × List PathLink)} {Y : Nat → Op → M K V Out} {n : Nat} {m : Handle}
    (h : ∀ path op s, path.length = 12 → Tidy s → Between (X path op) (fun n => Y n op) n s) :
    ∀ ops path s, path.length = 12 → Tidy s → calls (fun _ => Y n) m ops s = .error .diverge ∨ runP X path ops s = calls (fun _ => Y n) m ops s := by
  intro ops
  induction ops with
  | nil => intro path s hp hs; exact Or.inr rfl
  | cons op ops ih =>
    intro path s hp hs
    rw [calls, runP, bind_run, bind_run]
    rcases (h path op s hp hs).lo with h1 | h1
    · left; rw [h1]
    · revert h1
      cases X path op s with
      | error e =>
        cases Y n op s with
        | error e' => intro h1; right; exact congrArg _ h1
        | ok r => intro h1; exact h1.elim
      | ok r =>
        cases Y n op s with
        | error e' => intro h1; exact h1.elim
        | ok r' =>
          obtain ⟨⟨a, p⟩, t⟩ := r
          obtain ⟨b, t'⟩ := r'
          rintro ⟨rfl, rfl, h3, h4⟩
          dsimp only at h3 h4 ⊢
          rw [bind_run, bind_run]
          rcases ih p t h3 h4 with h5 | h5
          · left; rw [h5]
          · right; rw [h5]

theorem runP_hi {X : List PathLink → Op → M K V (Out × List PathLink)} {Y : Nat → Op → M K V Out} {n : Nat} {m : Handle}
    (h : ∀ path op s, path.length = 12 → Tidy s → Between (X path op) (fun n => Y n op) n s) :
    ∀ ops path s, path.length = 12 → Tidy s → runP X path ops s = .error .diverge ∨ calls (fun _ => Y (n + 301)) m ops s = runP X path ops s := by
  intro ops
  induction ops with
  | nil => intro path s hp hs; exact Or.inr rfl
  | cons op ops ih =>
    intro path s hp hs
    rw [calls, runP, bind_run, bind_run]
    rcases (h path op s hp hs).hi with h1 | h1
    · left; rw [h1]
    · revert h1
      cases X path op s with
      | error e =>
        cases Y (n + 301) op s with
        | error e' => intro h1; right; exact (congrArg _ h1).symm
        | ok r => intro h1; exact h1.elim
      | ok r =>
        cases Y (n + 301) op s with
        | error e' => intro h1; exact h1.elim
        | ok r' =>
          obtain ⟨⟨a, p⟩, t⟩ := r
          obtain ⟨b, t'⟩ := r'
          rintro ⟨rfl, rfl, h3, h4⟩
          dsimp only at h3 h4 ⊢
          rw [bind_run, bind_run]
          rcases ih p t h3 h4 with h5 | h5
          · left; rw [h5]
          · right; rw [h5]

theorem calls_same2 {A B : Op → M K V Out} {h k : Nat} (hab : ∀ φ op, Same h k φ EqR (A op) (B op)) (m : Handle) (ops : List Op) :
    ∀ {φ : Ren}, Same h k φ EqR (calls (fun _ => A) m ops) (calls (fun _ => B) m ops) := by
  induction ops with
  | nil => intro φ; exact Same.pure rfl
  | cons op ops ih =>
    intro φ
    refine Same.bind (hab φ op) fun φ' l a b e => Same.bind ih fun φ'' l' as bs es => ?_
    cases e; cases es; exact Same.pure rfl

/-- The translation, between the model with one bound and the model with a larger one. -/
theorem sandwich {X : Nat → List PathLink → Op → M K V (Out × List PathLink)} {Y : Nat → Nat → Op → M K V Out} {Z : Nat → Nat → Op → M K V Out} {n : Nat}
    (h1 : ∀ h path op s, path.length = 12 → Tidy s → Between (X h path op) (fun n => Y h n op) n s)
    (h2 : ∀ h k n φ op, Same h k φ EqR (Z h n op) (Y k n op)) (sd : Seed) (ops : List Op) {s : St K V} (hs : Tidy s) (s₀ : St K V) :
    (outcome ((newRoot sd >>= fun m => calls (fun _ => Z (m.getD 0) n) m ops) s₀) = .error .diverge ∨
      outcome ((newRoot sd >>= fun m => runP (X (m.getD 0)) blank ops) s) = outcome ((newRoot sd >>= fun m => calls (fun _ => Z (m.getD 0) n) m ops) s₀)) ∧
    (outcome ((newRoot sd >>= fun m => runP (X (m.getD 0)) blank ops) s) = .error .diverge ∨
      outcome ((newRoot sd >>= fun m => calls (fun _ => Z (m.getD 0) (n + 301)) m ops) s₀) = outcome ((newRoot sd >>= fun m => runP (X (m.getD 0)) blank ops) s)) := by
  obtain ⟨t₀, t, e1, e2, e3, _⟩ := newRoot_same sd s₀ s
  have ht : Tidy t := newRoot_neat sd _ _ _ hs e2
  rw [bind_ok e1, bind_ok e2, bind_ok e1]
  dsimp only [Option.getD]
  have key : ∀ n, outcome (calls (fun _ => Z s₀.next n) (some s₀.next) ops t₀) = outcome (calls (fun _ => Y s.next n) (some s₀.next) ops t) :=
    fun n => OutR.outcome (calls_same2 (fun φ op => h2 s₀.next s.next n φ op) (some s₀.next) ops t₀ t e3)
  rw [key n, key (n + 301)]
  have hb : blank.length = 12 := by decide
  refine ⟨?_, ?_⟩
  · rcases runP_lo (m := some s₀.next) (h1 s.next) ops blank t hb ht with h | h
    · left; rw [h]; rfl
    · right; rw [h]
  · rcases runP_hi (m := some s₀.next) (h1 s.next) ops blank t hb ht with h | h
    · left; rw [h]; rfl
    · right; rw [h]

end

/-! ### Maps -/

section
variable {K V : Type} [Inhabited V]

/-- The methods are those of the model, call by call. -/
structure Mirrors (G : MapCode K V) (I : MapImpl K V) : Prop where
  ptr : ∀ n h key s, Go.run (G.Ptr n (some h) key) s = Go.run (ptrX I.cfg h (n + 300) key) s
  get : ∀ n h key, G.Get n (some h) key = (G.Ptr n (some h) key >>= fun p => if p = .nil then pure (default, false) else kvVal p >>= fun v => pure (v, true))
  val : ∀ n h key, G.Val n (some h) key = (G.Ptr n (some h) key >>= fun p => if p = .nil then pure default else kvVal p)
  set : ∀ n h key v s, Tidy s → Go.run (G.Set n (some h) key v) s = Go.run (upsertL I.cfg h (n + 300) key (I.setI key v) (newKv I.cfg key v) ()) s
  slot : ∀ key v, (I.setI key v).newSlot = newKv I.cfg key v >>= fun p => pure (p, ())
  setNeat : ∀ key v, InsNeat (I.setI key v)
  modNeat : ∀ key f, InsNeat (I.modI key f)
  mod : ∀ n h key f s, Tidy s → Go.run (G.Mod n (some h) key (modCb f) []) s = Go.run (upsertX I.cfg h (n + 300) key (I.modI key f)) s
  del : ∀ n h key path s, Tidy s → Go.run (G.Del n (some h) key path) s = Go.run (deleteX I.cfg h (n + 300) I.delSkip key path) s
  all : ∀ n h f, G.All n (some h) (allCb f) [] = I.All n (some h) (fun log k v => (log ++ [(k, v)], f log k v)) []
  mono : I.Mono
  blind : I.Blind

/-- A call of the model, with the cell for a free slot made as late as in Go. -/
def lateExec (I : MapImpl K V) (h n : Nat) : MOp K V → M K V (MOut K V)
  | .set k v => upsertT I.cfg h n k (I.setI k v) (newKv I.cfg k v) () >>= fun _ => pure .unit
  | op => I.exec n (some h) op

theorem lateExec_same {I : MapImpl K V} {G : MapCode K V} (hG : Mirrors G I) (h k n : Nat) (φ : Ren) (op : MOp K V) :
    Same h k φ EqR (I.exec n (some h) op) (lateExec I k n op) := by
  have h1 := MapImpl.exec_same hG.blind n op (h := h) (k := k) (φ := φ)
  cases op with
  | set key v =>
    refine Same.of_root fun hr => ?_
    refine Same.bind (RA := EqR) ?_ fun φ' l a b e => Same.pure rfl
    exact Same.upsertT I.cfg hr n key v () (hG.blind.set h k key v) (hG.slot key v)
  | _ => exact h1

theorem ptr_cases {I : MapImpl K V} {G : MapCode K V} (hG : Mirrors G I) {α : Type} (n h : Nat) (key : K) {f : Amt.Ptr → M K V α} {g : Option Amt.Ptr → M K V α}
    (h1 : f .nil = g none) (h2 : ∀ b, f (.blk b) = g (some (.blk b))) (h3 : g (some .nil) = M.fail .nilDeref) (s : St K V) :
    Go.run (G.Ptr n (some h) key >>= f) s = Go.run (lookupX I.cfg h (n + 300) key >>= g) s := by
  rw [run_bind, hG.ptr]
  unfold ptrX
  rw [run_bind, thenE_assoc, run_bind]
  congr 1
  funext r
  obtain ⟨p, t⟩ := r
  cases p with
  | none => dsimp only; rw [run_pure, thenE_ok, h1]
  | some p =>
    cases p with
    | nil => dsimp only; rw [h3]; rfl
    | blk b => dsimp only [fieldAddr]; rw [run_pure, thenE_ok, h2]

theorem Reads.lookupX (c : Cfg K) (h n : Nat) (key : K) : Reads (Go.lookupX c h n key : M K V _) := by
  unfold Go.lookupX
  refine Reads.bind (Reads.getRoot _) fun r => Reads.bind (Reads.searchX _ _ _ _ _) fun x => Reads.ite ?_ (Reads.pure _)
  exact Reads.bind (Reads.itemRef _) fun i => Reads.bind (Reads.load _) fun x => Reads.bind (Reads.readKey _ _) fun k => Reads.ite (Reads.pure _) (Reads.pure _)

theorem lookup_between {I : MapImpl K V} {α : Type} (h n : Nat) (key : K) (g : Option Amt.Ptr → M K V α) :
    Ext (I.Ptr n (some h) key >>= g) (lookupX I.cfg h (n + 300) key >>= g) ∧ Ext (lookupX I.cfg h (n + 300) key >>= g) (I.Ptr (n + 301) (some h) key >>= g) :=
  ⟨Ext.bind (lookup_lo I.cfg h n key) fun _ => Ext.refl _, Ext.bind (lookupX_lookup I.cfg h (n + 300) key) fun _ => Ext.refl _⟩

theorem len_reads (h : Nat) : Reads (MapImpl.Len (some h) : M K V _) :=
  Reads.bind (Reads.getRoot _) fun _ => Reads.pure _

theorem dep_reads (h : Nat) : Reads (MapImpl.Dep (some h) : M K V _) :=
  Reads.bind (Reads.getRoot _) fun _ => Reads.ite (Reads.pure _) (Reads.pure _)

theorem exec_between {I : MapImpl K V} {G : MapCode K V} (hG : Mirrors G I) (h n : Nat) (path : List PathLink) (op : MOp K V) (s : St K V)
    (hp : path.length = 12) (hs : Tidy s) : Between (G.exec n (some h) path op) (fun n => lateExec I h n op) n s := by
  -- a call that begins with a lookup
  have look : ∀ {x : M K V (MOut K V × List PathLink)} {y : Nat → M K V (MOut K V)} (key : K) (f : Amt.Ptr → M K V (MOut K V × List PathLink))
      (g : Option Amt.Ptr → M K V (MOut K V)), x = (G.Ptr n (some h) key >>= f) → (∀ n, y n = (I.Ptr n (some h) key >>= g)) →
      (f .nil = g none >>= fun o => pure (o, path)) → (∀ b, f (.blk b) = g (some (.blk b)) >>= fun o => pure (o, path)) → g (some .nil) = M.fail .nilDeref →
      (∀ p, Neat (g p)) → Between x y n s := by
    intro x y key f g hx hy h1 h2 h3 h4
    obtain ⟨e1, e2⟩ := lookup_between (I := I) h n key g
    rw [← hy] at e1 e2
    refine Between.plain hp hs (Neat.bind (Reads.lookupX I.cfg h (n + 300) key).neat h4) ?_ e1 e2
    rw [hx, bind_assoc_M]
    exact ptr_cases hG n h key h1 h2 (by rw [h3]; rfl) s
  cases op with
  | get key =>
    refine look key (fun p => (if p = .nil then pure (default, false) else kvVal p >>= fun v => pure (v, true)) >>= fun r => pure (.pair r.1 r.2, path))
      (fun o => (match o with | none => pure (default, false) | some p => do let kv ← loadKv p; pure (kv.2, true)) >>= fun r => pure (.pair r.1 r.2)) ?_ (fun n => ?_) ?_ (fun b => ?_) ?_ (fun p => ?_)
    · show (G.Get n (some h) key >>= _) = _
      rw [hG.get, bind_assoc_M]
    · show (I.Get n (some h) key >>= _) = _
      unfold MapImpl.Get
      rw [bind_assoc_M]
      rfl
    · rfl
    · simp only [if_neg (show ¬ (Amt.Ptr.blk b = .nil) from Amt.Ptr.noConfusion), kvVal, bind_assoc_M, pure_bind_M]
    · rfl
    · cases p with
      | none => exact Neat.pure _
      | some p => exact Neat.bind (Neat.bind (Reads.loadKv p).neat fun _ => Neat.pure _) fun _ => Neat.pure _
  | val key =>
    refine look key (fun p => (if p = .nil then pure default else kvVal p) >>= fun r => pure (.one r, path))
      (fun o => (match o with | none => pure default | some p => do let kv ← loadKv p; pure kv.2) >>= fun r => pure (.one r)) ?_ (fun n => ?_) ?_ (fun b => ?_) ?_ (fun p => ?_)
    · show (G.Val n (some h) key >>= _) = _
      rw [hG.val, bind_assoc_M]
    · show (I.Val n (some h) key >>= _) = _
      unfold MapImpl.Val
      rw [bind_assoc_M]
      rfl
    · rfl
    · simp only [if_neg (show ¬ (Amt.Ptr.blk b = .nil) from Amt.Ptr.noConfusion), kvVal, bind_assoc_M, pure_bind_M]
    · rfl
    · cases p with
      | none => exact Neat.pure _
      | some p => exact Neat.bind (Neat.bind (Reads.loadKv p).neat fun _ => Neat.pure _) fun _ => Neat.pure _
  | ptr key =>
    refine look key _ (fun o => match o with | none => pure (.opt none) | some p => do let kv ← loadKv p; pure (.opt (some kv.2))) rfl (fun n => rfl) ?_ (fun b => ?_) ?_ (fun p => ?_)
    · rfl
    · simp only [if_neg (show ¬ (Amt.Ptr.blk b = .nil) from Amt.Ptr.noConfusion), kvVal, bind_assoc_M, pure_bind_M]
    · rfl
    · cases p with
      | none => exact Neat.pure _
      | some p => exact Neat.bind (Reads.loadKv p).neat fun _ => Neat.pure _
  | write key v =>
    refine look key _ (fun o => match o with | none => pure .unit | some p => do storeVal p v; pure .unit) rfl (fun n => rfl) ?_ (fun b => ?_) ?_ (fun p => ?_)
    · rfl
    · simp only [if_neg (show ¬ (Amt.Ptr.blk b = .nil) from Amt.Ptr.noConfusion), bind_assoc_M, pure_bind_M]
    · rfl
    · cases p with
      | none => exact Neat.pure _
      | some p => exact Neat.bind (Neat.storeVal p v) fun _ => Neat.pure _
  | set key v =>
    refine Between.plain (x' := upsertL I.cfg h (n + 300) key (I.setI key v) (newKv I.cfg key v) () >>= fun _ => pure .unit) hp hs
      (Neat.bind (upsertL_neat I.cfg h _ key (hG.setNeat key v) v ()) fun _ => Neat.pure _) ?_
      (Ext.bind (upsertT_lo I.cfg h n key (hG.mono.set key v) _ _) fun _ => Ext.refl _) (Ext.bind (upsertT_hi I.cfg h (n + 300) key (hG.mono.set key v) _ _) fun _ => Ext.refl _)
    show Go.run (G.Set n (some h) key v >>= fun _ => pure (MOut.unit, path)) s = _
    rw [run_bind, hG.set n h key v s hs, bind_assoc_M, run_bind]
    rfl
  | mod key f =>
    refine Between.plain (x' := upsertX I.cfg h (n + 300) key (I.modI key f) >>= fun l => pure (.calls l)) hp hs
      (Neat.bind (upsertX_neat I.cfg h _ key (hG.modNeat key f)) fun _ => Neat.pure _) ?_
      (Ext.bind (upsert_lo I.cfg h n key (hG.mono.mod key f)) fun _ => Ext.refl _) (Ext.bind (upsert_hi I.cfg h (n + 300) key (hG.mono.mod key f)) fun _ => Ext.refl _)
    show Go.run (G.Mod n (some h) key (modCb f) [] >>= fun l => pure (MOut.calls l, path)) s = _
    rw [run_bind, hG.mod n h key f s hs, bind_assoc_M, run_bind]
    rfl
  | del key => exact Between.del I.cfg h I.delSkip key hp hs (hG.del n h key path s hs) MOut.unit
  | len =>
    refine Between.plain (x' := I.exec n (some h) .len) hp hs (Neat.bind (len_reads h).neat fun _ => Neat.pure _) ?_ (Ext.refl _) (Ext.refl _)
    show Go.run (MapImpl.Len (some h) >>= fun l => pure (MOut.num l, path)) s = Go.run ((MapImpl.Len (some h) >>= fun l => pure (MOut.num l)) >>= fun o => pure (o, path)) s
    rw [bind_assoc_M]
    rfl
  | dep =>
    refine Between.plain (x' := I.exec n (some h) .dep) hp hs (Neat.bind (dep_reads h).neat fun _ => Neat.pure _) ?_ (Ext.refl _) (Ext.refl _)
    show Go.run (MapImpl.Dep (some h) >>= fun l => pure (MOut.rat l, path)) s = Go.run ((MapImpl.Dep (some h) >>= fun l => pure (MOut.rat l)) >>= fun o => pure (o, path)) s
    rw [bind_assoc_M]
    rfl
  | all f =>
    refine Between.plain (x' := I.exec n (some h) (.all f)) hp hs ?_ ?_ (Ext.refl _) (MapImpl.exec_ext hG.mono (by omega) _ _)
    · refine Neat.bind (Neat.bind (Neat.pure h) fun _ => Neat.bind (scan_neat (fun u x => ?_) _ _ _) fun _ => Neat.pure _) fun _ => Neat.pure _
      exact Neat.bind (Reads.readKey _ _).neat fun k => Neat.bind (Reads.loadKv _).neat fun kv => Neat.bind (Neat.storeVal _ _) fun _ => Neat.pure _
    · show Go.run (G.All n (some h) (allCb f) [] >>= fun l => pure (MOut.log l, path)) s =
        Go.run ((I.All n (some h) (fun log k v => (log ++ [(k, v)], f log k v)) [] >>= fun l => pure (MOut.log l)) >>= fun o => pure (o, path)) s
      rw [hG.all, bind_assoc_M]
      rfl

theorem MapCode.run_eq (G : MapCode K V) (n : Nat) (m : Handle) (ops : List (MOp K V)) : ∀ path, G.run n m path ops = runP (fun path op => G.exec n m path op) path ops := by
  induction ops with
  | nil => intro path; rfl
  | cons op ops ih =>
    intro path
    rw [MapCode.run, runP]
    congr 1
    funext r
    rw [ih]

theorem answers_map {α β : Type} (x : M K V α) (f : α → M K V β) (s : St K V) :
    answers ((x >>= fun m => f m >>= fun os => pure (m, os)) s) = outcome ((x >>= f) s) := by
  rw [bind_run, bind_run]
  cases x s with
  | error e => rfl
  | ok r =>
    dsimp only
    rw [bind_run]
    cases f r.1 r.2 <;> rfl

theorem outcome_congr {β : Type} {sd : Seed} {f g : Handle → M K V β} (h : ∀ a, f (some a) = g (some a)) (s : St K V) :
    outcome ((newRoot sd >>= f) s) = outcome ((newRoot sd >>= g) s) := by
  show outcome (f (some s.next) _) = outcome (g (some s.next) _)
  rw [h]

/-- The translated map, between the model with one bound and the model with a larger one. -/
theorem Mirrors.session {I : MapImpl K V} {G : MapCode K V} (hG : Mirrors G I) (n : Nat) (sd : Seed) (ops : List (MOp K V)) {s : St K V} (hs : Tidy s) (s₀ : St K V) :
    (answers (I.session n sd ops s₀) = .error .diverge ∨ answers (G.session n sd ops s) = answers (I.session n sd ops s₀)) ∧
      (answers (G.session n sd ops s) = .error .diverge ∨ answers (I.session (n + 301) sd ops s₀) = answers (G.session n sd ops s)) := by
  have h1 := sandwich (n := n) (fun h path op s hp hs => exec_between hG h n path op s hp hs) (fun h k n φ op => lateExec_same hG h k n φ op) sd ops hs s₀
  have e1 : ∀ n s, answers (I.session n sd ops s) = outcome ((newRoot sd >>= fun m => calls (fun _ => I.exec n (some (m.getD 0))) m ops) s) := by
    intro n s
    refine (answers_map (newRoot sd) (fun m => I.run n m ops) s).trans (outcome_congr (fun a => ?_) s)
    rw [MapImpl.run_eq]
    have : ∀ l : List (MOp K V), calls (fun m op => I.exec n m op) (some a) l = calls (fun _ => I.exec n (some a)) (some a) l := by
      intro l
      induction l with
      | nil => rfl
      | cons op l ih => rw [calls, calls, ih]
    exact this ops
  have e2 : ∀ s, answers (G.session n sd ops s) = outcome ((newRoot sd >>= fun m => runP (fun path op => G.exec n (some (m.getD 0)) path op) blank ops) s) := by
    intro s
    refine (answers_map (newRoot sd) (fun m => G.run n m blank ops) s).trans (outcome_congr (fun a => ?_) s)
    rw [MapCode.run_eq]
    rfl
  rw [e1, e1, e2]
  exact h1

end

/-! ### Sets -/

section
variable {K : Type}

structure SetMirrors (G : SetCode K) (I : SetImpl K) : Prop where
  has : ∀ n h key s, Go.run (G.Has n (some h) key) s = Go.run (hasX I.cfg h (n + 300) key) s
  add : ∀ n h key s, Tidy s → Go.run (G.Add n (some h) key) s = Go.run (upsertL I.cfg h (n + 300) key (I.addI key) (newKv I.cfg key ()) ()) s
  slot : ∀ key, (I.addI key).newSlot = newKv I.cfg key () >>= fun p => pure (p, ())
  neat : ∀ key, InsNeat (I.addI key)
  del : ∀ n h key path s, Tidy s → Go.run (G.Del n (some h) key path) s = Go.run (deleteX I.cfg h (n + 300) I.delSkip key path) s
  all : ∀ n h f, G.All n (some h) (allCbS f) [] = I.All n (some h) (fun log k => (log ++ [k], f log k)) []
  mono : I.Mono
  blind : I.Blind

def lateExecS (I : SetImpl K) (h n : Nat) : SOp K → M K Unit (SOut K)
  | .add k => upsertT I.cfg h n k (I.addI k) (newKv I.cfg k ()) () >>= fun _ => pure .unit
  | op => I.exec n (some h) op

theorem lateExecS_same {I : SetImpl K} {G : SetCode K} (hG : SetMirrors G I) (h k n : Nat) (φ : Ren) (op : SOp K) :
    Same h k φ EqR (I.exec n (some h) op) (lateExecS I k n op) := by
  have h1 := SetImpl.exec_same hG.blind n op (h := h) (k := k) (φ := φ)
  cases op with
  | add key =>
    refine Same.of_root fun hr => ?_
    refine Same.bind (RA := EqR) ?_ fun φ' l a b e => Same.pure rfl
    exact Same.upsertT I.cfg hr n key () () (hG.blind h k key) (hG.slot key)
  | _ => exact h1

theorem execS_between {I : SetImpl K} {G : SetCode K} (hG : SetMirrors G I) (h n : Nat) (path : List PathLink) (op : SOp K) (s : St K Unit)
    (hp : path.length = 12) (hs : Tidy s) : Between (G.exec n (some h) path op) (fun n => lateExecS I h n op) n s := by
  cases op with
  | has key =>
    refine Between.plain (x' := hasX I.cfg h (n + 300) key >>= fun b => pure (.bool b)) hp hs
      (Neat.bind (Neat.bind (Reads.lookupX I.cfg h (n + 300) key).neat fun _ => Neat.pure _) fun _ => Neat.pure _) ?_
      (Ext.bind (Ext.bind (lookup_lo I.cfg h n key) fun _ => Ext.refl _) fun _ => Ext.refl _)
      (Ext.bind (Ext.bind (lookupX_lookup I.cfg h (n + 300) key) fun _ => Ext.refl _) fun _ => Ext.refl _)
    show Go.run (G.Has n (some h) key >>= fun b => pure (SOut.bool b, path)) s = _
    rw [run_bind, hG.has n h key s, bind_assoc_M, run_bind]
    rfl
  | add key =>
    refine Between.plain (x' := upsertL I.cfg h (n + 300) key (I.addI key) (newKv I.cfg key ()) () >>= fun _ => pure .unit) hp hs
      (Neat.bind (upsertL_neat I.cfg h _ key (hG.neat key) () ()) fun _ => Neat.pure _) ?_
      (Ext.bind (upsertT_lo I.cfg h n key (hG.mono key) _ _) fun _ => Ext.refl _) (Ext.bind (upsertT_hi I.cfg h (n + 300) key (hG.mono key) _ _) fun _ => Ext.refl _)
    show Go.run (G.Add n (some h) key >>= fun _ => pure (SOut.unit, path)) s = _
    rw [run_bind, hG.add n h key s hs, bind_assoc_M, run_bind]
    rfl
  | del key => exact Between.del I.cfg h I.delSkip key hp hs (hG.del n h key path s hs) SOut.unit
  | len =>
    refine Between.plain (x' := I.exec n (some h) .len) hp hs (Neat.bind (len_reads h).neat fun _ => Neat.pure _) ?_ (Ext.refl _) (Ext.refl _)
    show Go.run (MapImpl.Len (some h) >>= fun l => pure (SOut.num l, path)) s = Go.run ((MapImpl.Len (some h) >>= fun l => pure (SOut.num l)) >>= fun o => pure (o, path)) s
    rw [bind_assoc_M]
    rfl
  | dep =>
    refine Between.plain (x' := I.exec n (some h) .dep) hp hs (Neat.bind (dep_reads h).neat fun _ => Neat.pure _) ?_ (Ext.refl _) (Ext.refl _)
    show Go.run (MapImpl.Dep (some h) >>= fun l => pure (SOut.rat l, path)) s = Go.run ((MapImpl.Dep (some h) >>= fun l => pure (SOut.rat l)) >>= fun o => pure (o, path)) s
    rw [bind_assoc_M]
    rfl
  | all f =>
    refine Between.plain (x' := I.exec n (some h) (.all f)) hp hs ?_ ?_ (Ext.refl _) (SetImpl.exec_ext hG.mono (by omega) _ _)
    · refine Neat.bind (Neat.bind (Neat.pure h) fun _ => Neat.bind (scan_neat (fun u x => ?_) _ _ _) fun _ => Neat.pure _) fun _ => Neat.pure _
      exact Neat.bind (Reads.readKey _ _).neat fun k => Neat.pure _
    · show Go.run (G.All n (some h) (allCbS f) [] >>= fun l => pure (SOut.log l, path)) s =
        Go.run ((I.All n (some h) (fun log k => (log ++ [k], f log k)) [] >>= fun l => pure (SOut.log l)) >>= fun o => pure (o, path)) s
      rw [hG.all, bind_assoc_M]
      rfl

theorem SetCode.run_eq (G : SetCode K) (n : Nat) (m : Handle) (ops : List (SOp K)) : ∀ path, G.run n m path ops = runP (fun path op => G.exec n m path op) path ops := by
  induction ops with
  | nil => intro path; rfl
  | cons op ops ih =>
    intro path
    rw [SetCode.run, runP]
    congr 1
    funext r
    rw [ih]

/-- The translated set, between the model with one bound and the model with a larger one. -/
theorem SetMirrors.session {I : SetImpl K} {G : SetCode K} (hG : SetMirrors G I) (n : Nat) (sd : Seed) (ops : List (SOp K)) {s : St K Unit} (hs : Tidy s) (s₀ : St K Unit) :
    (answers (I.session n sd ops s₀) = .error .diverge ∨ answers (G.session n sd ops s) = answers (I.session n sd ops s₀)) ∧
      (answers (G.session n sd ops s) = .error .diverge ∨ answers (I.session (n + 301) sd ops s₀) = answers (G.session n sd ops s)) := by
  have h1 := sandwich (n := n) (fun h path op s hp hs => execS_between hG h n path op s hp hs) (fun h k n φ op => lateExecS_same hG h k n φ op) sd ops hs s₀
  have e1 : ∀ n s, answers (I.session n sd ops s) = outcome ((newRoot sd >>= fun m => calls (fun _ => I.exec n (some (m.getD 0))) m ops) s) := by
    intro n s
    refine (answers_map (newRoot sd) (fun m => I.run n m ops) s).trans (outcome_congr (fun a => ?_) s)
    rw [SetImpl.run_eq]
    have : ∀ l : List (SOp K), calls (fun m op => I.exec n m op) (some a) l = calls (fun _ => I.exec n (some a)) (some a) l := by
      intro l
      induction l with
      | nil => rfl
      | cons op l ih => rw [calls, calls, ih]
    exact this ops
  have e2 : ∀ s, answers (G.session n sd ops s) = outcome ((newRoot sd >>= fun m => runP (fun path op => G.exec n (some (m.getD 0)) path op) blank ops) s) := by
    intro s
    refine (answers_map (newRoot sd) (fun m => G.run n m blank ops) s).trans (outcome_congr (fun a => ?_) s)
    rw [SetCode.run_eq]
    rfl
  rw [e1, e1, e2]
  exact h1

end

end Amt.Go
