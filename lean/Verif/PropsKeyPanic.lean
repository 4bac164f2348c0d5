/-
C72: a panic in a method of a key.
-/
import Verif.KeyPanic
import Verif.Bugs
namespace Spec

/-- The calls of a history that are kept, by a list of answers: those that have one. -/
def answered {α β : Type} : List α → List (Option β) → List α
  | a :: as, some _ :: os => a :: answered as os
  | _ :: as, none :: os => answered as os
  | _, _ => []

end Spec

namespace Amt
open Spec
open P
open Go (Reads)

/-! ### Stored keys have been hashed -/

section Pres
variable {K V α β : Type}

/-- Every key in a cell is good, and the seed of the root `h` is `sd`. -/
structure Hashed (good : K → Prop) (h : Nat) (sd : Seed) (s : St K V) : Prop where
  cells : ∀ a k v, s.mem a = some (.kv (some k) v) → good k
  seed : (s.roots h).seed = sd

variable (good : K → Prop) (h : Nat) (sd : Seed)

/-- `x` keeps that. -/
def Keeps (x : M K V α) : Prop := ∀ s a t, Hashed good h sd s → x s = .ok (a, t) → Hashed good h sd t

variable {good h sd}

theorem Keeps.reads {x : M K V α} (hx : Reads x) : Keeps good h sd x := fun s a t hs e => by
  obtain rfl := hx s a t e
  exact hs

theorem Keeps.bind {x : M K V α} {f : α → M K V β} (hx : Keeps good h sd x) (hf : ∀ a, Keeps good h sd (f a)) :
    Keeps good h sd (x >>= f) := by
  intro s a t hs e
  rw [M.bind_run] at e
  cases e' : x s with
  | error e'' => rw [e'] at e; cases e
  | ok r =>
    obtain ⟨b, s'⟩ := r
    rw [e'] at e
    exact hf b s' a t (hx s b s' hs e') e

theorem Keeps.pure (a : α) : Keeps good h sd (Pure.pure a : M K V α) := Keeps.reads (Reads.pure a)

theorem Keeps.fail (e : Fault) : Keeps good h sd (M.fail e : M K V α) := Keeps.reads (Reads.fail e)

theorem Keeps.ite {p : Prop} [Decidable p] {x y : M K V α} (hx : Keeps good h sd x) (hy : Keeps good h sd y) :
    Keeps good h sd (if p then x else y) := by
  split
  · exact hx
  · exact hy

theorem Keeps.store (r : Ref) (x : Link) : Keeps good h sd (store r x : M K V Unit) := by
  intro s a t hs e
  unfold Amt.store at e
  split at e
  · cases e
  · split at e
    · cases e
    · cases e
    · split at e
      · simp only [Except.ok.injEq, Prod.mk.injEq] at e
        obtain ⟨-, rfl⟩ := e
        refine ⟨fun b k v hb => ?_, hs.seed⟩
        dsimp only at hb
        split at hb
        · cases hb
        · exact hs.cells b k v hb
      · cases e

theorem Keeps.modLink (r : Ref) (f : Link → Link) : Keeps good h sd (modLink r f : M K V Unit) :=
  Keeps.bind (Keeps.reads (Reads.load r)) fun x => Keeps.store r (f x)

theorem Keeps.storeVal (p : Ptr) (v : V) : Keeps good h sd (storeVal p v : M K V Unit) := by
  intro s a t hs e
  unfold Amt.storeVal at e
  split at e
  · cases e
  · split at e
    · cases e
    · cases e
    · rename_i k v' hm
      simp only [Except.ok.injEq, Prod.mk.injEq] at e
      obtain ⟨-, rfl⟩ := e
      refine ⟨fun b k' v'' hb => ?_, hs.seed⟩
      dsimp only at hb
      split at hb
      · simp only [Option.some.injEq, Obj.kv.injEq] at hb
        obtain ⟨rfl, -⟩ := hb
        exact hs.cells _ _ _ hm
      · exact hs.cells _ _ _ hb

theorem Keeps.alloc {o : Obj K V} (ho : ∀ k v, o = .kv (some k) v → good k) : Keeps good h sd (alloc o : M K V Ptr) := by
  intro s a t hs e
  simp only [Amt.alloc, Except.ok.injEq, Prod.mk.injEq] at e
  obtain ⟨-, rfl⟩ := e
  refine ⟨fun b k v hb => ?_, hs.seed⟩
  dsimp only at hb
  split at hb
  · exact ho k v (Option.some.inj hb)
  · exact hs.cells _ _ _ hb

theorem Keeps.newLinkArray (n : Nat) : Keeps good h sd (newLinkArray n : M K V Ptr) := by
  unfold Amt.newLinkArray
  refine Keeps.ite ?_ (Keeps.ite ?_ (Keeps.ite ?_ ?_)) <;> exact Keeps.alloc (fun _ _ e => nomatch e)

theorem Keeps.modRoot (h' : Nat) {f : Meta → Meta} (hf : ∀ m, (f m).seed = m.seed) : Keeps good h sd (modRoot h' f : M K V Unit) := by
  intro s a t hs e
  simp only [Amt.modRoot, Except.ok.injEq, Prod.mk.injEq] at e
  obtain ⟨-, rfl⟩ := e
  refine ⟨hs.cells, ?_⟩
  dsimp only
  split
  · rename_i e'
    rw [hf]
    exact hs.seed
  · exact hs.seed

theorem Keeps.newKv (c : Cfg K) {key : K} (hk : good key) (v : V) : Keeps good h sd (newKv c key v : M K V Ptr) := by
  unfold Amt.newKv
  split
  · exact Keeps.alloc fun k v' e => by cases e; exact hk
  · exact Keeps.alloc fun k v' e => by cases e
  · exact Keeps.pure _

/-- The parts of an insertion keep it. -/
structure InsKeeps (good : K → Prop) (h : Nat) (sd : Seed) (ins : Ins K V β) : Prop where
  hit : ∀ p, Keeps good h sd (ins.hit p)
  split : Keeps good h sd ins.newSplit
  slot : Keeps good h sd ins.newSlot

/-- Go through a program; `t` deals with its special parts. -/
macro "keeps" "[" t:tacticSeq "]" : tactic => `(tactic| repeat' first
  | ($t)
  | exact Keeps.pure _
  | exact Keeps.fail _
  | exact Keeps.store _ _
  | exact Keeps.modLink _ _
  | exact Keeps.storeVal _ _
  | exact Keeps.newLinkArray _
  | exact Keeps.modRoot _ (fun _ => rfl)
  | exact Keeps.reads (Reads.load _)
  | exact Keeps.reads (Reads.loadKv _)
  | exact Keeps.reads (Reads.getRoot _)
  | exact Keeps.reads (Reads.readKey _ _)
  | exact Keeps.reads (Reads.itemRef _)
  | exact Keeps.reads (Reads.liftE _)
  | exact Keeps.reads (reads_search _ _ _ _ _)
  | apply Keeps.ite
  | (refine Keeps.bind ?_ fun _ => ?_))

theorem Keeps.shiftUp (arr : Ptr) (idx : Nat) : ∀ n, Keeps good h sd (shiftUp arr idx n : M K V Unit) := by
  intro n
  induction n with
  | zero => exact Keeps.pure _
  | succ n ih => rw [Amt.shiftUp]; keeps [exact ih]

theorem Keeps.copyUp (dst src : Ptr) (a b : Nat) : ∀ n i, Keeps good h sd (copyUp dst src a b n i : M K V Unit) := by
  intro n
  induction n with
  | zero => intro i; exact Keeps.pure _
  | succ n ih =>
    intro i
    rw [Amt.copyUp]
    refine Keeps.bind ?_ fun _ => Keeps.bind ?_ fun _ => ih _ <;> keeps [assumption]

variable (c : Cfg K)

theorem Keeps.insertSlot {ins : Ins K V β} (hi : InsKeeps good h sd ins) (h' : Nat) (key : K) (cur : Cur) :
    Keeps good h sd (insertSlot c h' key ins cur) := by
  unfold Amt.insertSlot
  keeps [first | exact hi.slot | exact Keeps.shiftUp _ _ _ | exact Keeps.copyUp _ _ _ _ _ _]

theorem Keeps.split {ins : Ins K V β} (hi : InsKeeps good h sd ins) (sd' : Seed) (h' : Nat) (key ckey : K) (cptr : Ptr) :
    ∀ n item d hd chd w cw, Keeps good h sd (split c sd' h' key ckey cptr ins n item d hd chd w cw) := by
  intro n
  induction n with
  | zero => intros; exact Keeps.fail _
  | succ n ih =>
    intro item d hd chd w cw
    rw [Amt.split]
    keeps [first | exact hi.split | exact ih _ _ _ _ _ _]

theorem Keeps.upsert {ins : Ins K V β} (hi : InsKeeps good h sd ins) (h' n : Nat) (key : K) :
    Keeps good h sd (upsert c h' n key ins) := by
  unfold Amt.upsert Amt.conflict
  keeps [first | exact hi.slot | exact hi.hit _ | exact Keeps.split c hi _ _ _ _ _ _ _ _ _ _ _ _ | exact Keeps.insertSlot c hi _ _ _]

theorem Keeps.pathAt (p : List (Nat × Option Ref)) (d : Nat) : Keeps good h sd (pathAt p d : M K V (Nat × Ref)) := by
  unfold Amt.pathAt
  split <;> keeps [assumption]

theorem Keeps.collapse (h' : Nat) : ∀ d p l n, Keeps good h sd (collapse h' d p l n : M K V Unit) := by
  intro d
  induction d with
  | zero => intros; exact Keeps.pure _
  | succ d ih =>
    intro p l n
    rw [Amt.collapse]
    keeps [first | exact Keeps.pathAt _ _ | exact ih _ _ _]

theorem Keeps.shiftBack (d : Nat) (l : Ref) (i n : Nat) : Keeps good h sd (shiftBack d l i n : M K V Unit) := by
  unfold Amt.shiftBack
  keeps [exact Keeps.copyUp _ _ _ _ _ _]

theorem Keeps.unlink (h' : Nat) : ∀ d p l i n, Keeps good h sd (unlink h' d p l i n : M K V Unit) := by
  intro d
  induction d with
  | zero =>
    intro p l i n
    rw [Amt.unlink]
    exact Keeps.bind (Keeps.shiftBack _ _ _ _) fun _ => Keeps.collapse _ _ _ _ _
  | succ d ih =>
    intro p l i n
    rw [Amt.unlink]
    keeps [first | exact Keeps.pathAt _ _ | exact ih _ _ _ _ | exact Keeps.shiftBack _ _ _ _ | exact Keeps.collapse _ _ _ _ _]

theorem Keeps.delete (h' n : Nat) (skip : Bool → Bool) (key : K) : Keeps good h sd (delete c h' n skip key : M K V Unit) := by
  unfold Amt.delete Amt.remove
  keeps [exact Keeps.unlink _ _ _ _ _ _]

theorem Keeps.lookup (h' n : Nat) (key : K) : Keeps good h sd (lookup c h' n key : M K V (Option Ptr)) := by
  unfold Amt.lookup
  keeps [assumption]

theorem Keeps.scan {U : Type} {visit : U → Link → M K V (U × Bool)} (hv : ∀ u x, Keeps good h sd (visit u x)) :
    ∀ n u l, Keeps good h sd (scan visit n u l) := by
  intro n
  induction n with
  | zero => intros; exact Keeps.fail _
  | succ n ih =>
    intro u l
    rw [Amt.scan]
    refine Keeps.bind (Keeps.reads (Reads.load _)) fun lk => ?_
    generalize popcount lk.pmap = m
    generalize (0 : Nat) = i
    generalize lk.pmap = pm
    induction m generalizing i pm u with
    | zero => exact Keeps.pure _
    | succ m ih' =>
      rw [Amt.scanItems]
      keeps [first | exact hv _ _ | exact ih _ _ | exact ih' _ _ _]

theorem Keeps.deref (m : Handle) : Keeps good h sd (deref m : M K V Nat) := by
  unfold Amt.deref
  split <;> keeps [assumption]

end Pres

/-! ### C72 -/

section Map
variable {K V : Type} [Inhabited V]

/-- What C72 needs to know about a map: keys are kept in cells, and a digest of a key that has not panicked at the start of a
call (a good key) does not panic later. -/
structure MapCalm (I : MapImpl K V) (R : Panics K) (sd : Seed) (good : K → Prop) : Prop where
  boxed : I.cfg.store = .boxed
  start : ∀ k, R.start sd k = false → good k
  calm : ∀ k, good k → ∀ d, R.rehash sd k d = false
  set : ∀ k v h, good k → InsKeeps good h sd (I.setI k v)
  mod : ∀ k f h, good k → InsKeeps good h sd (I.modI k f)

variable {I : MapImpl K V} {R : Panics K} {sd : Seed} {good : K → Prop}

theorem readKey_good {c : Cfg K} (hb : c.store = .boxed) {h : Nat} {s : St K V} (hs : Hashed good h sd s) {x : Link} {k : K}
    (e : readKey c x s = .ok (k, s)) : good k := by
  unfold readKey at e
  rw [hb] at e
  dsimp only at e
  rw [M.bind_run] at e
  cases e' : loadKv x.ptr s with
  | error _ => rw [e'] at e; cases e
  | ok r =>
    obtain ⟨⟨k', v⟩, t⟩ := r
    rw [e'] at e
    unfold loadKv at e'
    split at e'
    · cases e'
    · split at e'
      · cases e'
      · cases e'
      · rename_i hm
        simp only [Except.ok.injEq, Prod.mk.injEq] at e'
        obtain ⟨⟨rfl, -⟩, rfl⟩ := e'
        dsimp only at e
        split at e
        · cases e
        · rename_i k'' _
          simp only [Pure.pure, M.pure, Except.ok.injEq, Prod.mk.injEq, and_true] at e
          subst e
          exact hs.cells _ _ _ hm

theorem EitherAt.deref {α : Type} {s : St K V} {m : Handle} {f : Nat → P K V α} {g : Nat → M K V α} (hf : ∀ h, m = some h → EitherAt s (f h) (g h)) :
    EitherAt s (P.lift (Amt.deref m) >>= f) (Amt.deref m >>= g) := by
  cases m with
  | none => exact Or.inr rfl
  | some h => exact hf h rfl

/-- C72, one call: a call in which a method of a key panics leaves the memory as it was; any other call is a call of the
model. -/
theorem MapCalm.exec_either (hm : MapCalm I R sd good) {fuel h : Nat} {s : St K V} (hs : Hashed good h sd s) (op : MOp K V) :
    EitherAt s (I.execP R fuel (some h) op) (I.exec fuel (some h) op) := by
  have hups : ∀ {β : Type} chp k (ins : Ins K V β), EitherAt s (upsertP I.cfg R chp h fuel k ins) (upsert I.cfg h fuel k ins) := by
    intro β chp k ins
    refine upsertP_either I.cfg R chp h fuel k ins s ?_ ?_
    · rw [hs.seed]
      exact fun e => hm.calm k (hm.start k e)
    · intro x k' d e _
      rw [hs.seed]
      exact hm.calm k' (readKey_good hm.boxed hs e)
  have hder : ∀ {β : Type} (f : Nat → P K V β), (P.lift (Amt.deref (some h)) >>= f) = f h := fun f => rfl
  have hder' : ∀ {β : Type} (f : Nat → M K V β), (Amt.deref (some h) >>= f) = f h := fun f => rfl
  have hlook : ∀ (k : K) {β γ : Type} (f : Option Amt.Ptr → M K V β) (g : Option Amt.Ptr → M K V γ) (f' : γ → M K V β),
      (∀ p, f p = (g p >>= f')) → EitherAt s (lookupP I.cfg R h fuel k >>= fun p => P.lift (f p)) ((lookup I.cfg h fuel k >>= g) >>= f') := by
    intro k β γ f g f' e
    have := EitherAt.then (lookupP_either I.cfg R h fuel k s) f
    rw [show f = fun p => g p >>= f' from funext e] at this ⊢
    rwa [show ((lookup I.cfg h fuel k >>= g) >>= f') = (lookup I.cfg h fuel k >>= fun p => g p >>= f') from by
      funext t
      simp only [M.bind_run]
      cases lookup I.cfg h fuel k t <;> rfl]
  cases op with
  | get k =>
    simp only [MapImpl.execP, MapImpl.exec, MapImpl.PtrP, MapImpl.Get, MapImpl.Ptr, hder, hder']
    refine hlook k _ _ _ fun p => ?_
    cases p with
    | none => rfl
    | some p =>
      funext t
      simp only [M.bind_run]
      cases loadKv p t <;> rfl
  | val k =>
    simp only [MapImpl.execP, MapImpl.exec, MapImpl.PtrP, MapImpl.Val, MapImpl.Ptr, hder, hder']
    refine hlook k _ _ _ fun p => ?_
    cases p with
    | none => rfl
    | some p =>
      funext t
      simp only [M.bind_run]
      cases loadKv p t <;> rfl
  | ptr k =>
    simp only [MapImpl.execP, MapImpl.exec, MapImpl.PtrP, MapImpl.Ptr, hder, hder']
    exact EitherAt.then (lookupP_either I.cfg R h fuel k s) _
  | write k v =>
    simp only [MapImpl.execP, MapImpl.exec, MapImpl.PtrP, MapImpl.Ptr, hder, hder']
    exact EitherAt.then (lookupP_either I.cfg R h fuel k s) _
  | set k v =>
    simp only [MapImpl.execP, MapImpl.exec, MapImpl.Set, hder, hder']
    exact EitherAt.map (hups _ _ _) _
  | mod k f =>
    simp only [MapImpl.execP, MapImpl.exec, MapImpl.Mod, hder, hder']
    exact EitherAt.map (hups _ _ _) _
  | del k =>
    simp only [MapImpl.execP, MapImpl.exec, MapImpl.Del, hder, hder']
    exact EitherAt.map (deleteP_either I.cfg R h fuel I.delSkip k s) _
  | len => exact Or.inr (by rw [MapImpl.execP])
  | dep => exact Or.inr (by rw [MapImpl.execP])
  | all f => exact Or.inr (by rw [MapImpl.execP])

/-- A call that does not panic keeps that all stored keys have been hashed. -/
theorem MapCalm.exec_hashed (hm : MapCalm I R sd good) {fuel h : Nat} {s t : St K V} (hs : Hashed good h sd s) (op : MOp K V)
    {o : MOut K V} (e : I.exec fuel (some h) op s = .ok (o, t)) (he : I.execP R fuel (some h) op s = .ret o t) :
    Hashed good h sd t := by
  have hd : ∀ {β : Type} (f : Nat → M K V β), (Amt.deref (some h) >>= f) = f h := fun f => rfl
  have hst : ∀ {β : Type} chp k (ins : Ins K V β) {γ : Type} (f : β → P K V γ) (r : γ), (upsertP I.cfg R chp h fuel k ins >>= f) s = .ret r t →
      R.start sd k = false := by
    intro β chp k ins γ f r e'
    cases hk : R.start sd k with
    | false => rfl
    | true =>
      rw [P.bind_run, upsertP_start I.cfg R chp h fuel k ins s (by rw [hs.seed]; exact hk)] at e'
      cases e'
  cases op with
  | get k =>
    refine Keeps.bind (Keeps.bind (Keeps.bind (Keeps.deref _) fun _ => Keeps.lookup _ _ _ _) fun p => ?_) (fun _ => Keeps.pure _) s _ _ hs e
    cases p <;> keeps [assumption]
  | val k =>
    refine Keeps.bind (Keeps.bind (Keeps.bind (Keeps.deref _) fun _ => Keeps.lookup _ _ _ _) fun p => ?_) (fun _ => Keeps.pure _) s _ _ hs e
    cases p <;> keeps [assumption]
  | ptr k =>
    refine Keeps.bind (Keeps.bind (Keeps.deref _) fun _ => Keeps.lookup _ _ _ _) (fun p => ?_) s _ _ hs e
    cases p <;> keeps [assumption]
  | write k v =>
    refine Keeps.bind (Keeps.bind (Keeps.deref _) fun _ => Keeps.lookup _ _ _ _) (fun p => ?_) s _ _ hs e
    cases p <;> keeps [assumption]
  | set k v =>
    have hk := hst _ _ _ _ _ he
    exact Keeps.bind (Keeps.bind (Keeps.deref _) fun _ => Keeps.upsert _ (hm.set k v h (hm.start k hk)) _ _ _) (fun _ => Keeps.pure _) s _ _ hs e
  | mod k f =>
    have hk := hst _ _ _ _ _ he
    exact Keeps.bind (Keeps.bind (Keeps.deref _) fun _ => Keeps.upsert _ (hm.mod k f h (hm.start k hk)) _ _ _) (fun _ => Keeps.pure _) s _ _ hs e
  | del k =>
    exact Keeps.bind (Keeps.bind (Keeps.deref _) fun _ => Keeps.delete _ _ _ _ _) (fun _ => Keeps.pure _) s _ _ hs e
  | len => exact Keeps.bind (Keeps.bind (Keeps.reads (Reads.getRoot _)) fun _ => Keeps.pure _) (fun _ => Keeps.pure _) s _ _ hs e
  | dep =>
    refine Keeps.bind (Keeps.bind (Keeps.reads (Reads.getRoot _)) fun r => ?_) (fun _ => Keeps.pure _) s _ _ hs e
    exact Keeps.ite (Keeps.pure _) (Keeps.pure _)
  | all f =>
    refine Keeps.bind (Keeps.bind (Keeps.deref _) fun _ => Keeps.bind (Keeps.scan (fun u x => ?_) _ _ _) fun _ => Keeps.pure _) (fun _ => Keeps.pure _)
      s _ _ hs e
    unfold visitMap
    keeps [assumption]

/-- Histories: the calls in which a method of a key panics might as well not have been made. -/
theorem MapCalm.runP_eq (hm : MapCalm I R sd good) {fuel h : Nat} : ∀ (ops : List (MOp K V)) {s : St K V}, Hashed good h sd s →
    (∀ os t, I.runP R fuel (some h) ops s = .ok (os, t) →
      os.length = ops.length ∧ I.run fuel (some h) (answered ops os) s = .ok (os.filterMap id, t)) ∧
    ∀ e, I.runP R fuel (some h) ops s = .error e → ∃ ops', ops'.Sublist ops ∧ I.run fuel (some h) ops' s = .error e := by
  intro ops
  induction ops with
  | nil =>
    intro s hs
    refine ⟨fun os t e => ?_, fun e h => nomatch h⟩
    simp only [MapImpl.runP, Pure.pure, M.pure, Except.ok.injEq, Prod.mk.injEq] at e
    obtain ⟨rfl, rfl⟩ := e
    exact ⟨rfl, rfl⟩
  | cons op ops ih =>
    intro s hs
    have key := hm.exec_either (fuel := fuel) hs op
    rcases key with hp | hp
    · have hr : I.runP R fuel (some h) (op :: ops) s = (do let os ← I.runP R fuel (some h) ops; pure (none :: os) : M K V _) s := by
        rw [MapImpl.runP, M.bind_run]
        simp only [attempt, hp]
      obtain ⟨h1, h2⟩ := ih hs
      rw [hr, M.bind_run]
      cases e : I.runP R fuel (some h) ops s with
      | error e' =>
        refine ⟨fun _ _ h => (nomatch h), fun e'' he => ?_⟩
        cases he
        obtain ⟨ops', hl, hr'⟩ := h2 _ e
        exact ⟨ops', hl.cons _, hr'⟩
      | ok r =>
        obtain ⟨os, t⟩ := r
        obtain ⟨h3, h4⟩ := h1 os t e
        refine ⟨fun os' t' he => ?_, fun e'' he => nomatch he⟩
        simp only [Pure.pure, M.pure, Except.ok.injEq, Prod.mk.injEq] at he
        obtain ⟨rfl, rfl⟩ := he
        exact ⟨by simp [h3], h4⟩
    · cases hx : I.exec fuel (some h) op s with
      | error e' =>
        have hr : I.runP R fuel (some h) (op :: ops) s = .error e' := by
          rw [MapImpl.runP, M.bind_run]
          simp only [attempt, hp, P.lift, hx]
        rw [hr]
        refine ⟨fun _ _ h => (nomatch h), fun e'' he => ?_⟩
        cases he
        refine ⟨[op], (List.nil_sublist _).cons_cons _, ?_⟩
        rw [MapImpl.run, M.bind_run, hx]
      | ok r =>
        obtain ⟨o, s'⟩ := r
        have hp' : I.execP R fuel (some h) op s = .ret o s' := by rw [hp]; simp only [P.lift, hx]
        have hr : I.runP R fuel (some h) (op :: ops) s = (do let os ← I.runP R fuel (some h) ops; pure (some o :: os) : M K V _) s' := by
          rw [MapImpl.runP, M.bind_run]
          simp only [attempt, hp']
        obtain ⟨h1, h2⟩ := ih (hm.exec_hashed hs op hx hp')
        have hrun : ∀ ops', I.run fuel (some h) (op :: ops') s = (do let os ← I.run fuel (some h) ops'; pure (o :: os) : M K V _) s' := by
          intro ops'
          rw [MapImpl.run, M.bind_run, hx]
        rw [hr, M.bind_run]
        cases e : I.runP R fuel (some h) ops s' with
        | error e' =>
          refine ⟨fun _ _ h => (nomatch h), fun e'' he => ?_⟩
          cases he
          obtain ⟨ops', hl, hr'⟩ := h2 _ e
          refine ⟨op :: ops', hl.cons_cons _, ?_⟩
          rw [hrun, M.bind_run, hr']
        | ok r =>
          obtain ⟨os, t⟩ := r
          obtain ⟨h3, h4⟩ := h1 os t e
          refine ⟨fun os' t' he => ?_, fun e'' he => nomatch he⟩
          simp only [Pure.pure, M.pure, Except.ok.injEq, Prod.mk.injEq] at he
          obtain ⟨rfl, rfl⟩ := he
          refine ⟨by simp [h3], ?_⟩
          rw [answered, hrun, M.bind_run, h4]
          rfl

/-- C72 for a history of calls of a new map, each of them with `recover`. -/
theorem MapCalm.sessionP_eq (hm : MapCalm I R sd good) {fuel : Nat} (ops : List (MOp K V)) {s : St K V}
    (hs : ∀ a k v, s.mem a = some (.kv (some k) v) → good k) :
    (∀ m os t, I.sessionP R fuel sd ops s = .ok ((m, os), t) →
      os.length = ops.length ∧ I.session fuel sd (answered ops os) s = .ok ((m, os.filterMap id), t)) ∧
    ∀ e, I.sessionP R fuel sd ops s = .error e → ∃ ops', ops'.Sublist ops ∧ I.session fuel sd ops' s = .error e := by
  have hn : ∃ s', (MapImpl.New sd : M K V Handle) s = .ok (some s.next, s') ∧ Hashed good s.next sd s' := by
    refine ⟨_, rfl, fun a k v h => ?_, by simp⟩
    dsimp only at h
    split at h
    · cases h
    · split at h
      · cases h
      · exact hs a k v h
  obtain ⟨s', hn, hh⟩ := hn
  have hS : ∀ ops', I.session fuel sd ops' s = (do let os ← I.run fuel (some s.next) ops'; pure (some s.next, os) : M K V _) s' := by
    intro ops'
    rw [MapImpl.session, M.bind_run, hn]
  have hP : I.sessionP R fuel sd ops s = (do let os ← I.runP R fuel (some s.next) ops; pure (some s.next, os) : M K V _) s' := by
    rw [MapImpl.sessionP, M.bind_run, hn]
  obtain ⟨h1, h2⟩ := hm.runP_eq (fuel := fuel) ops hh
  rw [hP, M.bind_run]
  cases e : I.runP R fuel (some s.next) ops s' with
  | error e' =>
    refine ⟨fun _ _ _ h => (nomatch h), fun e'' he => ?_⟩
    cases he
    obtain ⟨ops', hl, hr⟩ := h2 _ e
    refine ⟨ops', hl, ?_⟩
    rw [hS, M.bind_run, hr]
  | ok r =>
    obtain ⟨os, t⟩ := r
    obtain ⟨h3, h4⟩ := h1 _ _ e
    refine ⟨fun m os' t' he => ?_, fun e'' he => nomatch he⟩
    simp only [Pure.pure, M.pure, Except.ok.injEq, Prod.mk.injEq] at he
    obtain ⟨⟨rfl, rfl⟩, rfl⟩ := he
    refine ⟨h3, ?_⟩
    rw [hS, M.bind_run, h4]
    rfl

end Map

section Set
variable {K : Type}

/-- What C72 needs to know about a set; see `MapCalm`. -/
structure SetCalm (I : SetImpl K) (R : Panics K) (sd : Seed) (good : K → Prop) : Prop where
  boxed : I.cfg.store = .boxed
  start : ∀ k, R.start sd k = false → good k
  calm : ∀ k, good k → ∀ d, R.rehash sd k d = false
  add : ∀ k h, good k → InsKeeps good h sd (I.addI k)

variable {I : SetImpl K} {R : Panics K} {sd : Seed} {good : K → Prop}

theorem SetCalm.exec_either (hm : SetCalm I R sd good) {fuel h : Nat} {s : St K Unit} (hs : Hashed good h sd s) (op : SOp K) :
    EitherAt s (I.execP R fuel (some h) op) (I.exec fuel (some h) op) := by
  have hder : ∀ {β : Type} (f : Nat → P K Unit β), (P.lift (Amt.deref (some h)) >>= f) = f h := fun f => rfl
  have hder' : ∀ {β : Type} (f : Nat → M K Unit β), (Amt.deref (some h) >>= f) = f h := fun f => rfl
  cases op with
  | has k =>
    simp only [SetImpl.execP, SetImpl.exec, SetImpl.Has, hder, hder']
    refine Or.imp id (fun e => ?_) (EitherAt.map (lookupP_either I.cfg R h fuel k s) fun p => SOut.bool p.isSome)
    rw [e]
    refine congrFun (congrArg P.lift ?_) s
    funext t
    simp only [M.bind_run]
    cases lookup I.cfg h fuel k t <;> rfl
  | add k =>
    simp only [SetImpl.execP, SetImpl.exec, SetImpl.Add, hder, hder']
    refine EitherAt.map (upsertP_either I.cfg R _ h fuel k _ s ?_ ?_) _
    · rw [hs.seed]
      exact fun e => hm.calm k (hm.start k e)
    · intro x k' d e _
      rw [hs.seed]
      exact hm.calm k' (readKey_good hm.boxed hs e)
  | del k =>
    simp only [SetImpl.execP, SetImpl.exec, SetImpl.Del, hder, hder']
    exact EitherAt.map (deleteP_either I.cfg R h fuel I.delSkip k s) _
  | len => exact Or.inr (by rw [SetImpl.execP])
  | dep => exact Or.inr (by rw [SetImpl.execP])
  | all f => exact Or.inr (by rw [SetImpl.execP])

theorem SetCalm.exec_hashed (hm : SetCalm I R sd good) {fuel h : Nat} {s t : St K Unit} (hs : Hashed good h sd s) (op : SOp K)
    {o : SOut K} (e : I.exec fuel (some h) op s = .ok (o, t)) (he : I.execP R fuel (some h) op s = .ret o t) : Hashed good h sd t := by
  cases op with
  | has k =>
    exact Keeps.bind (Keeps.bind (Keeps.deref _) fun _ => Keeps.bind (Keeps.lookup _ _ _ _) fun p => Keeps.pure _) (fun p => Keeps.pure _) s _ _ hs e
  | add k =>
    have hk : R.start sd k = false := by
      cases hk : R.start sd k with
      | false => rfl
      | true =>
        have he : (upsertP I.cfg R R.chashSet h fuel k (I.addI k) >>= fun _ => Pure.pure SOut.unit) s = .ret o t := he
        rw [P.bind_run, upsertP_start I.cfg R _ h fuel k _ s (by rw [hs.seed]; exact hk)] at he
        cases he
    exact Keeps.bind (Keeps.bind (Keeps.deref _) fun _ => Keeps.upsert _ (hm.add k h (hm.start k hk)) _ _ _) (fun _ => Keeps.pure _) s _ _ hs e
  | del k =>
    exact Keeps.bind (Keeps.bind (Keeps.deref _) fun _ => Keeps.delete _ _ _ _ _) (fun _ => Keeps.pure _) s _ _ hs e
  | len => exact Keeps.bind (Keeps.bind (Keeps.reads (Reads.getRoot _)) fun _ => Keeps.pure _) (fun _ => Keeps.pure _) s _ _ hs e
  | dep =>
    refine Keeps.bind (Keeps.bind (Keeps.reads (Reads.getRoot _)) fun r => ?_) (fun _ => Keeps.pure _) s _ _ hs e
    exact Keeps.ite (Keeps.pure _) (Keeps.pure _)
  | all f =>
    refine Keeps.bind (Keeps.bind (Keeps.deref _) fun _ => Keeps.bind (Keeps.scan (fun u x => ?_) _ _ _) fun _ => Keeps.pure _) (fun _ => Keeps.pure _)
      s _ _ hs e
    unfold visitSet
    keeps [assumption]

/-- The same for sets. -/
theorem SetCalm.runP_eq (hm : SetCalm I R sd good) {fuel h : Nat} : ∀ (ops : List (SOp K)) {s : St K Unit}, Hashed good h sd s →
    (∀ os t, I.runP R fuel (some h) ops s = .ok (os, t) →
      os.length = ops.length ∧ I.run fuel (some h) (answered ops os) s = .ok (os.filterMap id, t)) ∧
    ∀ e, I.runP R fuel (some h) ops s = .error e → ∃ ops', ops'.Sublist ops ∧ I.run fuel (some h) ops' s = .error e := by
  intro ops
  induction ops with
  | nil =>
    intro s hs
    refine ⟨fun os t e => ?_, fun e h => nomatch h⟩
    simp only [SetImpl.runP, Pure.pure, M.pure, Except.ok.injEq, Prod.mk.injEq] at e
    obtain ⟨rfl, rfl⟩ := e
    exact ⟨rfl, rfl⟩
  | cons op ops ih =>
    intro s hs
    have key := hm.exec_either (fuel := fuel) hs op
    rcases key with hp | hp
    · have hr : I.runP R fuel (some h) (op :: ops) s = (do let os ← I.runP R fuel (some h) ops; pure (none :: os) : M K Unit _) s := by
        rw [SetImpl.runP, M.bind_run]
        simp only [attempt, hp]
      obtain ⟨h1, h2⟩ := ih hs
      rw [hr, M.bind_run]
      cases e : I.runP R fuel (some h) ops s with
      | error e' =>
        refine ⟨fun _ _ h => (nomatch h), fun e'' he => ?_⟩
        cases he
        obtain ⟨ops', hl, hr'⟩ := h2 _ e
        exact ⟨ops', hl.cons _, hr'⟩
      | ok r =>
        obtain ⟨os, t⟩ := r
        obtain ⟨h3, h4⟩ := h1 os t e
        refine ⟨fun os' t' he => ?_, fun e'' he => nomatch he⟩
        simp only [Pure.pure, M.pure, Except.ok.injEq, Prod.mk.injEq] at he
        obtain ⟨rfl, rfl⟩ := he
        exact ⟨by simp [h3], h4⟩
    · cases hx : I.exec fuel (some h) op s with
      | error e' =>
        have hr : I.runP R fuel (some h) (op :: ops) s = .error e' := by
          rw [SetImpl.runP, M.bind_run]
          simp only [attempt, hp, P.lift, hx]
        rw [hr]
        refine ⟨fun _ _ h => (nomatch h), fun e'' he => ?_⟩
        cases he
        refine ⟨[op], (List.nil_sublist _).cons_cons _, ?_⟩
        rw [SetImpl.run, M.bind_run, hx]
      | ok r =>
        obtain ⟨o, s'⟩ := r
        have hp' : I.execP R fuel (some h) op s = .ret o s' := by rw [hp]; simp only [P.lift, hx]
        have hr : I.runP R fuel (some h) (op :: ops) s = (do let os ← I.runP R fuel (some h) ops; pure (some o :: os) : M K Unit _) s' := by
          rw [SetImpl.runP, M.bind_run]
          simp only [attempt, hp']
        obtain ⟨h1, h2⟩ := ih (hm.exec_hashed hs op hx hp')
        have hrun : ∀ ops', I.run fuel (some h) (op :: ops') s = (do let os ← I.run fuel (some h) ops'; pure (o :: os) : M K Unit _) s' := by
          intro ops'
          rw [SetImpl.run, M.bind_run, hx]
        rw [hr, M.bind_run]
        cases e : I.runP R fuel (some h) ops s' with
        | error e' =>
          refine ⟨fun _ _ h => (nomatch h), fun e'' he => ?_⟩
          cases he
          obtain ⟨ops', hl, hr'⟩ := h2 _ e
          refine ⟨op :: ops', hl.cons_cons _, ?_⟩
          rw [hrun, M.bind_run, hr']
        | ok r =>
          obtain ⟨os, t⟩ := r
          obtain ⟨h3, h4⟩ := h1 os t e
          refine ⟨fun os' t' he => ?_, fun e'' he => nomatch he⟩
          simp only [Pure.pure, M.pure, Except.ok.injEq, Prod.mk.injEq] at he
          obtain ⟨rfl, rfl⟩ := he
          refine ⟨by simp [h3], ?_⟩
          rw [answered, hrun, M.bind_run, h4]
          rfl

/-- C72 for a history of calls of a new set, each of them with `recover`. -/
theorem SetCalm.sessionP_eq (hm : SetCalm I R sd good) {fuel : Nat} (ops : List (SOp K)) {s : St K Unit}
    (hs : ∀ a k v, s.mem a = some (.kv (some k) v) → good k) :
    (∀ m os t, I.sessionP R fuel sd ops s = .ok ((m, os), t) →
      os.length = ops.length ∧ I.session fuel sd (answered ops os) s = .ok ((m, os.filterMap id), t)) ∧
    ∀ e, I.sessionP R fuel sd ops s = .error e → ∃ ops', ops'.Sublist ops ∧ I.session fuel sd ops' s = .error e := by
  have hn : ∃ s', (SetImpl.New sd : M K Unit Handle) s = .ok (some s.next, s') ∧ Hashed good s.next sd s' := by
    refine ⟨_, rfl, fun a k v h => ?_, by simp⟩
    dsimp only at h
    split at h
    · cases h
    · split at h
      · cases h
      · exact hs a k v h
  obtain ⟨s', hn, hh⟩ := hn
  have hS : ∀ ops', I.session fuel sd ops' s = (do let os ← I.run fuel (some s.next) ops'; pure (some s.next, os) : M K Unit _) s' := by
    intro ops'
    rw [SetImpl.session, M.bind_run, hn]
  have hP : I.sessionP R fuel sd ops s = (do let os ← I.runP R fuel (some s.next) ops; pure (some s.next, os) : M K Unit _) s' := by
    rw [SetImpl.sessionP, M.bind_run, hn]
  obtain ⟨h1, h2⟩ := hm.runP_eq (fuel := fuel) ops hh
  rw [hP, M.bind_run]
  cases e : I.runP R fuel (some s.next) ops s' with
  | error e' =>
    refine ⟨fun _ _ _ h => (nomatch h), fun e'' he => ?_⟩
    cases he
    obtain ⟨ops', hl, hr⟩ := h2 _ e
    refine ⟨ops', hl, ?_⟩
    rw [hS, M.bind_run, hr]
  | ok r =>
    obtain ⟨os, t⟩ := r
    obtain ⟨h3, h4⟩ := h1 _ _ e
    refine ⟨fun m os' t' he => ?_, fun e'' he => nomatch he⟩
    simp only [Pure.pure, M.pure, Except.ok.injEq, Prod.mk.injEq] at he
    obtain ⟨⟨rfl, rfl⟩, rfl⟩ := he
    refine ⟨h3, ?_⟩
    rw [hS, M.bind_run, h4]
    rfl

end Set

/-! ### Instances -/

section Inst
variable {K V : Type} [Inhabited V]

theorem setIns_keeps {c : Cfg K} {chash : Chash K} {g : Bool} {good : K → Prop} {k : K} (hk : good k) (v : V) (h : Nat) (sd : Seed) :
    InsKeeps good h sd (setIns c chash g k v) where
  hit p := Keeps.storeVal p v
  split := Keeps.bind (Keeps.newKv c hk v) fun _ => Keeps.pure _
  slot := Keeps.bind (Keeps.newKv c hk v) fun _ => Keeps.pure _

theorem setInsArr_keeps {c : Cfg K} {chash : Chash K} {good : K → Prop} {k : K} (hk : good k) (v : V) (h : Nat) (sd : Seed) :
    InsKeeps good h sd (setInsArr c chash k v) where
  hit p := Keeps.storeVal p v
  split := Keeps.bind (Keeps.newKv c hk default) fun _ => Keeps.pure _
  slot := Keeps.bind (Keeps.newKv c hk v) fun _ => Keeps.pure _

theorem modIns_keeps {c : Cfg K} {chash : Chash K} {g : Bool} {good : K → Prop} {k : K} (hk : good k) (f : V → Bool → V) (h : Nat) (sd : Seed) :
    InsKeeps good h sd (modIns c chash g k f) where
  hit p := Keeps.bind (Keeps.reads (Reads.loadKv p)) fun kv => Keeps.bind (Keeps.storeVal p _) fun _ => Keeps.pure _
  split := Keeps.bind (Keeps.newKv c hk _) fun _ => Keeps.pure _
  slot := Keeps.bind (Keeps.newKv c hk _) fun _ => Keeps.pure _

theorem addIns_keeps {c : Cfg K} {chash : Chash K} {good : K → Prop} {k : K} (hk : good k) (h : Nat) (sd : Seed) :
    InsKeeps good h sd (addIns c chash k) where
  hit p := Keeps.pure _
  split := Keeps.bind (Keeps.newKv c hk ()) fun _ => Keeps.pure _
  slot := Keeps.bind (Keeps.newKv c hk ()) fun _ => Keeps.pure _

theorem arrMap_calm [DecidableEq K] (sum : Maphash) (kb : K → List UInt8) (bytes : K → Bool) (eq : K → K → Bool) (sd : Seed) :
    MapCalm (ArrMap sum kb : MapImpl K V) (arrPanics bytes eq) sd (fun _ => True) where
  boxed := rfl
  start _ _ := trivial
  calm _ _ _ := rfl
  set k v h hk := setInsArr_keeps hk v h sd
  mod k f h hk := modIns_keeps hk f h sd

theorem arrSet_calm [DecidableEq K] (sum : Maphash) (kb : K → List UInt8) (bytes : K → Bool) (eq : K → K → Bool) (sd : Seed) :
    SetCalm (ArrSet sum kb : SetImpl K) (arrPanics bytes eq) sd (fun _ => True) where
  boxed := rfl
  start _ _ := trivial
  calm _ _ _ := rfl
  add k h hk := addIns_keeps hk h sd

theorem map_calm (J : KeyImpl K) (p : KeyPanics K) (sd : Seed) (hp : ∀ k i, p.hash k sd i = p.hash k sd 0) :
    MapCalm (GenericMap J : MapImpl K V) (genericPanics p) sd (fun k => p.hash k sd 0 = false) where
  boxed := rfl
  start _ e := e
  calm k e d := (hp k (d / 16)).trans e
  set k v h hk := setIns_keeps (good := fun k => p.hash k sd 0 = false) hk v h sd
  mod k f h hk := modIns_keeps (good := fun k => p.hash k sd 0 = false) hk f h sd

theorem set_calm (J : KeyImpl K) (p : KeyPanics K) (sd : Seed) (hp : ∀ k i, p.hash k sd i = p.hash k sd 0) :
    SetCalm (GenericSet J : SetImpl K) (genericPanics p) sd (fun k => p.hash k sd 0 = false) where
  boxed := rfl
  start _ e := e
  calm k e d := (hp k (d / 16)).trans e
  add k h hk := addIns_keeps (good := fun k => p.hash k sd 0 = false) hk h sd

/-- C72 for `ArrMap`, whatever keys `KeyBytes` and `==` panic for: if a history of calls, each with `recover`, runs to its
end, the answers of the calls that did not panic, and the memory at the end, are those of the history without the others.
And it ends in a fault only if some history of fewer calls does. -/
theorem C72_ArrMap [DecidableEq K] (sum : Maphash) (kb : K → List UInt8) (bytes : K → Bool) (eq : K → K → Bool) (fuel : Nat) (sd : Seed)
    (ops : List (MOp K V)) (s : St K V) :
    (∀ m os t, (ArrMap sum kb).sessionP (arrPanics bytes eq) fuel sd ops s = .ok ((m, os), t) →
      os.length = ops.length ∧ (ArrMap sum kb).session fuel sd (answered ops os) s = .ok ((m, os.filterMap id), t)) ∧
    ∀ e, (ArrMap sum kb).sessionP (arrPanics bytes eq) fuel sd ops s = .error e →
      ∃ ops', ops'.Sublist ops ∧ (ArrMap sum kb).session fuel sd ops' s = .error e :=
  (arrMap_calm sum kb bytes eq sd).sessionP_eq ops (fun _ _ _ _ => trivial)

/-- C72 for `ArrSet`. -/
theorem C72_ArrSet [DecidableEq K] (sum : Maphash) (kb : K → List UInt8) (bytes : K → Bool) (eq : K → K → Bool) (fuel : Nat) (sd : Seed)
    (ops : List (SOp K)) (s : St K Unit) :
    (∀ m os t, (ArrSet sum kb).sessionP (arrPanics bytes eq) fuel sd ops s = .ok ((m, os), t) →
      os.length = ops.length ∧ (ArrSet sum kb).session fuel sd (answered ops os) s = .ok ((m, os.filterMap id), t)) ∧
    ∀ e, (ArrSet sum kb).sessionP (arrPanics bytes eq) fuel sd ops s = .error e →
      ∃ ops', ops'.Sublist ops ∧ (ArrSet sum kb).session fuel sd ops' s = .error e :=
  (arrSet_calm sum kb bytes eq sd).sessionP_eq ops (fun _ _ _ _ => trivial)

/-- C72 for generic maps: `Equal` may panic for any pairs of keys, `Hash` for any keys, but for every iteration or for none.
(The rest of the memory may have cells with keys, if `Hash` does not panic for them.)  Without the condition on iterations the
claim is false: `C72_Map_refuted`. -/
theorem C72_Map_partial (J : KeyImpl K) (p : KeyPanics K) (fuel : Nat) (sd : Seed) (hp : ∀ k i, p.hash k sd i = p.hash k sd 0)
    (ops : List (MOp K V)) (s : St K V) (hs : ∀ a k v, s.mem a = some (.kv (some k) v) → p.hash k sd 0 = false) :
    (∀ m os t, (GenericMap J).sessionP (genericPanics p) fuel sd ops s = .ok ((m, os), t) →
      os.length = ops.length ∧ (GenericMap J).session fuel sd (answered ops os) s = .ok ((m, os.filterMap id), t)) ∧
    ∀ e, (GenericMap J).sessionP (genericPanics p) fuel sd ops s = .error e →
      ∃ ops', ops'.Sublist ops ∧ (GenericMap J).session fuel sd ops' s = .error e :=
  (map_calm J p sd hp).sessionP_eq ops hs

/-- C72 for generic sets, as `C72_Map_partial`. -/
theorem C72_Set_partial (J : KeyImpl K) (p : KeyPanics K) (fuel : Nat) (sd : Seed) (hp : ∀ k i, p.hash k sd i = p.hash k sd 0)
    (ops : List (SOp K)) (s : St K Unit) (hs : ∀ a k v, s.mem a = some (.kv (some k) v) → p.hash k sd 0 = false) :
    (∀ m os t, (GenericSet J).sessionP (genericPanics p) fuel sd ops s = .ok ((m, os), t) →
      os.length = ops.length ∧ (GenericSet J).session fuel sd (answered ops os) s = .ok ((m, os.filterMap id), t)) ∧
    ∀ e, (GenericSet J).sessionP (genericPanics p) fuel sd ops s = .error e →
      ∃ ops', ops'.Sublist ops ∧ (GenericSet J).session fuel sd ops' s = .error e :=
  (set_calm J p sd hp).sessionP_eq ops hs

/-! ### Calls that only read, and `Del`: no condition -/

theorem EitherAt.same {α : Type} {s t : St K V} {x : P K V α} {y : M K V α} (h : EitherAt s x y) (e : x s = .panic t) : t = s := by
  rcases h with h | h
  · rw [h] at e; cases e; rfl
  · rw [h] at e
    unfold P.lift at e
    cases hy : y s with
    | error _ => rw [hy] at e; cases e
    | ok r => rw [hy] at e; cases e

/-- In every memory, also with a damaged container: a panic of a method of a key in `Get`, `Val`, `Ptr` or `Del` (or in
`Ptr` before a write through the pointer) leaves the memory as it was; `Len`, `Dep` and `All` call no method of a key. -/
theorem C72_reads_map (I : MapImpl K V) (R : Panics K) (fuel : Nat) (m : Handle) (s t : St K V) (op : MOp K V) (ho : op.stores = [])
    (e : I.execP R fuel m op s = .panic t) : t = s := by
  have hlook : ∀ (k : K) {β : Type} (f : Option Amt.Ptr → M K V β), (I.PtrP R fuel m k >>= fun p => P.lift (f p)) s = .panic t → t = s := by
    intro k β f e
    refine EitherAt.same (EitherAt.then (y := I.Ptr fuel m k) ?_ f) e
    exact EitherAt.deref fun h _ => lookupP_either I.cfg R h fuel k s
  cases op with
  | get k => exact hlook k _ e
  | val k =>
    cases m with
    | none => cases e
    | some h => exact hlook k _ e
  | ptr k => exact hlook k _ e
  | write k v => exact hlook k _ e
  | set k v => cases ho
  | mod k f => cases ho
  | del k =>
    refine EitherAt.same (y := Amt.deref m >>= fun h => (delete I.cfg h fuel I.delSkip k >>= fun _ => Pure.pure MOut.unit)) ?_ e
    exact EitherAt.deref fun h _ => EitherAt.map (deleteP_either I.cfg R h fuel I.delSkip k s) _
  | len => exact EitherAt.same (EitherAt.lift s _) (by rw [MapImpl.execP] at e; exact e)
  | dep => exact EitherAt.same (EitherAt.lift s _) (by rw [MapImpl.execP] at e; exact e)
  | all f => exact EitherAt.same (EitherAt.lift s _) (by rw [MapImpl.execP] at e; exact e)

/-- The same for `Has` and `Del` of sets. -/
theorem C72_reads_set (I : SetImpl K) (R : Panics K) (fuel : Nat) (m : Handle) (s t : St K Unit) (op : SOp K) (ho : op.stores = [])
    (e : I.execP R fuel m op s = .panic t) : t = s := by
  cases op with
  | has k =>
    refine EitherAt.same (y := Amt.deref m >>= fun h => (lookup I.cfg h fuel k >>= fun p => Pure.pure (SOut.bool p.isSome))) ?_ e
    exact EitherAt.deref fun h _ => EitherAt.map (lookupP_either I.cfg R h fuel k s) _
  | add k => cases ho
  | del k =>
    refine EitherAt.same (y := Amt.deref m >>= fun h => (delete I.cfg h fuel I.delSkip k >>= fun _ => Pure.pure SOut.unit)) ?_ e
    exact EitherAt.deref fun h _ => EitherAt.map (deleteP_either I.cfg R h fuel I.delSkip k s) _
  | len => exact EitherAt.same (EitherAt.lift s _) (by rw [SetImpl.execP] at e; exact e)
  | dep => exact EitherAt.same (EitherAt.lift s _) (by rw [SetImpl.execP] at e; exact e)
  | all f => exact EitherAt.same (EitherAt.lift s _) (by rw [SetImpl.execP] at e; exact e)

/-! ### Methods that do not panic: the operations of the model -/

/-- No method of a key panics. -/
def noPanics : Panics K := ⟨fun _ _ => false, fun _ _ _ => false, fun _ _ _ _ => false, fun _ _ _ _ => false, fun _ _ => false⟩

theorem searchP_no (c : Cfg K) (sd : Seed) (key : K) : ∀ n cur, (searchP c noPanics sd key n cur : P K V _) = P.lift (search c sd key n cur) := by
  intro n
  induction n with
  | zero => intro cur; rfl
  | succ n ih =>
    intro cur
    rw [searchP, search]
    simp only [noPanics, Bool.and_false, check_false, lift_bind, lift_ite, lift_pure] at ih ⊢
    simp only [ih]

theorem lookupP_no (c : Cfg K) (h n : Nat) (key : K) : (lookupP c noPanics h n key : P K V _) = P.lift (lookup c h n key) := by
  unfold lookupP lookup
  simp only [searchP_no, show ∀ a b, (noPanics : Panics K).start a b = false from fun _ _ => rfl, show ∀ a b, (noPanics : Panics K).eq a b = false from fun _ _ => rfl,
    check_false, lift_bind, lift_ite, lift_pure]

theorem deleteP_no (c : Cfg K) (h n : Nat) (skip : Bool → Bool) (key : K) : (deleteP c noPanics h n skip key : P K V _) = P.lift (delete c h n skip key) := by
  unfold deleteP delete removeP remove
  simp only [searchP_no, show ∀ a b, (noPanics : Panics K).start a b = false from fun _ _ => rfl, show ∀ a b, (noPanics : Panics K).eq a b = false from fun _ _ => rfl,
    check_false, lift_bind, lift_ite, lift_pure]

theorem upsertP_no {β : Type} (c : Cfg K) (h n : Nat) (key : K) (ins : Ins K V β) :
    upsertP c noPanics (fun _ _ _ _ => false) h n key ins = P.lift (upsert c h n key ins) := by
  unfold upsertP upsert conflictP conflict
  simp only [searchP_no, show ∀ a b, (noPanics : Panics K).start a b = false from fun _ _ => rfl, show ∀ a b, (noPanics : Panics K).eq a b = false from fun _ _ => rfl,
    check_false, lift_bind, lift_ite, lift_pure, splitP_eq c noPanics _ _ _ _ _ _ (fun _ => rfl) (fun _ => rfl)]

end Inst

/-! ### A larger budget makes no difference -/

section Fuel
variable {K V α β : Type}

/-- `y` does what `x` does, unless `x` has used up its budget. -/
def ExtP (x y : P K V α) : Prop := ∀ s, x s = .fault .diverge ∨ y s = x s

theorem ExtP.refl (x : P K V α) : ExtP x x := fun _ => Or.inr rfl

theorem ExtP.bind {x y : P K V α} {f g : α → P K V β} (h1 : ExtP x y) (h2 : ∀ a, ExtP (f a) (g a)) : ExtP (x >>= f) (y >>= g) := by
  intro s
  simp only [P.bind_run]
  rcases h1 s with h | h
  · left; rw [h]
  · rw [h]
    cases x s with
    | ret a t => exact h2 a t
    | panic t => exact Or.inr rfl
    | fault e => exact Or.inr rfl

theorem ExtP.ite {p : Prop} [Decidable p] {x y x' y' : P K V α} (h1 : ExtP x x') (h2 : ExtP y y') :
    ExtP (if p then x else y) (if p then x' else y') := by
  split
  · exact h1
  · exact h2

theorem ExtP.lift {x y : M K V α} (h : Ext x y) : ExtP (P.lift x) (P.lift y) := by
  intro s
  rcases h s with h | h
  · left; simp only [P.lift, h]
  · right; simp only [P.lift, h]

theorem ExtP.attempt {x y : P K V α} (h : ExtP x y) : Ext (P.attempt x) (P.attempt y) := by
  intro s
  rcases h s with h | h
  · left; simp only [P.attempt, h]
  · right; simp only [P.attempt, h]

variable (c : Cfg K) (R : Panics K)

theorem searchP_ext (sd : Seed) (key : K) {f f' : Nat} (hf : f ≤ f') (cur : Cur) :
    ExtP (searchP c R sd key f cur : P K V _) (searchP c R sd key f' cur) := by
  induction f generalizing f' cur with
  | zero => exact fun _ => Or.inl rfl
  | succ f ih =>
    obtain ⟨f', rfl⟩ : ∃ g, f' = g + 1 := ⟨f' - 1, by omega⟩
    rw [searchP, searchP]
    exact ExtP.bind (ExtP.refl _) fun lk => ExtP.ite (ExtP.ite (ExtP.bind (ExtP.refl _) fun _ => ih (by omega) _) (ExtP.refl _)) (ExtP.refl _)

theorem splitP_ext (sd : Seed) (h : Nat) (key ckey : K) (cptr : Ptr) (ins : Ins K V β) {f f' : Nat} (hf : f ≤ f') (item : Ref) (d : Nat)
    (hd chd : BitVec 64) (w cw : Nat) : ExtP (splitP c R sd h key ckey cptr ins f item d hd chd w cw) (splitP c R sd h key ckey cptr ins f' item d hd chd w cw) := by
  induction f generalizing f' item d hd chd w cw with
  | zero => exact fun _ => Or.inl rfl
  | succ f ih =>
    obtain ⟨f', rfl⟩ : ∃ g, f' = g + 1 := ⟨f' - 1, by omega⟩
    rw [splitP, splitP]
    refine ExtP.bind (ExtP.refl _) fun _ => ExtP.bind (ExtP.refl _) fun _ => ExtP.bind (ExtP.refl _) fun _ => ExtP.ite (ExtP.refl _) ?_
    exact ExtP.bind (ExtP.refl _) fun _ => ExtP.bind (ExtP.refl _) fun _ => ih (by omega) _ _ _ _ _ _

theorem lookupP_ext (h : Nat) {f f' : Nat} (hf : f ≤ f') (key : K) : ExtP (lookupP c R h f key : P K V _) (lookupP c R h f' key) := by
  unfold lookupP
  exact ExtP.bind (ExtP.refl _) fun r => ExtP.bind (ExtP.refl _) fun _ => ExtP.bind (searchP_ext c R _ key hf _) fun _ => ExtP.refl _

theorem deleteP_ext (h : Nat) {f f' : Nat} (hf : f ≤ f') (skip : Bool → Bool) (key : K) :
    ExtP (deleteP c R h f skip key : P K V _) (deleteP c R h f' skip key) := by
  unfold deleteP
  exact ExtP.bind (ExtP.refl _) fun r => ExtP.bind (ExtP.refl _) fun _ => ExtP.bind (searchP_ext c R _ key hf _) fun _ => ExtP.refl _

theorem upsertP_ext (chp : Seed → K → K → Nat → Bool) (h : Nat) {f f' : Nat} (hf : f ≤ f') (key : K) {ins : Ins K V β} (hi : ins.Mono) :
    ExtP (upsertP c R chp h f key ins) (upsertP c R chp h f' key ins) := by
  unfold upsertP conflictP
  refine ExtP.bind (ExtP.refl _) fun r => ExtP.bind (ExtP.refl _) fun _ => ExtP.bind (searchP_ext c R _ key hf _) fun _ => ExtP.ite ?_ (ExtP.refl _)
  refine ExtP.bind (ExtP.refl _) fun item => ExtP.bind (ExtP.refl _) fun x => ExtP.bind (ExtP.refl _) fun ckey => ExtP.bind (ExtP.refl _) fun _ => ?_
  refine ExtP.ite (ExtP.refl _) (ExtP.bind (ExtP.refl _) fun _ => ExtP.bind (ExtP.lift (Ext.liftE (hi _ _ _ _ _ _ hf))) fun _ => ?_)
  refine ExtP.ite (ExtP.refl _) ?_
  exact ExtP.bind (ExtP.refl _) fun _ => ExtP.bind (ExtP.refl _) fun _ => splitP_ext c R _ _ _ _ _ _ hf _ _ _ _ _ _

theorem MapImpl.execP_ext [Inhabited V] {I : MapImpl K V} (hI : I.Mono) {f f' : Nat} (hf : f ≤ f') (m : Handle) (op : MOp K V) :
    ExtP (I.execP R f m op) (I.execP R f' m op) := by
  have hp : ∀ k, ExtP (I.PtrP R f m k) (I.PtrP R f' m k) := fun k => ExtP.bind (ExtP.refl _) fun h => lookupP_ext _ _ _ hf _
  cases op with
  | get k => exact ExtP.bind (hp k) fun _ => ExtP.refl _
  | val k =>
    cases m with
    | none => exact ExtP.refl _
    | some h => exact ExtP.bind (hp k) fun _ => ExtP.refl _
  | ptr k => exact ExtP.bind (hp k) fun _ => ExtP.refl _
  | write k v => exact ExtP.bind (hp k) fun _ => ExtP.refl _
  | set k v => exact ExtP.bind (ExtP.refl _) fun h => ExtP.bind (upsertP_ext _ _ _ _ hf _ (hI.set k v)) fun _ => ExtP.refl _
  | mod k g => exact ExtP.bind (ExtP.refl _) fun h => ExtP.bind (upsertP_ext _ _ _ _ hf _ (hI.mod k g)) fun _ => ExtP.refl _
  | del k => exact ExtP.bind (ExtP.refl _) fun h => ExtP.bind (deleteP_ext _ _ _ hf _ _) fun _ => ExtP.refl _
  | len => rw [MapImpl.execP, MapImpl.execP]; exact ExtP.lift (MapImpl.exec_ext hI hf m _)
  | dep => rw [MapImpl.execP, MapImpl.execP]; exact ExtP.lift (MapImpl.exec_ext hI hf m _)
  | all g => rw [MapImpl.execP, MapImpl.execP]; exact ExtP.lift (MapImpl.exec_ext hI hf m _)

theorem MapImpl.sessionP_ext [Inhabited V] {I : MapImpl K V} (hI : I.Mono) {f f' : Nat} (hf : f ≤ f') (sd : Seed) (ops : List (MOp K V)) :
    Ext (I.sessionP R f sd ops) (I.sessionP R f' sd ops) := by
  refine Ext.bind (Ext.refl _) fun m => Ext.bind ?_ fun _ => Ext.refl _
  induction ops with
  | nil => exact Ext.refl _
  | cons op ops ih => exact Ext.bind (ExtP.attempt (MapImpl.execP_ext R hI hf m op)) fun _ => Ext.bind ih fun _ => Ext.refl _

theorem SetImpl.execP_ext {I : SetImpl K} (hI : I.Mono) {f f' : Nat} (hf : f ≤ f') (m : Handle) (op : SOp K) :
    ExtP (I.execP R f m op) (I.execP R f' m op) := by
  cases op with
  | has k => exact ExtP.bind (ExtP.refl _) fun h => ExtP.bind (lookupP_ext _ _ _ hf _) fun _ => ExtP.refl _
  | add k => exact ExtP.bind (ExtP.refl _) fun h => ExtP.bind (upsertP_ext _ _ _ _ hf _ (hI k)) fun _ => ExtP.refl _
  | del k => exact ExtP.bind (ExtP.refl _) fun h => ExtP.bind (deleteP_ext _ _ _ hf _ _) fun _ => ExtP.refl _
  | len => rw [SetImpl.execP, SetImpl.execP]; exact ExtP.lift (SetImpl.exec_ext hI hf m _)
  | dep => rw [SetImpl.execP, SetImpl.execP]; exact ExtP.lift (SetImpl.exec_ext hI hf m _)
  | all g => rw [SetImpl.execP, SetImpl.execP]; exact ExtP.lift (SetImpl.exec_ext hI hf m _)

theorem SetImpl.sessionP_ext {I : SetImpl K} (hI : I.Mono) {f f' : Nat} (hf : f ≤ f') (sd : Seed) (ops : List (SOp K)) :
    Ext (I.sessionP R f sd ops) (I.sessionP R f' sd ops) := by
  refine Ext.bind (Ext.refl _) fun m => Ext.bind ?_ fun _ => Ext.refl _
  induction ops with
  | nil => exact Ext.refl _
  | cons op ops ih => exact Ext.bind (ExtP.attempt (SetImpl.execP_ext R hI hf m op)) fun _ => Ext.bind ih fun _ => Ext.refl _

end Fuel

/-! ### A panic in the middle of a split -/

/-- Digests agree in iteration 0 and differ in iteration 1. -/
def lateKey : KeyImpl Nat := ⟨fun a b => decide (a = b), fun k _ i => if i = 0 then 0#64 else BitVec.ofNat 64 k⟩

/-- `Hash` of the key 2 panics in iteration 1. -/
def latePanic : KeyPanics Nat := ⟨fun _ _ => false, fun k _ i => k == 2 && i == 1⟩

/-- C72 is false of generic maps: `Set(1, 7)`, then `Set(2, 8)`, which panics when it computes a digest in the middle of a
split; after that 1 is missing although `Len` still counts it.  Without the second call 1 is found. -/
theorem C72_Map_refuted : ∃ (J : KeyImpl Nat) (p : KeyPanics Nat) (sd : Seed) (ops : List (MOp Nat Nat)) (os : List (Option (MOut Nat Nat))),
    ∀ fuel, 256 ≤ fuel → (∃ m t, (GenericMap J).sessionP (genericPanics p) fuel sd ops St.init = .ok ((m, os), t)) ∧
      ∀ m t, (GenericMap J).session fuel sd (answered ops os) St.init ≠ .ok ((m, os.filterMap id), t) := by
  refine ⟨lateKey, latePanic, 0#64, [.set 1 7, .set 2 8, .get 1, .len], [some .unit, none, some (.pair 0 false), some (.num 1#64)],
    fun fuel hf => ⟨?_, fun m t e => ?_⟩⟩
  · obtain ⟨m, t, e⟩ := outs_ok (x := (GenericMap lateKey : MapImpl Nat Nat).sessionP (genericPanics latePanic) 256 0#64
      [.set 1 7, .set 2 8, .get 1, .len] St.init) (os := [some .unit, none, some (.pair 0 false), some (.num 1#64)]) (by decide +kernel)
    exact ⟨m, t, (MapImpl.sessionP_ext _ (GenericMap_mono lateKey) hf _ _).ok e⟩
  · obtain ⟨m', t', e'⟩ := MapImpl.outs_of (V := Nat) (GenericMap_mono lateKey) (f := 256) (sd := 0#64) (ops := [.set 1 7, .get 1, .len]) (s := St.init)
      (os := [.unit, .pair 7 true, .num 1#64]) (by decide +kernel) hf
    have e : (GenericMap lateKey).session fuel 0#64 [.set 1 7, .get 1, .len] St.init = .ok ((m, [.unit, .pair 0 false, .num 1#64]), t) := e
    rw [e'] at e
    simp at e

/-- C72 is false of generic sets, by the same keys. -/
theorem C72_Set_refuted : ∃ (J : KeyImpl Nat) (p : KeyPanics Nat) (sd : Seed) (ops : List (SOp Nat)) (os : List (Option (SOut Nat))),
    ∀ fuel, 256 ≤ fuel → (∃ m t, (GenericSet J).sessionP (genericPanics p) fuel sd ops St.init = .ok ((m, os), t)) ∧
      ∀ m t, (GenericSet J).session fuel sd (answered ops os) St.init ≠ .ok ((m, os.filterMap id), t) := by
  refine ⟨lateKey, latePanic, 0#64, [.add 1, .add 2, .has 1, .len], [some .unit, none, some (.bool false), some (.num 1#64)],
    fun fuel hf => ⟨?_, fun m t e => ?_⟩⟩
  · obtain ⟨m, t, e⟩ := outs_ok (x := (GenericSet lateKey).sessionP (genericPanics latePanic) 256 0#64
      [.add 1, .add 2, .has 1, .len] St.init) (os := [some .unit, none, some (.bool false), some (.num 1#64)]) (by decide +kernel)
    exact ⟨m, t, (SetImpl.sessionP_ext _ (GenericSet_mono lateKey) hf _ _).ok e⟩
  · obtain ⟨m', t', e'⟩ := SetImpl.outs_of (GenericSet_mono lateKey) (f := 256) (sd := 0#64) (ops := [.add 1, .has 1, .len]) (s := St.init)
      (os := [.unit, .bool true, .num 1#64]) (by decide +kernel) hf
    have e : (GenericSet lateKey).session fuel 0#64 [.add 1, .has 1, .len] St.init = .ok ((m, [.unit, .bool false, .num 1#64]), t) := e
    rw [e'] at e
    simp at e

/-! ### The hypotheses can be met -/

/-- Keys that collide; `Hash` of 3 panics in every iteration, `Equal` of 2 and 1. -/
def somePanic : KeyPanics Nat := ⟨fun a b => a == 2 && b == 1, fun k _ _ => k == 3⟩

/-- A history in which both methods panic, in `Set`, `Get` and `Del`: 1 is stored and found all along. -/
example : (∀ k i, somePanic.hash k 0#64 i = somePanic.hash k 0#64 0) ∧
    outs ((GenericMap lateKey : MapImpl Nat Nat).sessionP (genericPanics somePanic) 256 0#64
      [.set 1 7, .set 3 9, .set 2 8, .get 2, .del 3, .set 4 5, .get 1, .len] St.init) =
    .ok [some .unit, none, none, none, none, some .unit, some (.pair 7 true), some (.num 2#64)] :=
  ⟨fun _ _ => rfl, by decide +kernel⟩

/-- `KeyBytes` of 3 panics, and 2 == 1 does. -/
example : outs ((ArrMap toyHash (fun b : UInt8 => [b]) : MapImpl UInt8 Nat).sessionP (arrPanics (· == 3) (fun a b => a == 0x11 && b == 1)) 256 0#64
      [.set 1 7, .set 3 9, .set 0x11 8, .get 1, .len] St.init) =
    .ok [some .unit, none, none, some (.pair 7 true), some (.num 1#64)] := by decide +kernel

end Amt
