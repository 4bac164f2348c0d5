/-
C70, C71: a container does not look at values, and looks at keys only through equality and hash.
-/
import Verif.Tag

set_option linter.unusedVariables false
set_option linter.unusedSectionVars false

namespace Spec
section
variable {K V K' V' : Type}

/-- The call with the images of the keys and values; callbacks do to the images what the given ones do. -/
inductive OpI (f : K → K') (g : V → V') : MOp K' V' → MOp K V → Prop
  | get (k : K) : OpI f g (.get (f k)) (.get k)
  | val (k : K) : OpI f g (.val (f k)) (.val k)
  | ptr (k : K) : OpI f g (.ptr (f k)) (.ptr k)
  | set (k : K) (v : V) : OpI f g (.set (f k) (g v)) (.set k v)
  | mod (k : K) {F' : V' → Bool → V'} {F : V → Bool → V} (h : ∀ v b, F' (g v) b = g (F v b)) : OpI f g (.mod (f k) F') (.mod k F)
  | del (k : K) : OpI f g (.del (f k)) (.del k)
  | len : OpI f g .len .len
  | dep : OpI f g .dep .dep
  | write (k : K) (v : V) : OpI f g (.write (f k) (g v)) (.write k v)
  | all {F' : List (K' × V') → K' → V' → V' × Bool} {F : List (K × V) → K → V → V × Bool}
      (h : ∀ log k v, F' (log.map fun e => (f e.1, g e.2)) (f k) (g v) = (g (F log k v).1, (F log k v).2)) : OpI f g (.all F') (.all F)

/-- The image of what a call returns. -/
def mapOut (f : K → K') (g : V → V') : MOut K V → MOut K' V'
  | .unit => .unit
  | .pair v b => .pair (g v) b
  | .one v => .one (g v)
  | .opt v => .opt (v.map g)
  | .calls l => .calls (l.map fun e => (g e.1, e.2))
  | .num n => .num n
  | .rat q => .rat q
  | .log l => .log (l.map fun e => (f e.1, g e.2))

/-- The same for the sets. -/
inductive SOpI (f : K → K') : SOp K' → SOp K → Prop
  | has (k : K) : SOpI f (.has (f k)) (.has k)
  | add (k : K) : SOpI f (.add (f k)) (.add k)
  | del (k : K) : SOpI f (.del (f k)) (.del k)
  | len : SOpI f .len .len
  | dep : SOpI f .dep .dep
  | all {F' : List K' → K' → Bool} {F : List K → K → Bool} (h : ∀ log k, F' (log.map f) (f k) = F log k) : SOpI f (.all F') (.all F)

def mapSOut (f : K → K') : SOut K → SOut K'
  | .unit => .unit
  | .bool b => .bool b
  | .num n => .num n
  | .rat q => .rat q
  | .log l => .log (l.map f)

/-- The calls of two histories correspond one by one. -/
inductive Each {A B : Type} (R : A → B → Prop) : List A → List B → Prop
  | nil : Each R [] []
  | cons {a : A} {b : B} {as : List A} {bs : List B} (h : R a b) (t : Each R as bs) : Each R (a :: as) (b :: bs)

/-- The images of the answers, or the same fault. -/
def mapAns {ε α β : Type} (h : α → β) : Except ε (List α) → Except ε (List β)
  | .ok os => .ok (os.map h)
  | .error e => .error e

end
end Spec

namespace Amt
open Spec

/-- The parts in which the containers differ. -/
structure Plan (K : Type) where
  cfg : Cfg K
  setHash : Chash K
  modHash : Chash K
  guard : Bool := false
  /-- `ArrMap.Set` loses the value on a collision. -/
  lossy : Bool := false
  delSkip : Bool → Bool := fun same => !same

/-- The map with these parts. -/
def Plan.map {K V : Type} [Inhabited V] (P : Plan K) : MapImpl K V where
  cfg := P.cfg
  setI := match P.lossy with
    | false => setIns P.cfg P.setHash P.guard
    | true => setInsArr P.cfg P.setHash
  modI := modIns P.cfg P.modHash P.guard
  delSkip := P.delSkip

/-- `Add(key)`, in a memory with values: the value in the cell is `z`. -/
def addInsZ {K V : Type} (c : Cfg K) (chash : Chash K) (z : V) (key : K) : Ins K V Unit where
  chash := chash
  guard := false
  hit _ := pure ()
  newSplit := do let p ← newKv c key z; pure (p, ())
  newSlot := do let p ← newKv c key z; pure (p, ())

/-- The set with these parts. -/
def Plan.set {K : Type} (P : Plan K) : SetImpl K where
  cfg := P.cfg
  addI := addIns P.cfg P.setHash
  delSkip := P.delSkip

/-! ### The ten containers -/

def Plan.string (sum : Maphash) : Plan ByteStr := { cfg := boxedCfg sum id, setHash := byteChash sum id, modHash := byteChash sum id }
def Plan.bytes (sum : Maphash) : Plan ByteStr := { cfg := boxedCfg sum id, setHash := byteChash sum id, modHash := byteChash sum id, guard := true }
def Plan.bytesSet (sum : Maphash) : Plan ByteStr := { cfg := boxedCfg sum id, setHash := byteChash sum id, modHash := byteChash sum id, delSkip := id }
def Plan.arr {K : Type} [DecidableEq K] (sum : Maphash) (kb : K → List UInt8) : Plan K :=
  { cfg := boxedCfg sum kb, setHash := byteChash sum kb, modHash := byteChash sum kb, lossy := true }
def Plan.int (sum : Maphash) : Plan IntKey := { cfg := intCfg .inline sum, setHash := byteChash sum intbytes, modHash := byteChash sum intbytes }
def Plan.intSet (sum : Maphash) : Plan IntKey := { cfg := intSetCfg sum, setHash := byteChash sum intbytes, modHash := byteChash sum intbytes }
def Plan.generic {K : Type} (J : KeyImpl K) : Plan K := { cfg := genericCfg J, setHash := genericChashSet J, modHash := genericChashMod J }

section
variable {V : Type} [Inhabited V] (sum : Maphash)

theorem Plan.string_eq : (Plan.string sum).map = (StringMap sum : MapImpl _ V) := rfl
theorem Plan.bytes_eq : (Plan.bytes sum).map = (BytesMap sum : MapImpl _ V) := rfl
theorem Plan.arr_eq {K : Type} [DecidableEq K] (kb : K → List UInt8) : (Plan.arr sum kb).map = (ArrMap sum kb : MapImpl _ V) := rfl
theorem Plan.int_eq : (Plan.int sum).map = (IntMap sum : MapImpl _ V) := rfl
theorem Plan.generic_eq {K : Type} (J : KeyImpl K) : (Plan.generic J).map = (GenericMap J : MapImpl _ V) := rfl
theorem Plan.stringSet_eq : (Plan.string sum).set = StringSet sum := rfl
theorem Plan.bytesSet_eq : (Plan.bytesSet sum).set = BytesSet sum := rfl
theorem Plan.arrSet_eq {K : Type} [DecidableEq K] (kb : K → List UInt8) : (Plan.arr sum kb).set = ArrSet sum kb := rfl
theorem Plan.intSet_eq : (Plan.intSet sum).set = IntSet sum := rfl
theorem Plan.genericSet_eq {K : Type} (J : KeyImpl K) : (Plan.generic J).set = GenericSet J := rfl

theorem IsMap.plan {K : Type} {I : MapImpl K V} {g : Bool} (h : IsMap I g) : ∃ P : Plan K, I = P.map := by
  cases h with
  | string sum => exact ⟨Plan.string sum, rfl⟩
  | bytes sum => exact ⟨Plan.bytes sum, rfl⟩
  | arr sum kb => exact ⟨Plan.arr sum kb, rfl⟩
  | int sum => exact ⟨Plan.int sum, rfl⟩
  | generic J => exact ⟨Plan.generic J, rfl⟩

theorem IsSet.plan {K : Type} {I : SetImpl K} {g : Bool} (h : IsSet I g) : ∃ P : Plan K, I = P.set := by
  cases h with
  | string sum => exact ⟨Plan.string sum, rfl⟩
  | bytes sum => exact ⟨Plan.bytesSet sum, rfl⟩
  | arr sum kb => exact ⟨Plan.arr sum kb, rfl⟩
  | int sum => exact ⟨Plan.intSet sum, rfl⟩
  | generic J => exact ⟨Plan.generic J, rfl⟩

end

/-! ### Images -/

section
variable {K V K' V' : Type} {f : K → K'} {g : V → V'}

/-- The two plans treat a key and its image in the same way. -/
structure PlanI (f : K → K') (P' : Plan K') (P : Plan K) : Prop where
  cfg : CfgI f P'.cfg P.cfg
  setHash : ∀ s a b d n, P'.setHash s (f a) (f b) d n = P.setHash s a b d n
  modHash : ∀ s a b d n, P'.modHash s (f a) (f b) d n = P.modHash s a b d n
  guard : P'.guard = P.guard
  lossy : P'.lossy = P.lossy
  skip : P'.delSkip = P.delSkip

/-- With the same keys. -/
theorem PlanI.same (P : Plan K) : PlanI id P P :=
  ⟨⟨rfl, fun _ => rfl, fun _ => rfl, fun _ _ => by simp, fun _ _ => rfl, fun _ _ _ _ => rfl, rfl⟩, fun _ _ _ _ _ => rfl, fun _ _ _ _ _ => rfl, rfl, rfl, rfl⟩

theorem byteChash_img (sum : Maphash) {kb' : K' → List UInt8} {kb : K → List UInt8} (h : ∀ k, kb' (f k) = kb k) (s : Seed) (a b : K) (d n : Nat) :
    byteChash sum kb' s (f a) (f b) d n = byteChash sum kb s a b d n := by unfold byteChash; rw [h]

/-- Array keys with the same bytes. -/
theorem PlanI.arr [DecidableEq K] [DecidableEq K'] (sum : Maphash) {kb' : K' → List UInt8} {kb : K → List UInt8} (h : ∀ k, kb' (f k) = kb k) (hf : ∀ a b, f a = f b → a = b) :
    PlanI f (Plan.arr sum kb') (Plan.arr sum kb) := by
  refine ⟨⟨rfl, fun _ => rfl, fun _ => rfl, fun _ _ => rfl, fun a b => ?_, fun s k w d => ?_, rfl⟩, byteChash_img sum h, byteChash_img sum h, rfl, rfl, rfl⟩
  · show decide (f a = f b) = decide (a = b)
    by_cases hab : a = b
    · simp [hab]
    · rw [decide_eq_false hab, decide_eq_false fun e => hab (hf a b e)]
  · show digestOf sum s (kb' (f k)) w = digestOf sum s (kb k) w
    rw [h]

/-- Generic keys with the same `Equal` and `Hash`. -/
theorem PlanI.generic {J' : KeyImpl K'} {J : KeyImpl K} (he : ∀ a b, J'.equal (f a) (f b) = J.equal a b) (hh : ∀ k s n, J'.hash (f k) s n = J.hash k s n) :
    PlanI f (Plan.generic J') (Plan.generic J) :=
  ⟨⟨rfl, fun _ => rfl, fun _ => rfl, fun _ _ => rfl, he, fun s k w d => hh k s _, rfl⟩, fun s a b d n => by show Except.ok _ = Except.ok _; rw [hh],
    fun s a b d n => by show Except.ok _ = Except.ok _; rw [hh], rfl, rfl, rfl⟩

/-! ### Calls -/

theorem Img.cell {c' : Cfg K'} {c : Cfg K} (hc : CfgI f c' c) {R R' : Type} {Q : R' → R → Prop} (k : K) (v : V) {r' : R'} {r : R} (hr : Q r' r) :
    Img f g (fun a b => a.1 = b.1 ∧ Q a.2 b.2) (Amt.newKv c' (f k) (g v) >>= fun p => Pure.pure (p, r')) (Amt.newKv c k v >>= fun p => Pure.pure (p, r)) :=
  Img.seq (Img.newKv hc k v) fun p => Img.pure ⟨rfl, hr⟩

theorem Img.Len (m : Handle) : Img f g Eq (MapImpl.Len m : M K' V' (BitVec 64)) (MapImpl.Len m : M K V (BitVec 64)) := by
  cases m with
  | none => exact Img.pure rfl
  | some h => exact Img.seq (Img.getRoot h) fun r => Img.pure rfl

theorem Img.Dep (m : Handle) : Img f g Eq (MapImpl.Dep m : M K' V' Rat) (MapImpl.Dep m : M K V Rat) := by
  cases m with
  | none => exact Img.pure rfl
  | some h => exact Img.seq (Img.getRoot h) fun r => Img.ite (Img.pure rfl) (Img.pure rfl)

section
variable [Inhabited V] [Inhabited V'] {P' : Plan K'} {P : Plan K}

theorem PlanI.Ptr (hP : PlanI f P' P) (fuel : Nat) (m : Handle) (k : K) :
    Img f g Eq ((P'.map : MapImpl K' V').Ptr fuel m (f k)) ((P.map : MapImpl K V).Ptr fuel m k) :=
  Img.seq (Img.deref m) fun h => Img.lookup hP.cfg h fuel k

theorem PlanI.setIns (hP : PlanI f P' P) (hz : g default = default) (k : K) (v : V) :
    InsI f g Eq k ((P'.map : MapImpl K' V').setI (f k) (g v)) ((P.map : MapImpl K V).setI k v) := by
  have hl := hP.lossy
  cases h : P.lossy with
  | false =>
    rw [h] at hl
    simp only [Plan.map, h, hl]
    exact ⟨fun s b d n => hP.setHash s k b d n, hP.guard, fun p => Img.storeVal p v, Img.cell hP.cfg k v rfl, Img.cell hP.cfg k v rfl⟩
  | true =>
    rw [h] at hl
    simp only [Plan.map, h, hl]
    refine ⟨fun s b d n => hP.setHash s k b d n, rfl, fun p => Img.storeVal p v, ?_, Img.cell hP.cfg k v rfl⟩
    show Img f g _ (Amt.newKv P'.cfg (f k) default >>= fun p => Pure.pure (p, ())) _
    rw [← hz]
    exact Img.cell hP.cfg k default rfl

theorem PlanI.modIns (hP : PlanI f P' P) (hz : g default = default) (k : K) {F' : V' → Bool → V'} {F : V → Bool → V} (hF : ∀ v b, F' (g v) b = g (F v b)) :
    InsI f g (fun a b => a = b.map fun e => (g e.1, e.2)) k ((P'.map : MapImpl K' V').modI (f k) F') ((P.map : MapImpl K V).modI k F) := by
  refine ⟨fun s b d n => hP.modHash s k b d n, hP.guard, fun p => ?_, ?_, ?_⟩
  · refine Img.bind (Img.loadKv p) fun a b e => ?_
    cases e
    dsimp only
    rw [hF]
    exact Img.seq (Img.storeVal p _) fun _ => Img.pure rfl
  · show Img f g _ (Amt.newKv P'.cfg (f k) (F' default false) >>= fun p => Pure.pure (p, [(default, false)])) _
    rw [← hz, hF]
    exact Img.cell (Q := fun (a : List (V' × Bool)) (b : List (V × Bool)) => a = b.map fun e => (g e.1, e.2)) hP.cfg k _ rfl
  · show Img f g _ (Amt.newKv P'.cfg (f k) (F' default false) >>= fun p => Pure.pure (p, [(default, false)])) _
    rw [← hz, hF]
    exact Img.cell (Q := fun (a : List (V' × Bool)) (b : List (V × Bool)) => a = b.map fun e => (g e.1, e.2)) hP.cfg k _ rfl

theorem PlanI.exec (hP : PlanI f P' P) (hz : g default = default) (fuel : Nat) (m : Handle) {op' : MOp K' V'} {op : MOp K V} (h : OpI f g op' op) :
    Img f g (fun a b => a = mapOut f g b) ((P'.map : MapImpl K' V').exec fuel m op') ((P.map : MapImpl K V).exec fuel m op) := by
  cases h with
  | get k =>
    refine Img.bind (Q := fun a b => a = (g b.1, b.2)) (Img.seq (hP.Ptr fuel m k) fun p => ?_) fun a b e => by cases e; exact Img.pure rfl
    cases p with
    | none => exact Img.pure (by rw [hz])
    | some p => exact Img.bind (Img.loadKv p) fun a b e => by cases e; exact Img.pure rfl
  | val k =>
    refine Img.bind (Q := fun a b => a = g b) ?_ fun a b e => by cases e; exact Img.pure rfl
    unfold MapImpl.Val
    cases m with
    | none => exact Img.pure hz.symm
    | some h =>
      refine Img.seq (hP.Ptr fuel _ k) fun p => ?_
      cases p with
      | none => exact Img.pure hz.symm
      | some p => exact Img.bind (Img.loadKv p) fun a b e => by cases e; exact Img.pure rfl
  | ptr k =>
    refine Img.seq (hP.Ptr fuel m k) fun p => ?_
    cases p with
    | none => exact Img.pure rfl
    | some p => exact Img.bind (Img.loadKv p) fun a b e => by cases e; exact Img.pure rfl
  | set k v => exact Img.seq (Img.seq (Img.deref m) fun h => Img.upsert hP.cfg (hP.setIns hz k v) h fuel) fun _ => Img.pure rfl
  | mod k hF => exact Img.bind (Img.seq (Img.deref m) fun h => Img.upsert hP.cfg (hP.modIns hz k hF) h fuel) fun a b e => by cases e; exact Img.pure rfl
  | del k =>
    refine Img.seq (Img.seq (Img.deref m) fun h => ?_) fun _ => Img.pure rfl
    show Img f g _ (Amt.delete P'.cfg h fuel P'.delSkip (f k)) _
    rw [hP.skip]
    exact Img.delete hP.cfg h fuel P.delSkip k
  | len => exact Img.seq (Img.Len m) fun _ => Img.pure rfl
  | dep => exact Img.seq (Img.Dep m) fun _ => Img.pure rfl
  | write k v =>
    refine Img.seq (hP.Ptr fuel m k) fun p => ?_
    cases p with
    | none => exact Img.pure rfl
    | some p => exact Img.seq (Img.storeVal p v) fun _ => Img.pure rfl
  | @all F' F hF =>
    refine Img.bind (Q := fun a b => a = b.map fun e => (f e.1, g e.2)) ?_ fun a b e => by cases e; exact Img.pure rfl
    rw [MapImpl.All_eq, MapImpl.All_eq]
    refine Img.iter hP.cfg (P := fun (a : List (K' × V')) (b : List (K × V)) => a = b.map fun e => (f e.1, g e.2)) (fun u' u k p hu => ?_) fuel m rfl
    refine Img.bind (Img.loadKv p) fun a b e => ?_
    cases e
    cases hu
    dsimp only
    rw [hF]
    refine Img.seq (Img.storeVal p _) fun _ => Img.pure ⟨?_, rfl⟩
    simp

theorem PlanI.run (hP : PlanI f P' P) (hz : g default = default) (fuel : Nat) (m : Handle) {ops' : List (MOp K' V')} {ops : List (MOp K V)} (h : Each (OpI f g) ops' ops) :
    Img f g (fun a b => a = b.map (mapOut f g)) ((P'.map : MapImpl K' V').run fuel m ops') ((P.map : MapImpl K V).run fuel m ops) := by
  induction h with
  | nil => exact Img.pure rfl
  | cons h t ih => exact Img.bind (hP.exec hz fuel m h) fun a b e => Img.bind ih fun a' b' e' => by cases e; cases e'; exact Img.pure rfl

theorem Img.answers {A B C D : Type} {x : M K' V' (A × List B)} {y : M K V (C × List D)} {h : D → B} (hx : Img f g (fun a b => a.2 = b.2.map h) x y) (t : St K V) :
    answers (x (mapSt f g t)) = mapAns h (answers (y t)) := by
  have h1 := hx t
  cases hx : x (mapSt f g t) <;> cases hy : y t <;> rw [hx, hy] at h1
  · exact congrArg _ h1
  · exact h1.elim
  · exact h1.elim
  · exact congrArg _ h1.1

theorem PlanI.session (hP : PlanI f P' P) (hz : g default = default) (fuel : Nat) (sd : Seed) {ops' : List (MOp K' V')} {ops : List (MOp K V)} (h : Each (OpI f g) ops' ops) :
    answers ((P'.map : MapImpl K' V').session fuel sd ops' St.init) = mapAns (mapOut f g) (answers ((P.map : MapImpl K V).session fuel sd ops St.init)) := by
  rw [← mapSt_init (f := f) (g := g)]
  refine Img.answers ?_ _
  exact Img.seq (Img.newRoot sd) fun m => Img.bind (hP.run hz fuel m h) fun a b e => Img.pure e

end

/-! ### Sets -/

section
variable {P' : Plan K'} {P : Plan K}

/-- A call on a set in a memory with values: the value in the cells is `z`. -/
def Plan.setExec (P : Plan K) (z : V) (fuel : Nat) (m : Handle) : SOp K → M K V (SOut K)
  | .has k => (deref m >>= fun h => lookup P.cfg h fuel k >>= fun p => pure p.isSome) >>= fun b => pure (.bool b)
  | .add k => (deref m >>= fun h => upsert P.cfg h fuel k (addInsZ P.cfg P.setHash z k)) >>= fun _ => pure .unit
  | .del k => (deref m >>= fun h => delete P.cfg h fuel P.delSkip k) >>= fun _ => pure .unit
  | .len => MapImpl.Len m >>= fun n => pure (.num n)
  | .dep => MapImpl.Dep m >>= fun q => pure (.rat q)
  | .all F => (deref m >>= fun h => scan (visitMapM P.cfg fun log k _ => pure (log ++ [k], F log k)) fuel [] ⟨.blk h, 0⟩ >>= fun r => pure r.1) >>= fun l => pure (.log l)

theorem Plan.setExec_eq (P : Plan K) (fuel : Nat) (m : Handle) (op : SOp K) : P.setExec () fuel m op = P.set.exec fuel m op := by cases op <;> rfl

theorem PlanI.addIns (hP : PlanI f P' P) (k : K) (z : V) : InsI f g Eq k (addInsZ P'.cfg P'.setHash (g z) (f k)) (addInsZ P.cfg P.setHash z k) :=
  ⟨fun s b d n => hP.setHash s k b d n, rfl, fun p => Img.pure rfl, Img.cell hP.cfg k z rfl, Img.cell hP.cfg k z rfl⟩

theorem PlanI.setExec (hP : PlanI f P' P) (z : V) (fuel : Nat) (m : Handle) {op' : SOp K'} {op : SOp K} (h : SOpI f op' op) :
    Img f g (fun a b => a = mapSOut f b) (P'.setExec (g z) fuel m op') (P.setExec z fuel m op) := by
  cases h with
  | has k => exact Img.seq (Img.seq (Img.deref m) fun h => Img.seq (Img.lookup hP.cfg h fuel k) fun p => Img.pure rfl) fun b => Img.pure rfl
  | add k => exact Img.seq (Img.seq (Img.deref m) fun h => Img.upsert hP.cfg (hP.addIns k z) h fuel) fun _ => Img.pure rfl
  | del k =>
    refine Img.seq (Img.seq (Img.deref m) fun h => ?_) fun _ => Img.pure rfl
    rw [hP.skip]
    exact Img.delete hP.cfg h fuel P.delSkip k
  | len => exact Img.seq (Img.Len m) fun _ => Img.pure rfl
  | dep => exact Img.seq (Img.Dep m) fun _ => Img.pure rfl
  | @all F' F hF =>
    refine Img.bind (Q := fun a b => a = b.map f) ?_ fun a b e => by cases e; exact Img.pure rfl
    refine Img.iter hP.cfg (P := fun (a : List K') (b : List K) => a = b.map f) (fun u' u k p hu => ?_) fuel m rfl
    cases hu
    rw [hF]
    exact Img.pure ⟨by simp, rfl⟩

theorem PlanI.setRun (hP : PlanI f P' P) (fuel : Nat) (m : Handle) {ops' : List (SOp K')} {ops : List (SOp K)} (h : Each (SOpI f) ops' ops) :
    Img f id (fun a b => a = b.map (mapSOut f)) (P'.set.run fuel m ops') (P.set.run fuel m ops) := by
  induction h with
  | nil => exact Img.pure rfl
  | cons h t ih =>
    refine Img.bind (Q := fun a b => a = mapSOut f b) ?_ fun a b e => Img.bind ih fun a' b' e' => by cases e; cases e'; exact Img.pure rfl
    rw [← Plan.setExec_eq, ← Plan.setExec_eq]
    exact hP.setExec () fuel m h

theorem PlanI.setSession (hP : PlanI f P' P) (fuel : Nat) (sd : Seed) {ops' : List (SOp K')} {ops : List (SOp K)} (h : Each (SOpI f) ops' ops) :
    answers (P'.set.session fuel sd ops' St.init) = mapAns (mapSOut f) (answers (P.set.session fuel sd ops St.init)) := by
  rw [← mapSt_init (f := f) (g := id)]
  refine Img.answers ?_ _
  exact Img.seq (Img.newRoot sd) fun m => Img.bind (hP.setRun fuel m h) fun a b e => Img.pure e

end

/-! ### The theorems -/

variable [Inhabited V] [Inhabited V']

/-- C70: a map does not look at values.  If the values in the calls are replaced by their images under any function that keeps the zero value, then the
values returned, passed to callbacks and found in the map are the images, and nothing else changes; faults and hangs are the same. -/
theorem C70_map (P : Plan K) (hz : g default = default) (fuel : Nat) (sd : Seed) {ops' : List (MOp K V')} {ops : List (MOp K V)} (h : Each (OpI id g) ops' ops) :
    answers ((P.map : MapImpl K V').session fuel sd ops' St.init) = mapAns (mapOut id g) (answers ((P.map : MapImpl K V).session fuel sd ops St.init)) :=
  (PlanI.same P).session hz fuel sd h

theorem C70_StringMap (sum : Maphash) (hz : g default = default) (fuel : Nat) (sd : Seed) {ops' : List (MOp ByteStr V')} {ops : List (MOp ByteStr V)} (h : Each (OpI id g) ops' ops) :
    answers ((StringMap sum : MapImpl _ V').session fuel sd ops' St.init) = mapAns (mapOut id g) (answers ((StringMap sum : MapImpl _ V).session fuel sd ops St.init)) :=
  C70_map (Plan.string sum) hz fuel sd h

theorem C70_BytesMap (sum : Maphash) (hz : g default = default) (fuel : Nat) (sd : Seed) {ops' : List (MOp ByteStr V')} {ops : List (MOp ByteStr V)} (h : Each (OpI id g) ops' ops) :
    answers ((BytesMap sum : MapImpl _ V').session fuel sd ops' St.init) = mapAns (mapOut id g) (answers ((BytesMap sum : MapImpl _ V).session fuel sd ops St.init)) :=
  C70_map (Plan.bytes sum) hz fuel sd h

theorem C70_ArrMap [DecidableEq K] (sum : Maphash) (kb : K → List UInt8) (hz : g default = default) (fuel : Nat) (sd : Seed) {ops' : List (MOp K V')} {ops : List (MOp K V)}
    (h : Each (OpI id g) ops' ops) :
    answers ((ArrMap sum kb : MapImpl _ V').session fuel sd ops' St.init) = mapAns (mapOut id g) (answers ((ArrMap sum kb : MapImpl _ V).session fuel sd ops St.init)) :=
  C70_map (Plan.arr sum kb) hz fuel sd h

theorem C70_IntMap (sum : Maphash) (hz : g default = default) (fuel : Nat) (sd : Seed) {ops' : List (MOp IntKey V')} {ops : List (MOp IntKey V)} (h : Each (OpI id g) ops' ops) :
    answers ((IntMap sum : MapImpl _ V').session fuel sd ops' St.init) = mapAns (mapOut id g) (answers ((IntMap sum : MapImpl _ V).session fuel sd ops St.init)) :=
  C70_map (Plan.int sum) hz fuel sd h

theorem C70_Map (J : KeyImpl K) (hz : g default = default) (fuel : Nat) (sd : Seed) {ops' : List (MOp K V')} {ops : List (MOp K V)} (h : Each (OpI id g) ops' ops) :
    answers ((GenericMap J : MapImpl _ V').session fuel sd ops' St.init) = mapAns (mapOut id g) (answers ((GenericMap J : MapImpl _ V).session fuel sd ops St.init)) :=
  C70_map (Plan.generic J) hz fuel sd h

/-- C71: a generic map uses keys only through `Equal` and `Hash`.  Replace the keys by others, of any type, that compare and hash like them: the answers have
the others in their place, and nothing else changes. -/
theorem C71_Map {J' : KeyImpl K'} {J : KeyImpl K} (he : ∀ a b, J'.equal (f a) (f b) = J.equal a b) (hh : ∀ k s n, J'.hash (f k) s n = J.hash k s n) (hz : g default = default)
    (fuel : Nat) (sd : Seed) {ops' : List (MOp K' V')} {ops : List (MOp K V)} (h : Each (OpI f g) ops' ops) :
    answers ((GenericMap J' : MapImpl _ V').session fuel sd ops' St.init) = mapAns (mapOut f g) (answers ((GenericMap J : MapImpl _ V).session fuel sd ops St.init)) :=
  (PlanI.generic he hh).session hz fuel sd h

theorem C71_Set {J' : KeyImpl K'} {J : KeyImpl K} (he : ∀ a b, J'.equal (f a) (f b) = J.equal a b) (hh : ∀ k s n, J'.hash (f k) s n = J.hash k s n)
    (fuel : Nat) (sd : Seed) {ops' : List (SOp K')} {ops : List (SOp K)} (h : Each (SOpI f) ops' ops) :
    answers ((GenericSet J').session fuel sd ops' St.init) = mapAns (mapSOut f) (answers ((GenericSet J).session fuel sd ops St.init)) :=
  (PlanI.generic he hh).setSession fuel sd h

/-- C71 for array keys: they are used through `KeyBytes` and `==` only. -/
theorem C71_ArrMap [DecidableEq K] [DecidableEq K'] (sum : Maphash) {kb' : K' → List UInt8} {kb : K → List UInt8} (hk : ∀ k, kb' (f k) = kb k) (hf : ∀ a b, f a = f b → a = b)
    (hz : g default = default) (fuel : Nat) (sd : Seed) {ops' : List (MOp K' V')} {ops : List (MOp K V)} (h : Each (OpI f g) ops' ops) :
    answers ((ArrMap sum kb' : MapImpl _ V').session fuel sd ops' St.init) = mapAns (mapOut f g) (answers ((ArrMap sum kb : MapImpl _ V).session fuel sd ops St.init)) :=
  (PlanI.arr sum hk hf).session hz fuel sd h

theorem C71_ArrSet [DecidableEq K] [DecidableEq K'] (sum : Maphash) {kb' : K' → List UInt8} {kb : K → List UInt8} (hk : ∀ k, kb' (f k) = kb k) (hf : ∀ a b, f a = f b → a = b)
    (fuel : Nat) (sd : Seed) {ops' : List (SOp K')} {ops : List (SOp K)} (h : Each (SOpI f) ops' ops) :
    answers ((ArrSet sum kb').session fuel sd ops' St.init) = mapAns (mapSOut f) (answers ((ArrSet sum kb).session fuel sd ops St.init)) :=
  (PlanI.arr sum hk hf).setSession fuel sd h

end

/-! ### A case -/

/-- A history whose values are numbers, and one with the lengths in their place. -/
def exVals : List (MOp ByteStr (List Nat)) := [.set [1] [7, 8], .set [0x11] [9], .get [0x11], .mod [1] (fun v _ => 0 :: v), .val [1], .get [2], .len]
def exSizes : List (MOp ByteStr Nat) := [.set [1] 2, .set [0x11] 1, .get [0x11], .mod [1] (fun v _ => v + 1), .val [1], .get [2], .len]

example : Each (OpI id List.length) exSizes exVals :=
  .cons (.set [1] [7, 8]) (.cons (.set [0x11] [9]) (.cons (.get _) (.cons (.mod [1] fun v b => rfl) (.cons (.val _) (.cons (.get _) (.cons .len .nil))))))

example := C70_StringMap (g := List.length) toyHash rfl 256 0#64
  (.cons (.set [1] [7, 8]) (.cons (.set [0x11] [9]) (.cons (.get _) (.cons (.mod [1] fun v b => rfl) (.cons (.val _) (.cons (.get _) (.cons .len .nil))))))) (ops' := exSizes) (ops := exVals)

example : (match answers ((StringMap toyHash : MapImpl _ Nat).session 256 0#64 exSizes St.init) with | .ok (_ :: _ :: .pair v b :: _ :: .one u :: _) => (v, b, u) | _ => (0, false, 0)) = (1, true, 3) := by
  decide +kernel

end Amt
