/-
C67 and C44 for programs with maps and sets of different types of keys and values.
-/
import Verif.Many
import Verif.Scratch

set_option linter.unusedVariables false
set_option linter.unusedSectionVars false

namespace Amt
open Spec

/-! ### A type within another -/

/-- The values of `A` within those of `B`. -/
structure Emb (A B : Type) where
  to : A → B
  back : B → Option A
  ok : ∀ a, back (to a) = some a

/-- The type of one kind within those of all kinds. -/
def Emb.at {ι : Type} [DecidableEq ι] (F : ι → Type) (i : ι) : Emb (F i) (Σ j, F j) := ⟨Sigma.mk i, pick i, pick_mk i⟩

def backList {A B : Type} (b : B → Option A) : List B → Option (List A)
  | [] => some []
  | x :: xs => match b x, backList b xs with
    | some y, some ys => some (y :: ys)
    | _, _ => none

theorem backList_map {A B : Type} {b : B → Option A} {f : A → B} (h : ∀ a, b (f a) = some a) (l : List A) : backList b (l.map f) = some l := by
  induction l with
  | nil => rfl
  | cons a l ih => rw [List.map_cons, backList, h, ih]

section
variable {K V K' V' : Type} (e : Emb K K') (g : Emb V V')

def Emb.pair : Emb (K × V) (K' × V') where
  to x := (e.to x.1, g.to x.2)
  back x := match e.back x.1, g.back x.2 with
    | some k, some v => some (k, v)
    | _, _ => none
  ok x := by simp only [e.ok, g.ok]

/-- The call, for the larger types. -/
def liftOp : MOp K V → MOp K' V'
  | .get k => .get (e.to k)
  | .val k => .val (e.to k)
  | .ptr k => .ptr (e.to k)
  | .set k v => .set (e.to k) (g.to v)
  | .mod k F => .mod (e.to k) fun v b => match g.back v with | some v => g.to (F v b) | none => v
  | .del k => .del (e.to k)
  | .len => .len
  | .dep => .dep
  | .write k v => .write (e.to k) (g.to v)
  | .all F => .all fun log k v => match backList (e.pair g).back log, e.back k, g.back v with
    | some log, some k, some v => (g.to (F log k v).1, (F log k v).2)
    | _, _, _ => (v, false)

theorem liftOp_ok (op : MOp K V) : OpI e.to g.to (liftOp e g op) op := by
  cases op with
  | get k => exact .get k
  | val k => exact .val k
  | ptr k => exact .ptr k
  | set k v => exact .set k v
  | mod k F => exact .mod k fun v b => by simp only [g.ok]
  | del k => exact .del k
  | len => exact .len
  | dep => exact .dep
  | write k v => exact .write k v
  | all F =>
    refine .all fun log k v => ?_
    have h := backList_map (e.pair g).ok log
    simp only [Emb.pair] at h ⊢
    simp only [h, e.ok, g.ok]

/-- What the call returned. -/
def backOut : MOut K' V' → Option (MOut K V)
  | .unit => some .unit
  | .pair v b => (g.back v).map fun v => .pair v b
  | .one v => (g.back v).map .one
  | .opt none => some (.opt none)
  | .opt (some v) => (g.back v).map fun v => .opt (some v)
  | .calls l => (backList (fun x => (g.back x.1).map fun v => (v, x.2)) l).map .calls
  | .num n => some (.num n)
  | .rat q => some (.rat q)
  | .log l => (backList (e.pair g).back l).map .log

theorem backOut_ok (o : MOut K V) : backOut e g (mapOut e.to g.to o) = some o := by
  cases o with
  | unit => rfl
  | pair v b => simp only [mapOut, backOut, g.ok, Option.map_some]
  | one v => simp only [mapOut, backOut, g.ok, Option.map_some]
  | opt v =>
    cases v with
    | none => rfl
    | some v => simp only [mapOut, backOut, Option.map_some, g.ok]
  | calls l =>
    have h := backList_map (b := fun x : V' × Bool => (g.back x.1).map fun v => (v, x.2)) (f := fun x : V × Bool => (g.to x.1, x.2)) (fun x => by simp only [g.ok, Option.map_some]) l
    simp only [mapOut, backOut, h, Option.map_some]
  | num n => rfl
  | rat q => rfl
  | log l =>
    have h : backList (e.pair g).back (l.map fun x => (e.to x.1, g.to x.2)) = some l := backList_map (e.pair g).ok l
    simp only [mapOut, backOut, h, Option.map_some]

def liftSOp : SOp K → SOp K'
  | .has k => .has (e.to k)
  | .add k => .add (e.to k)
  | .del k => .del (e.to k)
  | .len => .len
  | .dep => .dep
  | .all F => .all fun log k => match backList e.back log, e.back k with
    | some log, some k => F log k
    | _, _ => false

theorem liftSOp_ok (op : SOp K) : SOpI e.to (liftSOp e op) op := by
  cases op with
  | has k => exact .has k
  | add k => exact .add k
  | del k => exact .del k
  | len => exact .len
  | dep => exact .dep
  | all F => exact .all fun log k => by simp only [backList_map e.ok, e.ok]

def backSOut : SOut K' → Option (SOut K)
  | .unit => some .unit
  | .bool b => some (.bool b)
  | .num n => some (.num n)
  | .rat q => some (.rat q)
  | .log l => (backList e.back l).map .log

theorem backSOut_ok (o : SOut K) : backSOut e (mapSOut e.to o) = some o := by
  cases o with
  | log l => simp only [mapSOut, backSOut, backList_map e.ok, Option.map_some]
  | _ => rfl

/-- The container, for the larger type of keys.  A key of another type would be a fault in the model, or differ from all keys; it never comes to that. -/
def Plan.lift (P : Plan K) : Plan K' where
  cfg :=
    { store := P.cfg.store
      encP := fun k => match e.back k with | some k => P.cfg.encP k | none => 0
      encT := fun k => match e.back k with | some k => P.cfg.encT k | none => 0
      dec := fun p t => (P.cfg.dec p t).map e.to
      eq := fun a b => match e.back a, e.back b with | some a, some b => P.cfg.eq a b | _, _ => false
      digest := fun s k w d => match e.back k with | some k => P.cfg.digest s k w d | none => 0
      forget := P.cfg.forget }
  setHash := fun s a b d n => match e.back a, e.back b with | some a, some b => P.setHash s a b d n | _, _ => .error .wrongType
  modHash := fun s a b d n => match e.back a, e.back b with | some a, some b => P.modHash s a b d n | _, _ => .error .wrongType
  guard := P.guard
  lossy := P.lossy
  delSkip := P.delSkip

theorem Plan.lift_ok (P : Plan K) : PlanI e.to (P.lift e) P := by
  refine ⟨⟨rfl, fun k => ?_, fun k => ?_, fun _ _ => rfl, fun a b => ?_, fun s k w d => ?_, rfl⟩, fun s a b d n => ?_, fun s a b d n => ?_, rfl, rfl, rfl⟩ <;>
    simp only [Plan.lift, e.ok]

end

/-! ### The containers -/

/-- A map with keys `K` and values `V`, or a set with keys `K`. -/
inductive Box : Type → Type → Type 1
  | map {K V : Type} (z : Inhabited V) (P : Plan K) : Box K V
  | set {K : Type} (P : Plan K) : Box K Unit

namespace Box
variable {K V : Type}

/-- Its calls, what they return, and the keys for `Ptr` and `Mod`. -/
def Op : Box K V → Type
  | @map K V _ _ => MOp K V
  | @set K _ => SOp K

def Out : Box K V → Type
  | @map K V _ _ => MOut K V
  | @set K _ => SOut K

def X : Box K V → Type
  | @map K V _ _ => K
  | .set _ => Empty

/-- Calls that neither add nor remove keys. -/
def Calm : (b : Box K V) → b.Op → Prop
  | .map _ _ => MOp.Calm
  | .set _ => SOp.Calm

/-- Its methods, in a memory of its own types. -/
def kind (fuel : Nat) : (b : Box K V) → Kind K V b.Op b.Out b.X
  | .map z P => (P.map : MapImpl _ _).kind fuel
  | .set P => P.set.kind fuel

end Box

/-- A result of the smaller type. -/
def backM {A B K V : Type} (b : B → Option A) (x : M K V B) : M K V A := x >>= fun o => match b o with | some o => pure o | none => M.fail .wrongType

/-- The methods, in a memory with more types. -/
def Box.wide {K V K' V' : Type} (fuel : Nat) (e : Emb K K') (g : Emb V V') : (b : Box K V) → Kind K' V' b.Op b.Out b.X
  | .map z P =>
    letI : Inhabited V' := ⟨g.to default⟩
    let I : MapImpl K' V' := (P.lift e).map
    { exec := fun m op => backM (backOut e g) (I.exec fuel m (liftOp e g op))
      ptr := fun m x => I.Ptr fuel m (e.to x)
      all := I.AllWith fuel
      mod := fun m x f => I.ModWith fuel m (e.to x) f }
  | .set P =>
    { exec := fun m op => backM (backSOut e) ((P.lift e).setExec (g.to ()) fuel m (liftSOp e op))
      ptr := fun _ x => nomatch x
      all := fun m f u => deref m >>= fun h => scan (visitMapM (P.lift e).cfg fun u k _ => f u k .nil) fuel u ⟨.blk h, 0⟩ >>= fun r => pure r.1
      mod := fun _ x => nomatch x }

section
variable {K V K' V' : Type} {e : Emb K K'} {g : Emb V V'} {b : Box K V} {fuel : Nat}

theorem Img.back {A A' : Type} {h : A → A'} {bk : A' → Option A} (hb : ∀ a, bk (h a) = some a) {x : M K' V' A'} {y : M K V A}
    (hx : Img e.to g.to (fun a b => a = h b) x y) : Img e.to g.to Eq (backM bk x) y := by
  have h1 : Img e.to g.to Eq (backM bk x) (y >>= fun o => Pure.pure o) := Img.bind hx fun a b e => by rw [e, hb]; exact Img.pure rfl
  rw [show (y >>= fun o => Pure.pure o) = y from bind_pure_M y] at h1
  exact h1

theorem Box.wide_exec (b : Box K V) (m : Handle) (op : b.Op) : Img e.to g.to Eq ((b.wide fuel e g).exec m op) ((b.kind fuel).exec m op) := by
  cases b with
  | map z P => exact @Img.back _ _ _ _ e g _ _ _ _ (backOut_ok e g) _ _ (@PlanI.exec _ _ _ _ e.to g.to z ⟨g.to default⟩ _ _ (P.lift_ok e) rfl fuel m _ _ (liftOp_ok e g op))
  | set P =>
    have h : ∀ op : SOp K, Img e.to g.to (fun a b => a = mapSOut e.to b) ((P.lift e).setExec (g.to ()) fuel m (liftSOp e op)) (P.set.exec fuel m op) := by
      intro op
      rw [← Plan.setExec_eq]
      exact (P.lift_ok e).setExec () fuel m (liftSOp_ok e op)
    exact Img.back (backSOut_ok e) (h op)

theorem Box.wide_ptr (b : Box K V) (m : Handle) (x : b.X) : Img e.to g.to Eq ((b.wide fuel e g).ptr m x) ((b.kind fuel).ptr m x) := by
  cases b with
  | map z P => exact @PlanI.Ptr _ _ _ _ e.to g.to z ⟨g.to default⟩ _ _ (P.lift_ok e) fuel m x
  | set P => exact nomatch x

theorem Box.wide_all (b : Box K V) {U U' : Type} {Q : U' → U → Prop} {F' : U' → K' → Ptr → M K' V' (U' × Bool)} {F : U → K → Ptr → M K V (U × Bool)}
    (hF : ∀ u' u k p, Q u' u → Img e.to g.to (GoI Q) (F' u' (e.to k) p) (F u k p)) (m : Handle) {u' : U'} {u : U} (hu : Q u' u) :
    Img e.to g.to Q ((b.wide fuel e g).all m F' u') ((b.kind fuel).all m F u) := by
  cases b with
  | map z P => exact Img.iter (P.lift_ok e).cfg hF fuel m hu
  | set P => exact Img.iter (P.lift_ok e).cfg (F' := fun u k _ => F' u k .nil) (F := fun u k _ => F u k .nil) (fun u' u k p h => hF u' u k .nil h) fuel m hu

theorem Box.wide_mod (b : Box K V) {R R' : Type} {Q : R' → R → Prop} {F' : Ptr → Bool → M K' V' R'} {F : Ptr → Bool → M K V R}
    (hF : ∀ p b, Img e.to g.to Q (F' p b) (F p b)) (m : Handle) (x : b.X) : Img e.to g.to Q ((b.wide fuel e g).mod m x F') ((b.kind fuel).mod m x F) := by
  cases b with
  | map z P =>
    have hP := P.lift_ok e
    have cell : Img e.to g.to (fun a b => a.1 = b.1 ∧ Q a.2 b.2) (Amt.newKv (P.lift e).cfg (e.to x) (g.to default) >>= fun p => F' p false >>= fun r => Pure.pure (p, r))
        (Amt.newKv P.cfg x default >>= fun p => F p false >>= fun r => Pure.pure (p, r)) :=
      Img.seq (Img.newKv hP.cfg x default) fun p => Img.bind (hF p false) fun a b h => Img.pure ⟨rfl, h⟩
    refine Img.seq (Img.deref m) fun h => ?_
    exact Img.upsert hP.cfg ⟨fun s c d n => hP.modHash s x c d n, hP.guard, fun p => hF p true, cell, cell⟩ h fuel
  | set P => exact nomatch x

end

/-! ### Addresses do not matter -/

section
variable {K V : Type}

theorem Plan.blind [Inhabited V] (P : Plan K) : (P.map : MapImpl K V).Blind := by
  refine ⟨fun h k key v => ?_, fun h k key f => .mod ..⟩
  unfold Plan.map
  cases P.lossy
  · exact .set ..
  · exact .setArr ..

theorem InsR.addZ {h k : Nat} (c : Cfg K) (chash : Chash K) (z : V) (key : K) : InsR h k (addInsZ c chash z key) :=
  ⟨fun hp => Same.pure rfl, Same.cell c key z (), Same.cell c key z ()⟩

theorem Same.visitKey (c : Cfg K) {h k : Nat} {φ : Ren} {U : Type} (F : U → K → U × Bool) (u : U) {x y : Link} (hxy : LinkR φ x y) :
    Same h k φ EqR (visitMapM c (fun u k _ => Pure.pure (F u k)) u x : M K V (U × Bool)) (visitMapM c (fun u k _ => Pure.pure (F u k)) u y) :=
  Same.bind (Same.readKey c hxy) fun φ' l a b e => by cases e; exact Same.pure rfl

theorem Plan.setExec_same (P : Plan K) (z : V) (fuel : Nat) (op : SOp K) {h k : Nat} {φ : Ren} :
    Same h k φ EqR (P.setExec z fuel (some h) op) (P.setExec z fuel (some k) op) := by
  refine Same.of_root fun hr => ?_
  cases op with
  | has key =>
    refine Same.bind (RA := EqR) (Same.bind Same.derefs fun φ' l a b e => ?_) fun φ'' l a b e => by cases e; exact Same.pure rfl
    obtain ⟨rfl, rfl⟩ := e
    refine Same.bind (Same.lookup P.cfg (l _ _ hr) fuel key) fun φ' l p q hpq => Same.pure ?_
    cases p <;> cases q
    · rfl
    · exact hpq.elim
    · exact hpq.elim
    · rfl
  | add key =>
    refine Same.bind (RA := EqR) (Same.bind Same.derefs fun φ' l a b e => ?_) fun φ'' l a b e => Same.pure rfl
    obtain ⟨rfl, rfl⟩ := e
    exact Same.upsert P.cfg (l _ _ hr) fuel key (.addZ ..)
  | del key =>
    refine Same.bind (RA := EqR) (Same.bind Same.derefs fun φ' l a b e => ?_) fun φ'' l a b e => Same.pure rfl
    obtain ⟨rfl, rfl⟩ := e
    exact Same.delete P.cfg (l _ _ hr) fuel P.delSkip key
  | len =>
    refine Same.bind (RA := EqR) (Same.bind Same.getRoot fun φ' l a b e => ?_) fun φ'' l a b e => by cases e; exact Same.pure rfl
    cases e; exact Same.pure rfl
  | dep =>
    refine Same.bind (RA := EqR) (Same.bind Same.getRoot fun φ' l a b e => ?_) fun φ'' l a b e => by cases e; exact Same.pure rfl
    cases e
    exact Same.ite (fun _ => Same.pure rfl) fun _ => Same.pure rfl
  | all f =>
    refine Same.bind (RA := EqR) (Same.bind Same.derefs fun φ' l a b e => ?_) fun φ'' l a b e => by cases e; exact Same.pure rfl
    obtain ⟨rfl, rfl⟩ := e
    refine Same.bind (Same.scan (fun u x y hxy => Same.visitKey P.cfg (fun log k => (log ++ [k], f log k)) u hxy) fuel _ (RefR.at 0 (.blk (l _ _ hr)))) fun φ'' l a b e => ?_
    cases e; exact Same.pure rfl

theorem Plan.setExec_soft (P : Plan K) (z : V) (fuel : Nat) (m : Handle) {op : SOp K} (hop : SOp.Calm op) : SoftP (P.setExec z fuel m op) := by
  cases op with
  | add k => exact hop.elim
  | del k => exact hop.elim
  | has k => exact SoftP.bind (SoftP.bind (SoftP.reader (Reader.deref m)) fun h => SoftP.bind (SoftP.reader (Reader.lookup _ h fuel k)) fun _ => SoftP.pure _) fun _ => SoftP.pure _
  | len => exact SoftP.bind (SoftP.Len m) fun _ => SoftP.pure _
  | dep => exact SoftP.bind (SoftP.Dep m) fun _ => SoftP.pure _
  | all f =>
    refine SoftP.bind (SoftP.bind (SoftP.reader (Reader.deref m)) fun h => SoftP.bind (SoftP.scan (fun u x => ?_) _ _ _) fun _ => SoftP.pure _) fun _ => SoftP.pure _
    exact SoftP.bind (SoftP.reader (Reader.readKey _ x)) fun k => SoftP.pure _

theorem Same.back {A B : Type} {h k : Nat} {φ : Ren} (bk : B → Option A) {x y : M K V B} (hx : Same h k φ EqR x y) : Same h k φ EqR (backM bk x) (backM bk y) :=
  Same.bind hx fun φ' l a b e => by
    cases e
    split
    · exact Same.pure rfl
    · exact Same.fail _

theorem SoftP.fail {α : Type} (x : Fault) : SoftP (M.fail x : M K V α) := by intro s a s' e; cases e

theorem SoftP.back {A B : Type} (bk : B → Option A) {x : M K V B} (hx : SoftP x) : SoftP (backM bk x) :=
  SoftP.bind hx fun o => by
    split
    · exact SoftP.pure _
    · exact SoftP.fail _

end

section
variable {K V K' V' : Type} {e : Emb K K'} {g : Emb V V'} {fuel : Nat}

theorem Box.wide_ok (b : Box K V) : KindOk (b.wide fuel e g) := by
  cases b with
  | map z P =>
    letI : Inhabited V' := ⟨g.to default⟩
    have h := MapImpl.kind_ok (Plan.blind (V := V') (P.lift e)) fuel
    exact ⟨fun h1 k φ op => Same.back _ (h.exec h1 k φ _), fun h1 k φ x => h.ptr h1 k φ _, h.all, fun hf φ x ha => h.mod hf _ ha⟩
  | set P =>
    refine ⟨fun h1 k φ op => Same.back _ (Plan.setExec_same (P.lift e) _ fuel _), fun h1 k φ x => (x : Empty).elim, ?_, fun hf φ x ha => (x : Empty).elim⟩
    intro ι U c h k f g' hf φ en w u ha
    refine all_ok (f := fun u k _ => f u k .nil) (g := fun u k _ => g' u k .nil) (P.lift e).cfg fuel ?_ u ha
    intro φ en w u key p q ha' hpq
    exact hf u key ha' .nil

theorem liftOp_calm {op : MOp K V} (h : MOp.Calm op) : MOp.Calm (liftOp e g op) := by cases op <;> exact h

theorem liftSOp_calm {op : SOp K} (h : SOp.Calm op) : SOp.Calm (liftSOp e op) := by cases op <;> exact h

theorem Box.wide_loop (b : Box K V) : KindLoop (b.wide fuel e g) b.Calm := by
  cases b with
  | map z P =>
    letI : Inhabited V' := ⟨g.to default⟩
    have h := MapImpl.kind_loop ((P.lift e).map : MapImpl K' V') fuel
    exact ⟨h.loop, h.keeps, fun hf => h.yields hf, h.ptr, fun hc => SoftP.back _ (h.calm (liftOp_calm hc))⟩
  | set P =>
    refine ⟨?_, ?_, fun {R h Q x} => (x : Empty).elim, fun {h x} => (x : Empty).elim, fun hc => SoftP.back _ (Plan.setExec_soft _ _ _ _ (liftSOp_calm hc))⟩
    · intro U h f u s s' L hs hf
      exact all_loop (P.lift e).cfg (fun _ => .nil) fuel h hs hf
    · intro U h Q T f u u' s s' hq ht hf hp ee
      exact all_keeps (f := fun u k _ => f u k .nil) (P.lift e).cfg fuel h hq ht (fun s s' _ h => h ▸ hq s) (fun u k p => hf u k .nil) hp ee

end

/-! ### Many kinds -/

section
variable {ι : Type} [DecidableEq ι] {K V : ι → Type}

/-- A kind of container in the memory of all kinds: a call for another kind is a fault. -/
def Box.many (b : ∀ i, Box (K i) (V i)) (fuel : Nat) (i : ι) : Kind (Σ j, K j) (Σ j, V j) (Σ j, (b j).Op) (Σ j, (b j).Out) (Σ j, (b j).X) where
  exec m op := match pick i op with
    | some op => ((b i).wide fuel (Emb.at K i) (Emb.at V i)).exec m op >>= fun o => pure ⟨i, o⟩
    | none => M.fail .wrongType
  ptr m x := match pick i x with
    | some x => ((b i).wide fuel (Emb.at K i) (Emb.at V i)).ptr m x
    | none => M.fail .wrongType
  all := ((b i).wide fuel (Emb.at K i) (Emb.at V i)).all
  mod m x f := match pick i x with
    | some x => ((b i).wide fuel (Emb.at K i) (Emb.at V i)).mod m x f
    | none => M.fail .wrongType

variable (b : ∀ i, Box (K i) (V i)) (fuel : Nat)

theorem pick_none {F : ι → Type} {i : ι} {x : Σ j, F j} (h : x.1 ≠ i) : pick i x = none := dif_neg h

theorem Box.many_img (i : ι) : KindI i (Box.many b fuel i) ((b i).kind fuel) where
  exec m op := by
    simp only [Box.many, pick_mk]
    have h := (b i).wide_exec (e := Emb.at K i) (g := Emb.at V i) (fuel := fuel) m op
    have h1 : Img (Sigma.mk i) (Sigma.mk i) (fun (a : Σ j, (b j).Out) (o : (b i).Out) => a = ⟨i, o⟩)
        (((b i).wide fuel (Emb.at K i) (Emb.at V i)).exec m op >>= fun o => Pure.pure ⟨i, o⟩) (((b i).kind fuel).exec m op >>= fun o => Pure.pure o) :=
      Img.bind h fun a b e => by cases e; exact Img.pure rfl
    rw [show (((b i).kind fuel).exec m op >>= fun o => Pure.pure o) = ((b i).kind fuel).exec m op from bind_pure_M _] at h1
    exact h1
  ptr m x := by
    simp only [Box.many, pick_mk]
    exact (b i).wide_ptr (e := Emb.at K i) (g := Emb.at V i) m x
  all hF m u' u hu := (b i).wide_all (e := Emb.at K i) (g := Emb.at V i) hF m hu
  mod hF m x := by
    simp only [Box.many, pick_mk]
    exact (b i).wide_mod (e := Emb.at K i) (g := Emb.at V i) hF m x
  execOther m op s h := by simp only [Box.many, pick_none h]; rfl
  ptrOther m x s h := by simp only [Box.many, pick_none h]; rfl
  modOther m x F s h := by simp only [Box.many, pick_none h]; rfl

theorem Box.many_ok (i : ι) : KindOk (Box.many b fuel i) := by
  have h := (b i).wide_ok (e := Emb.at K i) (g := Emb.at V i) (fuel := fuel)
  refine ⟨fun h1 k φ op => ?_, fun h1 k φ x => ?_, h.all, fun hf φ x ha => ?_⟩
  · simp only [Box.many]
    split
    · exact Same.bind (h.exec h1 k φ _) fun φ' l a b e => by cases e; exact Same.pure rfl
    · exact Same.fail _
  · simp only [Box.many]
    split
    · exact h.ptr h1 k φ _
    · exact Same.fail _
  · simp only [Box.many]
    split
    · exact h.mod hf _ ha
    · exact SimW.fail _

/-- Calls that neither add nor remove keys. -/
def Box.CalmAt (op : Σ j, (b j).Op) : Prop := (b op.1).Calm op.2

theorem Box.many_loop (i : ι) : KindLoop (Box.many b fuel i) (Box.CalmAt b) := by
  have h := (b i).wide_loop (e := Emb.at K i) (g := Emb.at V i) (fuel := fuel)
  refine ⟨h.loop, h.keeps, fun {R h1 Q x f} hf => ?_, fun {h1 x} => ?_, fun {h1 op} hc => ?_⟩
  · simp only [Box.many]
    split
    · exact h.yields hf
    · intro s a s' e; cases e
  · simp only [Box.many]
    split
    · exact h.ptr
    · exact SoftP.fail _
  · simp only [Box.many]
    split
    · rename_i o ho
      have := pick_eq ho
      subst this
      exact SoftP.bind (h.calm hc) fun _ => SoftP.pure _
    · exact SoftP.fail _

/-- C67 for containers of any types: whatever a program does with any number of maps and sets, of any types, what it sees (its result, or its fault, or that
it hangs) is what it would see with every container in a memory of its own, with its own types. -/
theorem C67_mixed {R : Type} (p : TProg ι K V (fun i => (b i).Op) (fun i => (b i).Out) (fun i => (b i).X) R) (s : St (Σ j, K j) (Σ j, V j)) :
    outcome (outcome (run (Box.many b fuel) (erase p) EnvW.none s)) = outcome (runTyped (fun i => (b i).kind fuel) p TWorlds.none) := by
  rw [run_outcome (Box.many_ok b fuel)]
  exact (run_typed (Box.many_img b fuel) p RelT.none).outcome

end

/-! ### Iteration -/

section
variable {ι : Type} [DecidableEq ι] {K V Op Out X : ι → Type} {U : Type}

/-- Run the callback on entries, given by their keys and addresses, one after the other. -/
def loopTyped (κ : ∀ i, Kind (K i) (V i) (Op i) (Out i) (X i)) (i : ι) (c : Nat) (f : U → K i → Nat → TProg ι K V Op Out X (U × Bool)) :
    List (K i × Ptr) → U → TWorlds ι K V → Except Fault (U × TWorlds ι K V)
  | [], u, w => .ok (u, w)
  | e :: es, u, w => andThen (runTyped κ (f u e.1 w.ptrs.length) (w.hold c e.2)) fun r w' => if r.2 = true then loopTyped κ i c f es r.1 w' else .ok (r.1, w')

/-- A program that neither adds nor removes keys in the container `c`: of the calls of `c` only those that cannot.  Everything is allowed with other containers,
and assigning to values. -/
def AvoidsT (calm : ∀ i, Op i → Prop) (c : Nat) : {R : Type} → TProg ι K V Op Out X R → Prop
  | _, .ret _ => True
  | _, .stop _ => True
  | _, .new _ _ k => ∀ n, AvoidsT calm c (k n)
  | _, .call i c' op k => (c' = c → calm i op) ∧ ∀ o, AvoidsT calm c (k o)
  | _, .ptr _ _ _ k => ∀ p, AvoidsT calm c (k p)
  | _, .read _ _ k => ∀ v, AvoidsT calm c (k v)
  | _, .write _ _ _ k => AvoidsT calm c k
  | _, .all _ _ f _ k => (∀ u key n, AvoidsT calm c (f u key n)) ∧ ∀ u, AvoidsT calm c (k u)
  | _, .mod _ c' _ f k => c' ≠ c ∧ (∀ n b, AvoidsT calm c (f n b)) ∧ ∀ a, AvoidsT calm c (k a)

theorem AvoidsT.erase {calm : ∀ i, Op i → Prop} {c : Nat} {R : Type} (p : TProg ι K V Op Out X R) (h : AvoidsT calm c p) :
    Avoids (fun op : Σ j, Op j => calm op.1 op.2) c (Amt.erase p) := by
  induction p with
  | ret r => rw [Amt.erase, Avoids]; trivial
  | stop e => rw [Amt.erase, Avoids]; trivial
  | new i sd k ih => rw [Amt.erase, Avoids]; exact fun n => ih n (h n)
  | call i c' op k ih =>
    rw [Amt.erase, Avoids]
    refine ⟨h.1, fun o => ?_⟩
    split
    · exact ih _ (h.2 _)
    · trivial
  | ptr i c' x k ih => rw [Amt.erase, Avoids]; exact fun n => ih n (h n)
  | read i p k ih =>
    rw [Amt.erase, Avoids]
    intro v
    split
    · exact ih _ (h _)
    · trivial
  | write i p v k ih =>
    rw [Amt.erase, Avoids]
    intro v
    split
    · exact ih h
    · trivial
  | all i c' f u k ihf ihk =>
    rw [Amt.erase, Avoids]
    refine ⟨fun u key n => ?_, fun u => ihk u (h.2 u)⟩
    split
    · exact ihf _ _ _ (h.1 _ _ _)
    · trivial
  | mod i c' x f k ihf ihk => rw [Amt.erase, Avoids]; exact ⟨h.1, fun n b => ihf n b (h.2.1 n b), fun a => ihk a (h.2.2 a)⟩

/-- Each pointer that is kept is one into a container that there is. -/
def PtrsIn (v : TWorlds ι K V) : Prop := ∀ e ∈ v.ptrs, e.1 < v.objs.length

/-- The images of the memories. -/
def imageOf (v : TWorlds ι K V) : Worlds ι (Σ j, K j) (Σ j, V j) where
  objs := v.objs
  mem c := match v.objs[c]? with
    | some (i, _) => mapSt (Sigma.mk i) (Sigma.mk i) (v.mem c i)
    | none => St.init
  ptrs := v.ptrs

theorem imageOf_rel {v : TWorlds ι K V} (h : PtrsIn v) : RelT (imageOf v) v :=
  ⟨rfl, fun {c i h'} hc => by simp only [imageOf, hc], rfl, fun {j c p} hj => h _ (List.mem_of_getElem? hj)⟩

theorem OutT.andThen {A B : Type} {v : TWorlds ι K V} {x : Except Fault (A × Worlds ι (Σ j, K j) (Σ j, V j))} {y : Except Fault (A × TWorlds ι K V)} (h : OutT v x y)
    {G : A → Worlds ι (Σ j, K j) (Σ j, V j) → Except Fault (B × Worlds ι (Σ j, K j) (Σ j, V j))} {H : A → TWorlds ι K V → Except Fault (B × TWorlds ι K V)}
    (hg : ∀ a w v', RelT w v' → GrowT v v' → OutT v' (G a w) (H a v')) : OutT v (andThen x G) (andThen y H) := by
  cases x <;> cases y
  · exact h
  · exact h.elim
  · exact h.elim
  · rename_i a b
    obtain ⟨a, w⟩ := a
    obtain ⟨b, v'⟩ := b
    obtain ⟨h1, h2, h3⟩ := h
    cases h1
    exact (hg a w v' h2 h3).later h3

theorem loop_typed {κ' : ι → Kind (Σ j, K j) (Σ j, V j) (Σ j, Op j) (Σ j, Out j) (Σ j, X j)} {κ : ∀ i, Kind (K i) (V i) (Op i) (Out i) (X i)} (hκ : ∀ i, KindI i (κ' i) (κ i))
    {i : ι} {c : Nat} {o : ι × Nat} (f : U → K i → Nat → TProg ι K V Op Out X (U × Bool)) (L : List (K i × Ptr)) :
    ∀ {u : U} {w : Worlds ι (Σ j, K j) (Σ j, V j)} {v : TWorlds ι K V}, RelT w v → v.objs[c]? = some o →
      OutT v (loopOver κ' c (fun u key n => match pick i key with | some key => Amt.erase (f u key n) | none => .stop .wrongType) (L.map fun e => (⟨i, e.1⟩, e.2)) u w)
        (loopTyped κ i c f L u v) := by
  induction L with
  | nil => intro u w v hr hc; exact ⟨rfl, hr, fun _ _ h => h⟩
  | cons a L ih =>
    intro u w v hr hc
    rw [List.map_cons, loopOver, loopTyped]
    simp only [pick_mk]
    rw [hr.ptrs]
    refine OutT.andThen (OutT.later (fun _ _ h => h) (run_typed hκ _ (hr.hold hc a.2))) fun r w' v' hr' hg => ?_
    split
    · exact ih hr' (hg _ _ hc)
    · exact ⟨rfl, hr', fun _ _ h => h⟩

end

section
variable {ι : Type} [DecidableEq ι] {K V : ι → Type} {U : Type}

/-- C44 for containers of any types, on all histories: the callback of `All` on the container `c` does anything with other maps and sets, whatever their types, and reads and
assigns values of `c`.  If a plain iteration over `c` would end at that moment, with the entries `L`, then the program sees what it would see with the loop over `L`: the callback runs
once for each entry in order until it returns false. -/
theorem C44_mixed (b : ∀ i, Box (K i) (V i)) (fuel : Nat) {c : Nat} {i : ι} {h : Nat} {v : TWorlds ι K V} (hp : PtrsIn v) (hv : v.objs[c]? = some (i, h)) {L : List (K i × Ptr)}
    {t : St (K i) (V i)} (hL : ((b i).kind fuel).all (some h) (fun L k p => pure (L ++ [(k, p)], true)) [] (v.mem c i) = .ok (L, t)) {R : Type}
    {f : U → K i → Nat → TProg ι K V (fun i => (b i).Op) (fun i => (b i).Out) (fun i => (b i).X) (U × Bool)} (hf : ∀ u key n, AvoidsT (fun i => (b i).Calm) c (f u key n)) (u : U)
    (k : U → TProg ι K V (fun i => (b i).Op) (fun i => (b i).Out) (fun i => (b i).X) R) :
    outcome (runTyped (fun i => (b i).kind fuel) (.all i c f u k) v) =
      outcome (andThen (loopTyped (fun i => (b i).kind fuel) i c f L u v) fun u' v' => runTyped (fun i => (b i).kind fuel) (k u') v') := by
  have hr := imageOf_rel hp
  have hκ := Box.many_img b fuel
  have hw : (imageOf v).objs[c]? = some (i, h) := hv
  have h1 := (hκ i).all (P := fun (a : List ((Σ j, K j) × Ptr)) (L : List (K i × Ptr)) => a = L.map fun e => (⟨i, e.1⟩, e.2)) (F' := keepKeys) (F := keepKeys)
    (fun u' u k p hu => Img.pure ⟨by simp only [hu, List.map_append]; rfl, rfl⟩) (some h) (u' := []) (u := []) rfl (v.mem c i)
  have hL : ((b i).kind fuel).all (some h) keepKeys [] (v.mem c i) = .ok (L, t) := hL
  rw [hL] at h1
  cases hx : (Box.many b fuel i).all (some h) keepKeys [] (mapSt (Sigma.mk i) (Sigma.mk i) (v.mem c i)) with
  | error e => rw [hx] at h1; exact h1.elim
  | ok q =>
    obtain ⟨L', t'⟩ := q
    rw [hx] at h1
    obtain ⟨e1, _⟩ := h1
    subst e1
    rw [← hr.mem hv] at hx
    have h2 := all_between (κ := Box.many b fuel) (Box.many_loop b fuel i) (U := U) (u := u)
      (f := fun u key n => match pick i key with | some key => erase (f u key n) | none => .stop .wrongType) (fun u => erase (k u)) hw hx
      (Avoids.steady (Box.many_loop b fuel) (fun u key n => by
        split
        · exact (hf _ _ _).erase
        · trivial) (List.getElem?_eq_some_iff.1 hw).1)
    have h3 := run_typed hκ (.all i c f u k) hr
    rw [← h3.outcome]
    rw [erase]
    refine (congrArg outcome h2).trans ?_
    have h4 := OutT.andThen (loop_typed hκ f L (u := u) hr hv) (G := fun u' w' => runApart (Box.many b fuel) (erase (k u')) w')
      (H := fun u' v' => runTyped (fun i => (b i).kind fuel) (k u') v') fun a w v' hr' hg => run_typed hκ (k a) hr'
    exact h4.outcome

/-- What a program leaves is as `C44_mixed` wants it. -/
theorem reached_ptrs (b : ∀ i, Box (K i) (V i)) (fuel : Nat) {R : Type} (p : TProg ι K V (fun i => (b i).Op) (fun i => (b i).Out) (fun i => (b i).X) R) {r : R} {v : TWorlds ι K V}
    (h : runTyped (fun i => (b i).kind fuel) p TWorlds.none = .ok (r, v)) : PtrsIn v := by
  have h1 := run_typed (Box.many_img b fuel) p RelT.none
  rw [h] at h1
  cases hx : runApart (Box.many b fuel) (erase p) Worlds.none with
  | error e => rw [hx] at h1; exact h1.elim
  | ok q =>
    rw [hx] at h1
    intro x hx
    obtain ⟨j, hj⟩ := List.getElem?_of_mem hx
    exact h1.2.1.lt (p := x.2) hj

end

/-! ### A case -/

/-- An `IntMap` with strings as values (false), and a `StringSet` (true). -/
def exKey : Bool → Type | false => IntKey | true => ByteStr
def exVal : Bool → Type | false => List Nat | true => Unit
def exBox : (i : Bool) → Box (exKey i) (exVal i)
  | false => .map ⟨([] : List Nat)⟩ (Plan.int toyHash)
  | true => .set (Plan.string toyHash)

abbrev ExProg := TProg Bool exKey exVal (fun i => (exBox i).Op) (fun i => (exBox i).Out) (fun i => (exBox i).X)

/-- The callback adds a key made from the value to the set, and doubles the value. -/
def exGather (u : List Nat) (key : exKey false) (p : Nat) : ExProg (List Nat × Bool) :=
  .read false p fun (v : List Nat) => .call true 1 (.add (v.map UInt8.ofNat) : SOp ByteStr) fun _ => .write false p (v ++ v : List Nat) (.ret (u ++ v, true))

def exFillMany {R : Type} (k : ExProg R) : ExProg R :=
  .new false 0#64 fun a => .new true 1#64 fun _ => .call false a (.set 1#64 [5] : MOp IntKey (List Nat)) fun _ => .call false a (.set 17#64 [6, 7] : MOp IntKey (List Nat)) fun _ =>
    .call false a (.set 2#64 [5] : MOp IntKey (List Nat)) fun _ => k

/-- The values seen, the size of the set, and a value through a pointer. -/
def exTyped : ExProg (List Nat × Option (BitVec 64) × List Nat) :=
  exFillMany (.all false 0 exGather [] fun u => .call true 1 (.len : SOp ByteStr) fun (n : SOut ByteStr) => .ptr false 0 (17#64 : IntKey) fun
    | some q => .read false q fun (v : List Nat) => .ret (u, (match n with | .num n => some n | _ => none), v)
    | none => .stop .nilDeref)

example := C67_mixed exBox 256 exTyped St.init
example : (outcome (runTyped (fun i => (exBox i).kind 256) exTyped TWorlds.none)).toOption = some ([5, 6, 7, 5], some 2#64, [6, 7, 6, 7]) := by decide +kernel
example : (outcome (outcome (run (Box.many exBox 256) (erase exTyped) EnvW.none St.init))).toOption = some ([5, 6, 7, 5], some 2#64, [6, 7, 6, 7]) := by decide +kernel

-- A name used with another type than its own: an error, not a confusion of types.
example : (match runTyped (fun i => (exBox i).kind 256) (.new false 0#64 fun a => .call true a (.add [1] : SOp ByteStr) fun _ => .ret () : ExProg Unit) TWorlds.none with
    | .error e => some e | .ok _ => none) = some .wrongType := by decide +kernel

-- C44: the callback leaves the map alone, and what the iteration gets there.
example (u : List Nat) (key : exKey false) (n : Nat) : AvoidsT (fun i => (exBox i).Calm) 0 (exGather u key n) := fun v => ⟨nofun, fun _ => trivial⟩
example : ((runTyped (fun i => (exBox i).kind 256) (exFillMany (.ret ())) TWorlds.none).toOption.bind fun r =>
    (((exBox false).kind 256).all (some 0) (fun (L : List (IntKey × Ptr)) (k : IntKey) p => pure (L ++ [(k, p)], true)) [] (r.2.mem 0 false)).toOption.map fun q => (r.2.objs, q.1.map Prod.fst)) =
      some ([(false, 0), (true, 0)], [1#64, 17#64, 2#64]) := by decide +kernel

end Amt
