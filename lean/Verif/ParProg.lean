/-
Client programs (`Spec.Prog`) over the translated methods, as trees of memory accesses.
-/
import Verif.ParHist
import Verif.ParOwn
import Verif.GoProg

set_option linter.unusedVariables false
set_option linter.unusedSectionVars false

namespace Amt.Par
open Amt Spec
open Rn (mp)

/-! ### New -/

section
variable {K V : Type}

/-- `newRoot` (amt.go:72-76). -/
def New (sd : Seed) : T K V Handle := do
  match ← alloc (.links [{}]) with
  | .nil => .fail .nilDeref
  | .blk h => do
    modRoot h fun _ => { seed := sd }
    let q ← alloc (.links (List.replicate 16 {}))
    setPtr ⟨.blk h, 0⟩ q
    pure (some h)

theorem New_den (sd : Seed) : Den (K := K) (V := V) (New sd) (newRoot sd) := by
  refine ⟨?_⟩
  funext s
  have h1 : s.next ≠ s.next + 1 := Nat.ne_of_lt (Nat.lt_succ_self _)
  simp [New, alloc, modRoot, setPtr, T.denote, bind, M.bind, T.bind, pure, M.pure, Amt.alloc, Amt.modRoot, modLink, Amt.load, Amt.store, h1, Word.put, newRoot]
  funext a
  by_cases h2 : a = s.next <;> simp [h2]

theorem New_nat (f : Nat → Nat) (sd : Seed) : Nrel (K := K) (V := V) f (New sd) (New sd) := by
  refine Nrel.bind (Nrel.alloc' rfl) fun p => ?_
  cases p with
  | nil => exact .fail _
  | blk h =>
    refine Nrel.bind (Nrel.modRoot' rfl rfl) fun _ => Nrel.bind (Nrel.alloc' rfl) fun q => Nrel.bind (Nrel.setPtr rfl rfl) fun _ => Nrel.pure rfl

theorem Len_nat (f : Nat → Nat) (m : Handle) : Nrel (K := K) (V := V) f (Len m) (Len (mp f m)) := by
  cases m with
  | none => exact .ret _
  | some h => exact Nrel.bind (Nrel.getRoot' rfl) fun _ => Nrel.pure rfl

theorem Dep_nat (f : Nat → Nat) (m : Handle) : Nrel (K := K) (V := V) f (Dep m) (Dep (mp f m)) := by
  cases m with
  | none => exact .ret _
  | some h => exact Nrel.bind (Nrel.getRoot' rfl) fun _ => Nrel.ite Iff.rfl (Nrel.pure rfl) (Nrel.pure rfl)

end

/-! ### The methods, with callbacks that are programs -/

/-- As `Go.MapFull`. -/
structure MapTrees (K V : Type) : Type 1 where
  tree : MapTree K V
  Mod : {U : Type} → Nat → Handle → K → (U → Amt.Ptr → Bool → T K V U) → U → T K V U
  All : {U : Type} → Nat → Handle → (U → K → Amt.Ptr → T K V (U × Bool)) → U → T K V U

/-- As `Go.SetFull`. -/
structure SetTrees (K : Type) : Type 1 where
  tree : SetTree K
  All : {U : Type} → Nat → Handle → (U → K → T K Unit (U × Bool)) → U → T K Unit U

/-- As `Go.CodeKind`. -/
structure TreeKind (K V Op Out X : Type) : Type 1 where
  exec : Handle → List PathLink → Op → T K V (Out × List PathLink)
  ptr : Handle → X → T K V (Option Amt.Ptr)
  all : {U : Type} → Handle → (U → K → Amt.Ptr → T K V (U × Bool)) → U → T K V U
  mod : {U : Type} → Handle → X → (U → Amt.Ptr → Bool → T K V U) → U → T K V U

/-- As `Go.MapFull.kind`. -/
def MapTrees.kind {K V : Type} (G : MapTrees K V) (n : Nat) : TreeKind K V (MOp K V) (MOut K V) K where
  exec := G.tree.exec n
  ptr := fun m x => G.tree.Ptr n m x >>= fun p => pure (if p = .nil then none else some p)
  all := G.All n
  mod := G.Mod n

/-- As `Go.SetFull.kind`. -/
def SetTrees.kind {K : Type} (G : SetTrees K) (n : Nat) : TreeKind K Unit (SOp K) (SOut K) Empty where
  exec := G.tree.exec n
  ptr := fun _ x => x.elim
  all := fun m f u => G.All n m (fun u k => f u k .nil) u
  mod := fun _ x => x.elim

instance rnEnv {ι : Type} : Rn (Go.EnvG ι) := ⟨fun f e => ⟨e.objs.map fun o => (o.1, f o.2.1, mp f o.2.2), mp f e.ptrs⟩⟩

section
variable {ι K V Op Out X R : Type}

/-- As `Go.runGo`. -/
def runTree (C : ι → TreeKind K V Op Out X) : {R : Type} → Prog ι K V Op Out X R → Go.EnvG ι → T K V (R × Go.EnvG ι)
  | _, .ret r, e => pure (r, e)
  | _, .stop x, e => .fail x
  | _, .new i sd k, e => New sd >>= fun m =>
    match m with
    | none => .fail .nilDeref
    | some h => runTree C (k e.objs.length) (e.create i h)
  | _, .call c op k, e =>
    match e.objs[c]? with
    | none => .fail .nilDeref
    | some (i, h, path) => (C i).exec (some h) path op >>= fun o => runTree C (k o.1) (e.scratch c i h o.2)
  | _, .ptr c x k, e =>
    match e.objs[c]? with
    | none => .fail .nilDeref
    | some (i, h, _) => (C i).ptr (some h) x >>= fun p =>
      match p with
      | none => runTree C (k none) e
      | some p => runTree C (k (some e.ptrs.length)) (e.hold p)
  | _, .read p k, e =>
    match e.ptrs[p]? with
    | none => .fail .nilDeref
    | some p => loadKv p >>= fun kv => runTree C (k kv.2) e
  | _, .write p v k, e =>
    match e.ptrs[p]? with
    | none => .fail .nilDeref
    | some p => storeVal p v >>= fun _ => runTree C k e
  | _, .all c f u k, e =>
    match e.objs[c]? with
    | none => .fail .nilDeref
    | some (i, h, _) =>
      (C i).all (some h) (fun ue key p => runTree C (f ue.1 key ue.2.ptrs.length) (ue.2.hold p) >>= fun r => pure ((r.1.1, r.2), r.1.2)) (u, e) >>= fun r =>
        runTree C (k r.1) r.2
  | _, .mod c x f k, e =>
    match e.objs[c]? with
    | none => .fail .nilDeref
    | some (i, h, _) =>
      (C i).mod (some h) x (fun _ p b => runTree C (f e.ptrs.length b) (e.hold p) >>= fun r => pure (some r)) none >>= fun r =>
        match r with
        | none => .fail .nilDeref
        | some r => runTree C (k r.1) r.2

/-- What a client program returns. -/
def client (C : ι → TreeKind K V Op Out X) (p : Prog ι K V Op Out X R) : T K V R := do
  let r ← runTree C p Go.EnvG.none
  pure r.1

/-- The trees are those of the translated methods. -/
structure DenKind (C : TreeKind K V Op Out X) (C' : Go.CodeKind K V Op Out X) : Prop where
  exec : ∀ m path op, Den (C.exec m path op) (C'.exec m path op)
  ptr : ∀ m x, Den (C.ptr m x) (C'.ptr m x)
  all : ∀ {U : Type} m (cb : U → K → Amt.Ptr → T K V (U × Bool)) (cb' : U → K → Amt.Ptr → M K V (U × Bool)) u, (∀ a b c, Den (cb a b c) (cb' a b c)) →
    Den (C.all m cb u) (C'.all m cb' u)
  mod : ∀ {U : Type} m x (cb : U → Amt.Ptr → Bool → T K V U) (cb' : U → Amt.Ptr → Bool → M K V U) u, (∀ a b c, Den (cb a b c) (cb' a b c)) →
    Den (C.mod m x cb u) (C'.mod m x cb' u)

theorem runTree_den {C : ι → TreeKind K V Op Out X} {C' : ι → Go.CodeKind K V Op Out X} (hC : ∀ i, DenKind (C i) (C' i)) (p : Prog ι K V Op Out X R) :
    ∀ e, Den (runTree C p e) (Go.runGo C' p e) := by
  induction p with
  | ret r => intro e; exact Den.pure _
  | stop x => intro e; exact Den.fail _
  | new i sd k ih =>
    intro e
    refine Den.bind (New_den sd) fun m => ?_
    cases m with
    | none => exact Den.fail _
    | some h => exact ih _ _
  | call c op k ih =>
    intro e
    unfold runTree Go.runGo
    rcases e.objs[c]? with _ | ⟨i, h, path⟩
    · exact Den.fail _
    · exact Den.bind ((hC i).exec _ _ _) fun o => ih _ _
  | ptr c x k ih =>
    intro e
    unfold runTree Go.runGo
    rcases e.objs[c]? with _ | ⟨i, h, path⟩
    · exact Den.fail _
    · refine Den.bind ((hC i).ptr _ _) fun o => ?_
      cases o with
      | none => exact ih _ _
      | some p => exact ih _ _
  | read p k ih =>
    intro e
    unfold runTree Go.runGo
    rcases e.ptrs[p]? with _ | q
    · exact Den.fail _
    · exact Den.bind (Den.loadKv _) fun o => ih _ _
  | write p v k ih =>
    intro e
    unfold runTree Go.runGo
    rcases e.ptrs[p]? with _ | q
    · exact Den.fail _
    · exact Den.bind (Den.storeVal _ _) fun o => ih _
  | all c f u k ihf ihk =>
    intro e
    unfold runTree Go.runGo
    rcases e.objs[c]? with _ | ⟨i, h, path⟩
    · exact Den.fail _
    · exact Den.bind ((hC i).all _ _ _ _ fun ue key p => Den.bind (ihf _ _ _ _) fun r => Den.pure _) fun r => ihk _ _
  | mod c x f k ihf ihk =>
    intro e
    unfold runTree Go.runGo
    rcases e.objs[c]? with _ | ⟨i, h, path⟩
    · exact Den.fail _
    · refine Den.bind ((hC i).mod _ _ _ _ _ fun ue p b => Den.bind (ihf _ _ _) fun r => Den.pure _) fun r => ?_
      cases r with
      | none => exact Den.fail _
      | some r => exact ihk _ _

/-- Addresses do not matter to the methods. -/
structure NatKind (C : TreeKind K V Op Out X) : Prop where
  exec : ∀ f m path op, Nrel f (C.exec m path op) (C.exec (mp f m) (mp f path) op)
  ptr : ∀ f m x, Nrel f (C.ptr m x) (C.ptr (mp f m) x)
  all : ∀ f {U : Type} [Rn U] m (cb cb' : U → K → Amt.Ptr → T K V (U × Bool)) u, (∀ a b c, Nrel f (cb a b c) (cb' (mp f a) b (mp f c))) →
    Nrel f (C.all m cb u) (C.all (mp f m) cb' (mp f u))
  mod : ∀ f {U : Type} [Rn U] m x (cb cb' : U → Amt.Ptr → Bool → T K V U) u, (∀ a b c, Nrel f (cb a b c) (cb' (mp f a) (mp f b) c)) →
    Nrel f (C.mod m x cb u) (C.mod (mp f m) x cb' (mp f u))

variable {f : Nat → Nat}

theorem env_objs (e : Go.EnvG ι) (c : Nat) : (mp f e).objs[c]? = (e.objs[c]?).map fun o => (o.1, f o.2.1, mp f o.2.2) := List.getElem?_map ..
theorem env_ptrs (e : Go.EnvG ι) (c : Nat) : (mp f e).ptrs[c]? = (e.ptrs[c]?).map (mp f) := List.getElem?_map ..
theorem env_lenO (e : Go.EnvG ι) : (mp f e).objs.length = e.objs.length := List.length_map ..
theorem env_lenP (e : Go.EnvG ι) : (mp f e).ptrs.length = e.ptrs.length := List.length_map ..
theorem env_create (e : Go.EnvG ι) (i : ι) (h : Nat) : (mp f e).create i (f h) = mp f (e.create i h) := by
  show (⟨_, _⟩ : Go.EnvG ι) = ⟨_, _⟩
  congr 1
  show e.objs.map _ ++ [_] = (e.objs ++ [_]).map _
  rw [List.map_append]; rfl
theorem env_hold (e : Go.EnvG ι) (p : Ptr) : (mp f e).hold (mp f p) = mp f (e.hold p) := by
  show (⟨_, _⟩ : Go.EnvG ι) = ⟨_, _⟩
  congr 1
  show e.ptrs.map _ ++ [_] = (e.ptrs ++ [_]).map _
  rw [List.map_append]; rfl
theorem env_scratch (e : Go.EnvG ι) (c : Nat) (i : ι) (h : Nat) (path : List PathLink) : (mp f e).scratch c i (f h) (mp f path) = mp f (e.scratch c i h path) := by
  show (⟨_, _⟩ : Go.EnvG ι) = ⟨_, _⟩
  congr 1
  show (e.objs.map _).set c _ = (e.objs.set c _).map _
  rw [List.map_set]

/-- Addresses do not matter to client programs. -/
theorem runTree_nat {C : ι → TreeKind K V Op Out X} (hC : ∀ i, NatKind (C i)) (p : Prog ι K V Op Out X R) :
    ∀ e, Nrel f (runTree C p e) (runTree C p (mp f e)) := by
  induction p with
  | ret r => intro e; exact Nrel.pure rfl
  | stop x => intro e; exact .fail _
  | new i sd k ih =>
    intro e
    refine Nrel.bind (New_nat f sd) fun m => ?_
    cases m with
    | none => exact .fail _
    | some h =>
      show Nrel f _ (runTree C (k (mp f e).objs.length) ((mp f e).create i (f h)))
      rw [env_lenO, env_create]
      exact ih _ _
  | call c op k ih =>
    intro e
    unfold runTree
    rw [env_objs]
    rcases e.objs[c]? with _ | ⟨i, h, path⟩
    · exact .fail _
    · refine Nrel.bind ((hC i).exec f (some h) path op) fun o => ?_
      show Nrel f _ (runTree C (k o.1) ((mp f e).scratch c i (f h) (mp f o.2)))
      rw [env_scratch]
      exact ih _ _
  | ptr c x k ih =>
    intro e
    unfold runTree
    rw [env_objs]
    rcases e.objs[c]? with _ | ⟨i, h, path⟩
    · exact .fail _
    · refine Nrel.bind ((hC i).ptr f (some h) x) fun o => ?_
      cases o with
      | none => exact ih _ _
      | some p =>
        show Nrel f _ (runTree C (k (some (mp f e).ptrs.length)) ((mp f e).hold (mp f p)))
        rw [env_lenP, env_hold]
        exact ih _ _
  | read p k ih =>
    intro e
    unfold runTree
    rw [env_ptrs]
    rcases e.ptrs[p]? with _ | q
    · exact .fail _
    · exact .loadKv q fun o => ih _ _
  | write p v k ih =>
    intro e
    unfold runTree
    rw [env_ptrs]
    rcases e.ptrs[p]? with _ | q
    · exact .fail _
    · exact Nrel.bind (Nrel.storeVal' rfl rfl) fun o => ih _
  | @all U R c g u k ihf ihk =>
    intro e
    unfold runTree
    rw [env_objs]
    rcases e.objs[c]? with _ | ⟨i, h, path⟩
    · exact .fail _
    · refine Nrel.bind ((hC i).all f (some h) _ _ (u, e) fun ue key p => Nrel.bind ?_ fun r => ?_) fun r => ihk _ _
      · show Nrel f _ (runTree C (g ue.1 key (mp f ue.2).ptrs.length) ((mp f ue.2).hold (mp f p)))
        rw [env_lenP, env_hold]
        exact ihf _ _ _ _
      · exact Nrel.pure rfl
  | @mod A R c x g k ihf ihk =>
    intro e
    unfold runTree
    rw [env_objs]
    rcases e.objs[c]? with _ | ⟨i, h, path⟩
    · exact .fail _
    · refine Nrel.bind ((hC i).mod f (some h) x _ _ none fun ue p b => Nrel.bind ?_ fun r => ?_) fun r => ?_
      · show Nrel f _ (runTree C (g (mp f e).ptrs.length b) ((mp f e).hold (mp f p)))
        rw [env_lenP, env_hold]
        exact ihf _ _ _
      · exact Nrel.pure rfl
      · cases r with
        | none => exact .fail _
        | some r => exact ihk _ _

theorem client_natural {C : ι → TreeKind K V Op Out X} (hC : ∀ i, NatKind (C i)) (p : Prog ι K V Op Out X R) : Natural (client C p) := fun f =>
  Nrel.bind (runTree_nat hC p Go.EnvG.none) fun r => Nrel.pure rfl

end

/-! ### Addresses do not matter to the methods -/

/-- Addresses do not matter. -/
structure MapTrees.Movable {K V : Type} (G : MapTrees K V) : Prop where
  ptr : ∀ f n m k, Nrel f (G.tree.Ptr n m k) (G.tree.Ptr n (mp f m) k)
  get : ∀ f n m k, Nrel f (G.tree.Get n m k) (G.tree.Get n (mp f m) k)
  val : ∀ f n m k, Nrel f (G.tree.Val n m k) (G.tree.Val n (mp f m) k)
  set : ∀ f n m k v, Nrel f (G.tree.Set n m k v) (G.tree.Set n (mp f m) k v)
  mod : ∀ f {U : Type} [Rn U] n m k (cb cb' : U → Amt.Ptr → Bool → T K V U) u, (∀ a b c, Nrel f (cb a b c) (cb' (mp f a) (mp f b) c)) →
    Nrel f (G.Mod n m k cb u) (G.Mod n (mp f m) k cb' (mp f u))
  del : ∀ f n m k p, Nrel f (G.tree.Del n m k p) (G.tree.Del n (mp f m) k (mp f p))
  all : ∀ f {U : Type} [Rn U] n m (cb cb' : U → K → Amt.Ptr → T K V (U × Bool)) u, (∀ a b c, Nrel f (cb a b c) (cb' (mp f a) b (mp f c))) →
    Nrel f (G.All n m cb u) (G.All n (mp f m) cb' (mp f u))
  modTree : ∀ n m k cb u, G.tree.Mod n m k cb u = G.Mod n m k cb u
  allTree : ∀ n m cb u, G.tree.All n m cb u = G.All n m cb u

structure SetTrees.Movable {K : Type} (G : SetTrees K) : Prop where
  has : ∀ f n m k, Nrel f (G.tree.Has n m k) (G.tree.Has n (mp f m) k)
  add : ∀ f n m k, Nrel f (G.tree.Add n m k) (G.tree.Add n (mp f m) k)
  del : ∀ f n m k p, Nrel f (G.tree.Del n m k p) (G.tree.Del n (mp f m) k (mp f p))
  all : ∀ f {U : Type} [Rn U] n m (cb cb' : U → K → T K Unit (U × Bool)) u, (∀ a b, Nrel f (cb a b) (cb' (mp f a) b)) →
    Nrel f (G.All n m cb u) (G.All n (mp f m) cb' (mp f u))
  allTree : ∀ n m cb u, G.tree.All n m cb u = G.All n m cb u

section
variable {K V : Type} {f : Nat → Nat}

theorem modCb_nat (g : V → Bool → V) (a : List (V × Bool)) (b : Ptr) (c : Bool) : @Nrel K V _ rnOther f (modCb g a b c) (modCb g a (mp f b) c) :=
  letI : Rn (List (V × Bool)) := rnOther
  Nrel.bind (Nrel.kvVal (fun _ => rfl) rfl) fun _ => Nrel.bind (Nrel.storeVal' rfl rfl) fun _ => Nrel.pure rfl

theorem allCb_nat (g : List (K × V) → K → V → V × Bool) (a : List (K × V)) (b : K) (c : Ptr) : @Nrel K V _ (@rnProd _ _ rnOther rnOther) f (allCb g a b c) (allCb g a b (mp f c)) :=
  letI : Rn (List (K × V)) := rnOther
  Nrel.bind (Nrel.kvVal (fun _ => rfl) rfl) fun _ => Nrel.bind (Nrel.storeVal' rfl rfl) fun _ => Nrel.pure rfl

theorem MapTrees.Movable.exec {G : MapTrees K V} (h : G.Movable) (n : Nat) (m : Handle) (path : List PathLink) (op : MOp K V) :
    Nrel f (G.tree.exec n m path op) (G.tree.exec n (mp f m) (mp f path) op) := by
  cases op with
  | get k => exact Nrel.bind (h.get f n m k) fun _ => Nrel.pure rfl
  | val k => exact Nrel.bind (h.val f n m k) fun _ => Nrel.pure rfl
  | ptr k =>
    refine Nrel.bind (h.ptr f n m k) fun p => Nrel.ite (by rw [mp_nil]) (Nrel.pure rfl) (Nrel.bind (Nrel.kvVal (fun _ => rfl) rfl) fun _ => Nrel.pure rfl)
  | set k v => exact Nrel.bind (h.set f n m k v) fun _ => Nrel.pure rfl
  | mod k g =>
    letI : Rn (List (V × Bool)) := rnOther
    show Nrel f (G.tree.Mod n m k (modCb g) [] >>= fun l => pure (MOut.calls l, path)) (G.tree.Mod n (mp f m) k (modCb g) [] >>= fun l => pure (MOut.calls l, mp f path))
    rw [h.modTree, h.modTree]
    exact Nrel.bind (h.mod f n m k _ _ _ fun a b c => modCb_nat g a b c) fun _ => Nrel.pure rfl
  | del k => exact Nrel.bind (h.del f n m k _) fun _ => Nrel.pure rfl
  | len => exact Nrel.bind (Len_nat f m) fun _ => Nrel.pure rfl
  | dep => exact Nrel.bind (Dep_nat f m) fun _ => Nrel.pure rfl
  | write k v => exact Nrel.bind (h.ptr f n m k) fun _ => Nrel.ite (by rw [mp_nil]) (Nrel.pure rfl) (Nrel.bind (Nrel.storeVal' rfl rfl) fun _ => Nrel.pure rfl)
  | all g =>
    letI : Rn (List (K × V)) := rnOther
    show Nrel f (G.tree.All n m (allCb g) [] >>= fun l => pure (MOut.log l, path)) (G.tree.All n (mp f m) (allCb g) [] >>= fun l => pure (MOut.log l, mp f path))
    rw [h.allTree, h.allTree]
    exact Nrel.bind (h.all f n m _ _ _ fun a b c => allCb_nat g a b c) fun _ => Nrel.pure rfl

theorem SetTrees.Movable.exec {G : SetTrees K} (h : G.Movable) (n : Nat) (m : Handle) (path : List PathLink) (op : SOp K) :
    Nrel f (G.tree.exec n m path op) (G.tree.exec n (mp f m) (mp f path) op) := by
  cases op with
  | has k => exact Nrel.bind (h.has f n m k) fun _ => Nrel.pure rfl
  | add k => exact Nrel.bind (h.add f n m k) fun _ => Nrel.pure rfl
  | del k => exact Nrel.bind (h.del f n m k _) fun _ => Nrel.pure rfl
  | len => exact Nrel.bind (Len_nat f m) fun _ => Nrel.pure rfl
  | dep => exact Nrel.bind (Dep_nat f m) fun _ => Nrel.pure rfl
  | all g =>
    letI : Rn (List K) := rnOther
    show Nrel f (G.tree.All n m (allCbS g) [] >>= fun l => pure (SOut.log l, path)) (G.tree.All n (mp f m) (allCbS g) [] >>= fun l => pure (SOut.log l, mp f path))
    rw [h.allTree, h.allTree]
    exact Nrel.bind (h.all f n m _ _ _ fun a b => Nrel.pure rfl) fun _ => Nrel.pure rfl

theorem MapTrees.Movable.kind {G : MapTrees K V} (h : G.Movable) (n : Nat) : NatKind (G.kind n) where
  exec f m path op := h.exec n m path op
  ptr f m x := Nrel.bind (h.ptr f n m x) fun p => Nrel.pure (by cases p <;> rfl)
  all f U _ m cb cb' u hcb := h.all f n m cb cb' u hcb
  mod f U _ m x cb cb' u hcb := h.mod f n m x cb cb' u hcb

theorem SetTrees.Movable.kind {G : SetTrees K} (h : G.Movable) (n : Nat) : NatKind (G.kind n) where
  exec f m path op := h.exec n m path op
  ptr f m x := x.elim
  all f U _ m cb cb' u hcb := h.all f n m _ _ u fun a b => hcb a b .nil
  mod f U _ m x := x.elim

/-- The trees are those of the translated methods. -/
structure MapTrees.Of [Inhabited V] (G : MapTrees K V) (C : Go.MapFull K V) : Prop where
  tree : G.tree.Of C.code
  mod : ∀ {U : Type} n m k (cb : U → Amt.Ptr → Bool → T K V U) cb' u, (∀ a b c, Den (cb a b c) (cb' a b c)) → Den (G.Mod n m k cb u) (C.Mod n m k cb' u)
  all : ∀ {U : Type} n m (cb : U → K → Amt.Ptr → T K V (U × Bool)) cb' u, (∀ a b c, Den (cb a b c) (cb' a b c)) → Den (G.All n m cb u) (C.All n m cb' u)

structure SetTrees.Of (G : SetTrees K) (C : Go.SetFull K) : Prop where
  tree : G.tree.Of C.code
  all : ∀ {U : Type} n m (cb : U → K → T K Unit (U × Bool)) cb' u, (∀ a b, Den (cb a b) (cb' a b)) → Den (G.All n m cb u) (C.All n m cb' u)

theorem MapTrees.Of.kind [Inhabited V] {G : MapTrees K V} {C : Go.MapFull K V} (h : G.Of C) (n : Nat) : DenKind (G.kind n) (C.kind n) where
  exec m path op := h.tree.exec n m path op
  ptr m x := Den.bind (h.tree.ptr n m x) fun p => Den.pure _
  all m cb cb' u hcb := h.all n m cb cb' u hcb
  mod m x cb cb' u hcb := h.mod n m x cb cb' u hcb

theorem SetTrees.Of.kind {G : SetTrees K} {C : Go.SetFull K} (h : G.Of C) (n : Nat) : DenKind (G.kind n) (C.kind n) where
  exec m path op := h.tree.exec n m path op
  ptr m x := x.elim
  all m cb cb' u hcb := h.all n m _ _ u fun a b => hcb a b .nil
  mod m x := x.elim

end

/-! ### The ten containers -/

section
variable {K V : Type} [Inhabited V]

/-- StringMap with its callbacks. -/
def stringMapFull (sum : Maphash) : MapTrees ByteStr V := ⟨stringMap sum, StringMap.Mod sum, StringMap.All⟩

theorem stringMapFull_of (sum : Maphash) : (stringMapFull (V := V) sum).Of ⟨Go.stringMap sum, Go.StringMap.Mod sum, Go.StringMap.All⟩ where
  tree := stringMap_of sum
  mod n m k cb cb' u h := StringMap.Mod_den sum n m k h u
  all n m cb cb' u h := StringMap.All_den n m h u

theorem stringMapFull_nat (sum : Maphash) : (stringMapFull (V := V) sum).Movable where
  ptr f n m k := StringMap.Ptr_nat f sum n m k
  get f n m k := StringMap.Get_nat f sum n m k
  val f n m k := StringMap.Val_nat f sum n m k
  set f n m k v := StringMap.Set_nat f sum n m k v
  mod f U _ n m k cb cb' u h := StringMap.Mod_nat f sum n m k h u
  del f n m k p := StringMap.Del_nat f sum n m k p
  all f U _ n m cb cb' u h := StringMap.All_nat f n m h u
  modTree _ _ _ _ _ := rfl
  allTree _ _ _ _ := rfl

/-- BytesMap with its callbacks. -/
def bytesMapFull (sum : Maphash) : MapTrees ByteStr V := ⟨bytesMap sum, BytesMap.Mod sum, BytesMap.All⟩

theorem bytesMapFull_of (sum : Maphash) : (bytesMapFull (V := V) sum).Of ⟨Go.bytesMap sum, Go.BytesMap.Mod sum, Go.BytesMap.All⟩ where
  tree := bytesMap_of sum
  mod n m k cb cb' u h := BytesMap.Mod_den sum n m k h u
  all n m cb cb' u h := BytesMap.All_den n m h u

theorem bytesMapFull_nat (sum : Maphash) : (bytesMapFull (V := V) sum).Movable where
  ptr f n m k := BytesMap.Ptr_nat f sum n m k
  get f n m k := BytesMap.Get_nat f sum n m k
  val f n m k := BytesMap.Val_nat f sum n m k
  set f n m k v := BytesMap.Set_nat f sum n m k v
  mod f U _ n m k cb cb' u h := BytesMap.Mod_nat f sum n m k h u
  del f n m k p := BytesMap.Del_nat f sum n m k p
  all f U _ n m cb cb' u h := BytesMap.All_nat f n m h u
  modTree _ _ _ _ _ := rfl
  allTree _ _ _ _ := rfl

/-- ArrMap with its callbacks. -/
def arrMapFull [DecidableEq K] (sum : Maphash) (kb : K → List UInt8) : MapTrees K V := ⟨arrMap sum kb, ArrMap.Mod sum kb, ArrMap.All⟩

theorem arrMapFull_of [DecidableEq K] (sum : Maphash) (kb : K → List UInt8) : (arrMapFull (V := V) sum kb).Of ⟨Go.arrMap sum kb, Go.ArrMap.Mod sum kb, Go.ArrMap.All⟩ where
  tree := arrMap_of sum kb
  mod n m k cb cb' u h := ArrMap.Mod_den sum kb n m k h u
  all n m cb cb' u h := ArrMap.All_den n m h u

theorem arrMapFull_nat [DecidableEq K] (sum : Maphash) (kb : K → List UInt8) : (arrMapFull (V := V) sum kb).Movable where
  ptr f n m k := ArrMap.Ptr_nat f sum kb n m k
  get f n m k := ArrMap.Get_nat f sum kb n m k
  val f n m k := ArrMap.Val_nat f sum kb n m k
  set f n m k v := ArrMap.Set_nat f sum kb n m k v
  mod f U _ n m k cb cb' u h := ArrMap.Mod_nat f sum kb n m k h u
  del f n m k p := ArrMap.Del_nat f sum kb n m k p
  all f U _ n m cb cb' u h := ArrMap.All_nat f n m h u
  modTree _ _ _ _ _ := rfl
  allTree _ _ _ _ := rfl

/-- IntMap with its callbacks. -/
def intMapFull (sum : Maphash) : MapTrees IntKey V := ⟨intMap sum, IntMap.Mod sum, IntMap.All⟩

theorem intMapFull_of (sum : Maphash) : (intMapFull (V := V) sum).Of ⟨Go.intMap sum, Go.IntMap.Mod sum, Go.IntMap.All⟩ where
  tree := intMap_of sum
  mod n m k cb cb' u h := IntMap.Mod_den sum n m k h u
  all n m cb cb' u h := IntMap.All_den n m h u

theorem intMapFull_nat (sum : Maphash) : (intMapFull (V := V) sum).Movable where
  ptr f n m k := IntMap.Ptr_nat f sum n m k
  get f n m k := IntMap.Get_nat f sum n m k
  val f n m k := IntMap.Val_nat f sum n m k
  set f n m k v := IntMap.Set_nat f sum n m k v
  mod f U _ n m k cb cb' u h := IntMap.Mod_nat f sum n m k h u
  del f n m k p := IntMap.Del_nat f sum n m k p
  all f U _ n m cb cb' u h := IntMap.All_nat f n m h u
  modTree _ _ _ _ _ := rfl
  allTree _ _ _ _ := rfl

/-- Map with its callbacks. -/
def mapFull (I : KeyImpl K) : MapTrees K V := ⟨map I, Map.Mod I, Map.All⟩

theorem mapFull_of (I : KeyImpl K) : (mapFull (V := V) I).Of ⟨Go.map I, Go.Map.Mod I, Go.Map.All⟩ where
  tree := map_of I
  mod n m k cb cb' u h := Map.Mod_den I n m k h u
  all n m cb cb' u h := Map.All_den n m h u

theorem mapFull_nat (I : KeyImpl K) : (mapFull (V := V) I).Movable where
  ptr f n m k := Map.Ptr_nat f I n m k
  get f n m k := Map.Get_nat f I n m k
  val f n m k := Map.Val_nat f I n m k
  set f n m k v := Map.Set_nat f I n m k v
  mod f U _ n m k cb cb' u h := Map.Mod_nat f I n m k h u
  del f n m k p := Map.Del_nat f I n m k p
  all f U _ n m cb cb' u h := Map.All_nat f n m h u
  modTree _ _ _ _ _ := rfl
  allTree _ _ _ _ := rfl

/-- StringSet with its callbacks. -/
def stringSetFull (sum : Maphash) : SetTrees ByteStr := ⟨stringSet sum, StringSet.All⟩

theorem stringSetFull_of (sum : Maphash) : (stringSetFull sum).Of ⟨Go.stringSet sum, Go.StringSet.All⟩ where
  tree := stringSet_of sum
  all n m cb cb' u h := StringSet.All_den n m h u

theorem stringSetFull_nat (sum : Maphash) : (stringSetFull sum).Movable where
  has f n m k := StringSet.Has_nat f sum n m k
  add f n m k := StringSet.Add_nat f sum n m k
  del f n m k p := StringSet.Del_nat f sum n m k p
  all f U _ n m cb cb' u h := StringSet.All_nat f n m h u
  allTree _ _ _ _ := rfl

/-- BytesSet with its callbacks. -/
def bytesSetFull (sum : Maphash) : SetTrees ByteStr := ⟨bytesSet sum, BytesSet.All⟩

theorem bytesSetFull_of (sum : Maphash) : (bytesSetFull sum).Of ⟨Go.bytesSet sum, Go.BytesSet.All⟩ where
  tree := bytesSet_of sum
  all n m cb cb' u h := BytesSet.All_den n m h u

theorem bytesSetFull_nat (sum : Maphash) : (bytesSetFull sum).Movable where
  has f n m k := BytesSet.Has_nat f sum n m k
  add f n m k := BytesSet.Add_nat f sum n m k
  del f n m k p := BytesSet.Del_nat f sum n m k p
  all f U _ n m cb cb' u h := BytesSet.All_nat f n m h u
  allTree _ _ _ _ := rfl

/-- ArrSet with its callbacks. -/
def arrSetFull [DecidableEq K] (sum : Maphash) (kb : K → List UInt8) : SetTrees K := ⟨arrSet sum kb, ArrSet.All⟩

theorem arrSetFull_of [DecidableEq K] (sum : Maphash) (kb : K → List UInt8) : (arrSetFull sum kb).Of ⟨Go.arrSet sum kb, Go.ArrSet.All⟩ where
  tree := arrSet_of sum kb
  all n m cb cb' u h := ArrSet.All_den n m h u

theorem arrSetFull_nat [DecidableEq K] (sum : Maphash) (kb : K → List UInt8) : (arrSetFull sum kb).Movable where
  has f n m k := ArrSet.Has_nat f sum kb n m k
  add f n m k := ArrSet.Add_nat f sum kb n m k
  del f n m k p := ArrSet.Del_nat f sum kb n m k p
  all f U _ n m cb cb' u h := ArrSet.All_nat f n m h u
  allTree _ _ _ _ := rfl

/-- IntSet with its callbacks. -/
def intSetFull (sum : Maphash) : SetTrees IntKey := ⟨intSet sum, IntSet.All⟩

theorem intSetFull_of (sum : Maphash) : (intSetFull sum).Of ⟨Go.intSet sum, Go.IntSet.All⟩ where
  tree := intSet_of sum
  all n m cb cb' u h := IntSet.All_den n m h u

theorem intSetFull_nat (sum : Maphash) : (intSetFull sum).Movable where
  has f n m k := IntSet.Has_nat f sum n m k
  add f n m k := IntSet.Add_nat f sum n m k
  del f n m k p := IntSet.Del_nat f sum n m k p
  all f U _ n m cb cb' u h := IntSet.All_nat f n m h u
  allTree _ _ _ _ := rfl

/-- Set with its callbacks. -/
def setFull (I : KeyImpl K) : SetTrees K := ⟨set I, Set.All⟩

theorem setFull_of (I : KeyImpl K) : (setFull I).Of ⟨Go.set I, Go.Set.All⟩ where
  tree := set_of I
  all n m cb cb' u h := Set.All_den n m h u

theorem setFull_nat (I : KeyImpl K) : (setFull I).Movable where
  has f n m k := Set.Has_nat f I n m k
  add f n m k := Set.Add_nat f I n m k
  del f n m k p := Set.Del_nat f I n m k p
  all f U _ n m cb cb' u h := Set.All_nat f n m h u
  allTree _ _ _ _ := rfl

/-- The five maps: trees and translation. -/
inductive MapTreesOf {V : Type} [Inhabited V] : {K : Type} → MapTrees K V → Go.MapFull K V → Prop where
  | string (sum : Maphash) : MapTreesOf (stringMapFull sum) ⟨Go.stringMap sum, Go.StringMap.Mod sum, Go.StringMap.All⟩
  | bytes (sum : Maphash) : MapTreesOf (bytesMapFull sum) ⟨Go.bytesMap sum, Go.BytesMap.Mod sum, Go.BytesMap.All⟩
  | arr (sum : Maphash) {K : Type} [DecidableEq K] (kb : K → List UInt8) : MapTreesOf (arrMapFull sum kb) ⟨Go.arrMap sum kb, Go.ArrMap.Mod sum kb, Go.ArrMap.All⟩
  | int (sum : Maphash) : MapTreesOf (intMapFull sum) ⟨Go.intMap sum, Go.IntMap.Mod sum, Go.IntMap.All⟩
  | generic {K : Type} (I : KeyImpl K) : MapTreesOf (mapFull I) ⟨Go.map I, Go.Map.Mod I, Go.Map.All⟩

/-- The five sets. -/
inductive SetTreesOf : {K : Type} → SetTrees K → Go.SetFull K → Prop where
  | string (sum : Maphash) : SetTreesOf (stringSetFull sum) ⟨Go.stringSet sum, Go.StringSet.All⟩
  | bytes (sum : Maphash) : SetTreesOf (bytesSetFull sum) ⟨Go.bytesSet sum, Go.BytesSet.All⟩
  | arr (sum : Maphash) {K : Type} [DecidableEq K] (kb : K → List UInt8) : SetTreesOf (arrSetFull sum kb) ⟨Go.arrSet sum kb, Go.ArrSet.All⟩
  | int (sum : Maphash) : SetTreesOf (intSetFull sum) ⟨Go.intSet sum, Go.IntSet.All⟩
  | generic {K : Type} (I : KeyImpl K) : SetTreesOf (setFull I) ⟨Go.set I, Go.Set.All⟩

theorem MapTreesOf.of {G : MapTrees K V} {C : Go.MapFull K V} (h : MapTreesOf G C) : G.Of C := by
  cases h with
  | string sum => exact stringMapFull_of sum
  | bytes sum => exact bytesMapFull_of sum
  | arr sum kb => exact arrMapFull_of sum kb
  | int sum => exact intMapFull_of sum
  | generic I => exact mapFull_of I

theorem MapTreesOf.nat {G : MapTrees K V} {C : Go.MapFull K V} (h : MapTreesOf G C) : G.Movable := by
  cases h with
  | string sum => exact stringMapFull_nat sum
  | bytes sum => exact bytesMapFull_nat sum
  | arr sum kb => exact arrMapFull_nat sum kb
  | int sum => exact intMapFull_nat sum
  | generic I => exact mapFull_nat I

theorem SetTreesOf.of {G : SetTrees K} {C : Go.SetFull K} (h : SetTreesOf G C) : G.Of C := by
  cases h with
  | string sum => exact stringSetFull_of sum
  | bytes sum => exact bytesSetFull_of sum
  | arr sum kb => exact arrSetFull_of sum kb
  | int sum => exact intSetFull_of sum
  | generic I => exact setFull_of I

theorem SetTreesOf.nat {G : SetTrees K} {C : Go.SetFull K} (h : SetTreesOf G C) : G.Movable := by
  cases h with
  | string sum => exact stringSetFull_nat sum
  | bytes sum => exact bytesSetFull_nat sum
  | arr sum kb => exact arrSetFull_nat sum kb
  | int sum => exact intSetFull_nat sum
  | generic I => exact setFull_nat I

end

end Amt.Par
