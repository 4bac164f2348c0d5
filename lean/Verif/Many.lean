/-
Programs with maps and sets of different types of keys and values, with callbacks that use all of them and pointers that are kept: one memory for all
containers against one memory, of its own types, for each.
-/
import Verif.PropsBetween
import Verif.PropsOpaque

set_option linter.unusedVariables false
set_option linter.unusedSectionVars false

namespace Spec

/-- A client program as in `Prog`, but with types: container kinds `i` have keys `K i` and values `V i`; the names of containers and pointers are used with
their kinds. -/
inductive TProg (ι : Type) (K V Op Out X : ι → Type) : Type → Type 1
  | ret {R : Type} (r : R) : TProg ι K V Op Out X R
  /-- a panic -/
  | stop {R : Type} (e : Amt.Fault) : TProg ι K V Op Out X R
  | new {R : Type} (i : ι) (seed : BitVec 64) (k : Nat → TProg ι K V Op Out X R) : TProg ι K V Op Out X R
  | call {R : Type} (i : ι) (c : Nat) (op : Op i) (k : Out i → TProg ι K V Op Out X R) : TProg ι K V Op Out X R
  /-- `p := c.Ptr(x)` -/
  | ptr {R : Type} (i : ι) (c : Nat) (x : X i) (k : Option Nat → TProg ι K V Op Out X R) : TProg ι K V Op Out X R
  /-- `*p` -/
  | read {R : Type} (i : ι) (p : Nat) (k : V i → TProg ι K V Op Out X R) : TProg ι K V Op Out X R
  /-- `*p = v` -/
  | write {R : Type} (i : ι) (p : Nat) (v : V i) (k : TProg ι K V Op Out X R) : TProg ι K V Op Out X R
  /-- `c.All(func(key, p) { .. })` -/
  | all {U R : Type} (i : ι) (c : Nat) (f : U → K i → Nat → TProg ι K V Op Out X (U × Bool)) (u : U) (k : U → TProg ι K V Op Out X R) : TProg ι K V Op Out X R
  /-- `c.Mod(x, func(p, exists) { .. })` -/
  | mod {A R : Type} (i : ι) (c : Nat) (x : X i) (f : Nat → Bool → TProg ι K V Op Out X A) (k : A → TProg ι K V Op Out X R) : TProg ι K V Op Out X R

end Spec

namespace Amt
open Spec

/-- Each container in a memory of its own types.  (`mem c i` is the memory of the container `c`, if its kind is `i`, and has no meaning otherwise.) -/
structure TWorlds (ι : Type) (K V : ι → Type) where
  objs : List (ι × Nat)
  mem : Nat → (i : ι) → St (K i) (V i)
  ptrs : List (Nat × Ptr)

section
variable {ι : Type} [DecidableEq ι] {K V Op Out X : ι → Type} {R : Type}

namespace TWorlds

def none : TWorlds ι K V := ⟨[], fun _ _ => St.init, []⟩

/-- The memory of the container `c` changes. -/
def put (w : TWorlds ι K V) (c : Nat) (i : ι) (t : St (K i) (V i)) : TWorlds ι K V :=
  { w with mem := fun x j => if x = c then (if h : i = j then h ▸ t else w.mem x j) else w.mem x j }

/-- A container is created, in a memory of its own. -/
def create (w : TWorlds ι K V) (i : ι) (h : Nat) (t : St (K i) (V i)) : TWorlds ι K V := { (w.put w.objs.length i t) with objs := w.objs ++ [(i, h)] }

/-- A pointer is kept. -/
def hold (w : TWorlds ι K V) (c : Nat) (p : Ptr) : TWorlds ι K V := { w with ptrs := w.ptrs ++ [(c, p)] }

theorem put_mem (w : TWorlds ι K V) (c : Nat) (i : ι) (t : St (K i) (V i)) : (w.put c i t).mem c i = t := by simp [put]

theorem put_other (w : TWorlds ι K V) {c x : Nat} (h : x ≠ c) (i j : ι) (t : St (K i) (V i)) : (w.put c i t).mem x j = w.mem x j := by simp [put, h]

end TWorlds

/-- Run a program with each container in a memory of its own types.  A name that has not been given stops the program; so does a name that is used with
another type than its own, which does not happen in Go. -/
def runTyped (κ : ∀ i, Kind (K i) (V i) (Op i) (Out i) (X i)) : {R : Type} → TProg ι K V Op Out X R → TWorlds ι K V → Except Fault (R × TWorlds ι K V)
  | _, .ret r, w => .ok (r, w)
  | _, .stop x, w => .error x
  | _, .new i sd k, w => andThen (newRoot sd (St.init : St (K i) (V i))) fun m t =>
    match m with
    | none => .error .nilDeref
    | some h => runTyped κ (k w.objs.length) (w.create i h t)
  | _, .call i c op k, w =>
    match w.objs[c]? with
    | none => .error .nilDeref
    | some (j, h) => if j = i then andThen ((κ i).exec (some h) op (w.mem c i)) fun o t => runTyped κ (k o) (w.put c i t) else .error .wrongType
  | _, .ptr i c x k, w =>
    match w.objs[c]? with
    | none => .error .nilDeref
    | some (j, h) =>
      if j = i then andThen ((κ i).ptr (some h) x (w.mem c i)) fun p t =>
        match p with
        | none => runTyped κ (k none) (w.put c i t)
        | some p => runTyped κ (k (some w.ptrs.length)) ((w.put c i t).hold c p)
      else .error .wrongType
  | _, .read i p k, w =>
    match w.ptrs[p]? with
    | none => .error .nilDeref
    | some (c, p) =>
      match w.objs[c]? with
      | none => .error .nilDeref
      | some (j, _) => andThen (loadKv p (w.mem c j)) fun kv t =>
        if h : j = i then runTyped κ (k (h ▸ kv.2)) (w.put c j t) else .error .wrongType
  | _, .write i p v k, w =>
    match w.ptrs[p]? with
    | none => .error .nilDeref
    | some (c, p) =>
      match w.objs[c]? with
      | none => .error .nilDeref
      | some (j, _) => andThen (loadKv p (w.mem c j)) fun _ _ =>
        if j = i then andThen (storeVal p v (w.mem c i)) fun _ t => runTyped κ k (w.put c i t) else .error .wrongType
  | _, .all i c f u k, w =>
    match w.objs[c]? with
    | none => .error .nilDeref
    | some (j, h) =>
      if j = i then
        andThen ((κ i).all (some h) (fun uw key p t => andThen (runTyped κ (f uw.1 key uw.2.ptrs.length) ((uw.2.put c i t).hold c p)) fun r w' =>
          .ok (((r.1, w'), r.2), w'.mem c i)) (u, w) (w.mem c i)) fun r t => runTyped κ (k r.1) (r.2.put c i t)
      else andThen ((κ j).all (some h) (fun _ _ _ => M.fail .wrongType) u (w.mem c j)) fun u t => runTyped κ (k u) (w.put c j t)
  | _, .mod i c x f k, w =>
    match w.objs[c]? with
    | none => .error .nilDeref
    | some (j, h) =>
      if j = i then
        andThen ((κ i).mod (some h) x (fun p b t => andThen (runTyped κ (f w.ptrs.length b) ((w.put c i t).hold c p)) fun r w' =>
          .ok ((r, w'), w'.mem c i)) (w.mem c i)) fun r t => runTyped κ (k r.1) (r.2.put c i t)
      else .error .wrongType

/-- The program for a memory with keys and values of all types: each comes with its type. -/
def erase : {R : Type} → TProg ι K V Op Out X R → Prog ι (Σ i, K i) (Σ i, V i) (Σ i, Op i) (Σ i, Out i) (Σ i, X i) R
  | _, .ret r => .ret r
  | _, .stop e => .stop e
  | _, .new i sd k => .new i sd fun n => erase (k n)
  | _, .call i c op k => .call c ⟨i, op⟩ fun o => match pick i o with | some o => erase (k o) | none => .stop .wrongType
  | _, .ptr i c x k => .ptr c ⟨i, x⟩ fun p => erase (k p)
  | _, .read i p k => .read p fun v => match pick i v with | some v => erase (k v) | none => .stop .wrongType
  | _, .write i p v k => .read p fun x => match pick i x with | some _ => .write p ⟨i, v⟩ (erase k) | none => .stop .wrongType
  | _, .all i c f u k => .all c (fun u key n => match pick i key with | some key => erase (f u key n) | none => .stop .wrongType) u fun u => erase (k u)
  | _, .mod i c x f k => .mod c ⟨i, x⟩ (fun n b => erase (f n b)) fun a => erase (k a)

theorem pick_other {F : ι → Type} {i j : ι} (h : ¬ j = i) (a : F j) : pick i (⟨j, a⟩ : Σ j, F j) = none := dif_neg h

/-- The container of the common memory does what the one with its own types does. -/
structure KindI (i : ι) (κ' : Kind (Σ j, K j) (Σ j, V j) (Σ j, Op j) (Σ j, Out j) (Σ j, X j)) (κ : Kind (K i) (V i) (Op i) (Out i) (X i)) : Prop where
  exec : ∀ m op, Img (Sigma.mk i) (Sigma.mk i) (fun a b => a = ⟨i, b⟩) (κ'.exec m ⟨i, op⟩) (κ.exec m op)
  ptr : ∀ m x, Img (Sigma.mk i) (Sigma.mk i) Eq (κ'.ptr m ⟨i, x⟩) (κ.ptr m x)
  all : ∀ {U U' : Type} {P : U' → U → Prop} {F' : U' → (Σ j, K j) → Ptr → M (Σ j, K j) (Σ j, V j) (U' × Bool)} {F : U → K i → Ptr → M (K i) (V i) (U × Bool)},
    (∀ u' u k p, P u' u → Img (Sigma.mk i) (Sigma.mk i) (GoI P) (F' u' ⟨i, k⟩ p) (F u k p)) →
    ∀ m {u' u}, P u' u → Img (Sigma.mk i) (Sigma.mk i) P (κ'.all m F' u') (κ.all m F u)
  mod : ∀ {R R' : Type} {Q : R' → R → Prop} {F' : Ptr → Bool → M (Σ j, K j) (Σ j, V j) R'} {F : Ptr → Bool → M (K i) (V i) R},
    (∀ p b, Img (Sigma.mk i) (Sigma.mk i) Q (F' p b) (F p b)) → ∀ m x, Img (Sigma.mk i) (Sigma.mk i) Q (κ'.mod m ⟨i, x⟩ F') (κ.mod m x F)
  execOther : ∀ m op s, op.1 ≠ i → κ'.exec m op s = .error .wrongType
  ptrOther : ∀ m x s, x.1 ≠ i → κ'.ptr m x s = .error .wrongType
  modOther : ∀ {R : Type} m x (F : Ptr → Bool → M (Σ j, K j) (Σ j, V j) R) s, x.1 ≠ i → κ'.mod m x F s = .error .wrongType

/-- Each memory is the image of the typed one. -/
structure RelT (w : Worlds ι (Σ j, K j) (Σ j, V j)) (v : TWorlds ι K V) : Prop where
  objs : w.objs = v.objs
  mem : ∀ {c : Nat} {i h}, v.objs[c]? = some (i, h) → w.mem c = mapSt (Sigma.mk i) (Sigma.mk i) (v.mem c i)
  ptrs : w.ptrs = v.ptrs
  lt : ∀ {j : Nat} {c p}, v.ptrs[j]? = some (c, p) → c < v.objs.length

/-- The containers that there were are still there. -/
def GrowT (v v' : TWorlds ι K V) : Prop := ∀ (c : Nat) o, v.objs[c]? = some o → v'.objs[c]? = some o

theorem GrowT.trans {v v' v'' : TWorlds ι K V} (h : GrowT v v') (h' : GrowT v' v'') : GrowT v v'' := fun c o e => h' c o (h c o e)

/-- The outcomes correspond. -/
def OutT (v : TWorlds ι K V) : Except Fault (R × Worlds ι (Σ j, K j) (Σ j, V j)) → Except Fault (R × TWorlds ι K V) → Prop
  | .error x, .error y => x = y
  | .ok (r, w), .ok (r', v') => r = r' ∧ RelT w v' ∧ GrowT v v'
  | _, _ => False

variable {w : Worlds ι (Σ j, K j) (Σ j, V j)} {v : TWorlds ι K V}

theorem OutT.later {v₀ : TWorlds ι K V} {x : Except Fault (R × Worlds ι (Σ j, K j) (Σ j, V j))} {y : Except Fault (R × TWorlds ι K V)} (hg : GrowT v₀ v) (h : OutT v x y) : OutT v₀ x y := by
  cases x <;> cases y
  · exact h
  · exact h.elim
  · exact h.elim
  · exact ⟨h.1, h.2.1, hg.trans h.2.2⟩

theorem RelT.put (hr : RelT w v) {c : Nat} {i : ι} {h : Nat} (hc : v.objs[c]? = some (i, h)) (t : St (K i) (V i)) :
    RelT (w.put c (mapSt (Sigma.mk i) (Sigma.mk i) t)) (v.put c i t) := by
  refine ⟨hr.objs, fun {c' i' h'} hc' => ?_, hr.ptrs, hr.lt⟩
  by_cases hcc : c' = c
  · subst hcc
    have hc' : v.objs[c']? = some (i', h') := hc'
    rw [hc] at hc'
    cases hc'
    rw [TWorlds.put_mem]
    exact Worlds.put_mem _ _ _
  · rw [TWorlds.put_other _ hcc]
    show (if c' = c then _ else w.mem c') = _
    rw [if_neg hcc]
    exact hr.mem hc'

theorem RelT.hold (hr : RelT w v) {c : Nat} {o : ι × Nat} (hc : v.objs[c]? = some o) (p : Ptr) : RelT (w.hold c p) (v.hold c p) := by
  refine ⟨hr.objs, hr.mem, congrArg (· ++ [(c, p)]) hr.ptrs, fun {j c' p'} hj => ?_⟩
  have hj : (v.ptrs ++ [(c, p)])[j]? = some (c', p') := hj
  rw [List.getElem?_append] at hj
  split at hj
  · exact hr.lt hj
  · rw [List.getElem?_singleton] at hj
    split at hj
    · cases hj
      exact (List.getElem?_eq_some_iff.1 hc).1
    · cases hj

theorem RelT.create (hr : RelT w v) (i : ι) (h : Nat) (t : St (K i) (V i)) :
    RelT (w.create i h (mapSt (Sigma.mk i) (Sigma.mk i) t)) (v.create i h t) ∧ GrowT v (v.create i h t) := by
  have hl : w.objs.length = v.objs.length := by rw [hr.objs]
  refine ⟨⟨congrArg (· ++ [(i, h)]) hr.objs, fun {c i' h'} hc => ?_, hr.ptrs, fun {j c p} hj => ?_⟩, fun c o hc => ?_⟩
  · have hc : (v.objs ++ [(i, h)])[c]? = some (i', h') := hc
    show (if c = w.objs.length then _ else w.mem c) = mapSt _ _ ((v.put v.objs.length i t).mem c i')
    rw [List.getElem?_append] at hc
    rw [hl]
    split at hc
    · rw [if_neg (by omega), TWorlds.put_other _ (by omega)]
      exact hr.mem hc
    · rw [List.getElem?_singleton] at hc
      split at hc
      · cases hc
        have : c = v.objs.length := by omega
        rw [if_pos this, this, TWorlds.put_mem]
      · cases hc
  · have := hr.lt hj
    show c < (v.objs ++ [(i, h)]).length
    rw [List.length_append]
    omega
  · show (v.objs ++ [(i, h)])[c]? = some o
    rw [List.getElem?_append_left (List.getElem?_eq_some_iff.1 hc).1]
    exact hc

/-- Go on after corresponding outcomes. -/
theorem OutI.andThen {α β A : Type} {i : ι} {Q : α → β → Prop} {x : Except Fault (α × St (Σ j, K j) (Σ j, V j))} {y : Except Fault (β × St (K i) (V i))}
    (h : OutI (Sigma.mk i) (Sigma.mk i) Q x y) {G : α → St (Σ j, K j) (Σ j, V j) → Except Fault (A × Worlds ι (Σ j, K j) (Σ j, V j))} {H : β → St (K i) (V i) → Except Fault (A × TWorlds ι K V)}
    (hg : ∀ a b t, Q a b → OutT v (G a (mapSt (Sigma.mk i) (Sigma.mk i) t)) (H b t)) : OutT v (andThen x G) (andThen y H) := by
  cases x <;> cases y
  · exact h
  · exact h.elim
  · exact h.elim
  · rename_i a b
    obtain ⟨a, s⟩ := a
    obtain ⟨b, t⟩ := b
    obtain ⟨h1, rfl⟩ := h
    exact hg a b t h1

theorem mapSt_inj {A B A' B' : Type} {f : A → A'} {g : B → B'} (hf : ∀ a b, f a = f b → a = b) (hg : ∀ a b, g a = g b → a = b) {s t : St A B} (h : mapSt f g s = mapSt f g t) : s = t := by
  obtain ⟨m, n, r⟩ := s
  obtain ⟨m', n', r'⟩ := t
  simp only [mapSt, St.mk.injEq] at h
  obtain ⟨h1, rfl, rfl⟩ := h
  congr 1
  funext a
  have h2 := congrFun h1 a
  cases hm : m a with
  | none =>
    cases hm' : m' a with
    | none => rfl
    | some o => rw [hm, hm'] at h2; cases h2
  | some o =>
    cases hm' : m' a with
    | none => rw [hm, hm'] at h2; cases h2
    | some o' =>
      rw [hm, hm'] at h2
      simp only [Option.map_some, Option.some.injEq] at h2
      cases o with
      | links xs => cases o' with
        | links ys => exact congrArg some (congrArg Obj.links (Obj.links.inj h2))
        | kv k v => cases h2
      | kv k v => cases o' with
        | links ys => cases h2
        | kv k' v' =>
          obtain ⟨e1, e2⟩ := Obj.kv.inj h2
          rw [hg _ _ e2]
          cases k <;> cases k'
          · rfl
          · cases e1
          · cases e1
          · rw [hf _ _ (Option.some.inj e1)]

/-- A program does with the typed memories what it does with their images. -/
theorem run_typed {κ' : ι → Kind (Σ j, K j) (Σ j, V j) (Σ j, Op j) (Σ j, Out j) (Σ j, X j)} {κ : ∀ i, Kind (K i) (V i) (Op i) (Out i) (X i)} (hκ : ∀ i, KindI i (κ' i) (κ i))
    {R : Type} (p : TProg ι K V Op Out X R) : ∀ {w : Worlds ι (Σ j, K j) (Σ j, V j)} {v : TWorlds ι K V}, RelT w v → OutT v (runApart κ' (erase p) w) (runTyped κ p v) := by
  induction p with
  | ret r => intro w v hr; exact ⟨rfl, hr, fun _ _ h => h⟩
  | stop e => intro w v hr; exact rfl
  | new i sd k ih =>
    intro w v hr
    rw [erase, runApart, runTyped]
    have h1 := Img.newRoot (f := Sigma.mk i) (g := Sigma.mk i) sd (St.init : St (K i) (V i))
    rw [mapSt_init] at h1
    refine OutI.andThen h1 fun a b t e => ?_
    cases e
    cases a with
    | none => exact rfl
    | some h =>
      obtain ⟨h2, h3⟩ := hr.create i h t
      rw [hr.objs]
      exact (ih _ h2).later h3
  | call i c op k ih =>
    intro w v hr
    rw [erase, runApart, runTyped, hr.objs]
    cases hx : v.objs[c]? with
    | none => exact rfl
    | some q =>
      obtain ⟨j, h⟩ := q
      dsimp only
      split
      · rename_i e
        subst e
        rw [hr.mem hx]
        refine OutI.andThen ((hκ j).exec (some h) op (v.mem c j)) fun a b t e => ?_
        rw [e]
        simp only [pick_mk]
        exact ih _ (hr.put hx t)
      · rename_i hj
        rw [(hκ j).execOther _ _ _ fun e => hj e.symm]
        exact rfl
  | ptr i c x k ih =>
    intro w v hr
    rw [erase, runApart, runTyped, hr.objs]
    cases hx : v.objs[c]? with
    | none => exact rfl
    | some q =>
      obtain ⟨j, h⟩ := q
      dsimp only
      split
      · rename_i e
        subst e
        rw [hr.mem hx]
        refine OutI.andThen ((hκ j).ptr (some h) x (v.mem c j)) fun a b t e => ?_
        cases e
        cases a with
        | none => exact ih _ (hr.put hx t)
        | some p =>
          dsimp only
          rw [hr.ptrs]
          exact ih _ ((hr.put hx t).hold (c := c) hx p)
      · rename_i hj
        rw [(hκ j).ptrOther _ _ _ fun e => hj e.symm]
        exact rfl
  | read i p k ih =>
    intro w v hr
    rw [erase, runApart, runTyped, hr.ptrs]
    cases hp : v.ptrs[p]? with
    | none => exact rfl
    | some q =>
      obtain ⟨c, q⟩ := q
      dsimp only
      have hx : v.objs[c]? = some (v.objs[c]'(hr.lt hp)) := List.getElem?_eq_getElem _
      rw [hx]
      generalize v.objs[c]'(hr.lt hp) = o at hx
      obtain ⟨j, h⟩ := o
      dsimp only
      rw [hr.mem hx]
      refine OutI.andThen (Img.loadKv q (v.mem c j)) fun a b t e => ?_
      rw [e]
      dsimp only
      by_cases hj : j = i
      · subst hj
        simp only [pick_mk, dite_true]
        exact ih _ (hr.put hx t)
      · rw [pick_other hj, dif_neg hj]
        exact rfl
  | write i p u k ih =>
    intro w v hr
    rw [erase, runApart, runTyped, hr.ptrs]
    cases hp : v.ptrs[p]? with
    | none => exact rfl
    | some q =>
      obtain ⟨c, q⟩ := q
      dsimp only
      have hx : v.objs[c]? = some (v.objs[c]'(hr.lt hp)) := List.getElem?_eq_getElem _
      rw [hx]
      generalize v.objs[c]'(hr.lt hp) = o at hx
      obtain ⟨j, h⟩ := o
      dsimp only
      rw [hr.mem hx]
      have hl : ∀ r t, loadKv q (v.mem c j) = .ok (r, t) → t = v.mem c j := by
        intro r t e
        cases q with
        | nil => cases e
        | blk b =>
          simp only [Amt.loadKv] at e
          split at e <;> cases e
          rfl
      cases hy : loadKv q (v.mem c j) with
      | error e =>
        have h1 := Img.loadKv (f := Sigma.mk j) (g := Sigma.mk j) q (v.mem c j)
        rw [hy] at h1
        cases hz : loadKv q (mapSt (Sigma.mk j) (Sigma.mk j) (v.mem c j)) with
        | error e' => rw [hz] at h1; exact h1
        | ok r => rw [hz] at h1; exact h1.elim
      | ok r =>
        obtain ⟨b, t⟩ := r
        have ht := hl _ _ hy
        subst ht
        have h1 := Img.loadKv (f := Sigma.mk j) (g := Sigma.mk j) q (v.mem c j)
        rw [hy] at h1
        cases hz : loadKv q (mapSt (Sigma.mk j) (Sigma.mk j) (v.mem c j)) with
        | error e' => rw [hz] at h1; exact h1.elim
        | ok r =>
          rw [hz] at h1
          obtain ⟨a, s⟩ := r
          obtain ⟨e1, e2⟩ := h1
          subst e2
          rw [e1]
          show OutT v (runApart κ' (match pick i (⟨j, b.2⟩ : Σ j, V j) with | some _ => .write p ⟨i, u⟩ (erase k) | none => .stop .wrongType) _)
            (if j = i then _ else _)
          by_cases hj : j = i
          · subst hj
            rw [pick_mk, if_pos rfl]
            dsimp only
            have hp' : (w.put c (mapSt (Sigma.mk j) (Sigma.mk j) (v.mem c j))).ptrs[p]? = some (c, q) := by
              show w.ptrs[p]? = _; rw [hr.ptrs]; exact hp
            rw [runApart, hp']
            dsimp only
            rw [Worlds.put_mem]
            refine OutI.andThen (Img.storeVal q u (v.mem c j)) fun a b t e => ?_
            rw [Worlds.put_put]
            exact ih (hr.put hx t)
          · rw [pick_other hj, if_neg hj]
            exact rfl
  | @all U R i c f u k ihf ihk =>
    intro w v hr
    rw [erase, runApart, runTyped, hr.objs]
    cases hx : v.objs[c]? with
    | none => exact rfl
    | some q =>
      obtain ⟨j, h⟩ := q
      dsimp only
      split
      · rename_i e
        subst e
        rw [hr.mem hx]
        refine OutI.andThen ((hκ j).all (P := fun (a : U × Worlds ι (Σ j, K j) (Σ j, V j)) (b : U × TWorlds ι K V) => a.1 = b.1 ∧ RelT a.2 b.2 ∧ GrowT v b.2) ?_ (some h)
          ⟨rfl, hr, fun _ _ h => h⟩ (v.mem c j)) fun a b t e => ?_
        · intro a b key p hab t
          obtain ⟨a, w1⟩ := a
          obtain ⟨b, v1⟩ := b
          obtain ⟨e1, h1, h2⟩ := hab
          simp only at e1 h1 h2
          subst e1
          simp only [pick_mk]
          have hx1 := h2 _ _ hx
          have h3 := ihf a key v1.ptrs.length (w := (w1.put c (mapSt (Sigma.mk j) (Sigma.mk j) t)).hold c p) ((h1.put hx1 t).hold hx1 p)
          rw [← h1.ptrs] at h3 ⊢
          cases hy : runApart κ' (erase (f a key w1.ptrs.length)) ((w1.put c (mapSt (Sigma.mk j) (Sigma.mk j) t)).hold c p) <;>
            cases hz : runTyped κ (f a key w1.ptrs.length) ((v1.put c j t).hold c p) <;> rw [hy, hz] at h3
          · exact h3
          · exact h3.elim
          · exact h3.elim
          · rename_i r r'
            obtain ⟨⟨u1, g1⟩, w2⟩ := r
            obtain ⟨⟨u2, g2⟩, v2⟩ := r'
            obtain ⟨e2, h4, h5⟩ := h3
            cases e2
            exact ⟨⟨⟨rfl, h4, h2.trans h5⟩, rfl⟩, h4.mem (h5 _ _ hx1)⟩
        · obtain ⟨a, w1⟩ := a
          obtain ⟨b, v1⟩ := b
          obtain ⟨e1, h1, h2⟩ := e
          simp only at e1 h1 h2
          subst e1
          exact (ihk _ (h1.put (h2 _ _ hx) t)).later h2
      · rename_i hj
        rw [hr.mem hx]
        refine OutI.andThen ((hκ j).all (P := fun (a : U × Worlds ι (Σ j, K j) (Σ j, V j)) (b : U) => a.1 = b ∧ a.2 = w) ?_ (some h) ⟨rfl, rfl⟩ (v.mem c j)) fun a b t e => ?_
        · intro a b key p hab t
          show OutI _ _ _ (andThen (runApart κ' (match pick i (⟨j, key⟩ : Σ j, K j) with | some key => _ | none => .stop .wrongType) _) _) _
          rw [pick_other hj]
          exact rfl
        · obtain ⟨a, w1⟩ := a
          obtain ⟨e1, e2⟩ := e
          simp only at e1 e2
          subst e1
          subst e2
          exact ihk _ (hr.put hx t)
  | @mod A R i c x f k ihf ihk =>
    intro w v hr
    rw [erase, runApart, runTyped, hr.objs]
    cases hx : v.objs[c]? with
    | none => exact rfl
    | some q =>
      obtain ⟨j, h⟩ := q
      dsimp only
      split
      · rename_i e
        subst e
        rw [hr.mem hx]
        refine OutI.andThen ((hκ j).mod (Q := fun (a : A × Worlds ι (Σ j, K j) (Σ j, V j)) (b : A × TWorlds ι K V) => a.1 = b.1 ∧ RelT a.2 b.2 ∧ GrowT v b.2) ?_ (some h) x
          (v.mem c j)) fun a b t e => ?_
        · intro p b t
          have h3 := ihf v.ptrs.length b (w := (w.put c (mapSt (Sigma.mk j) (Sigma.mk j) t)).hold c p) ((hr.put hx t).hold (c := c) hx p)
          rw [hr.ptrs]
          show OutI _ _ _ (andThen (runApart κ' (erase (f v.ptrs.length b)) ((w.put c (mapSt (Sigma.mk j) (Sigma.mk j) t)).hold c p)) _)
            (andThen (runTyped κ (f v.ptrs.length b) ((v.put c j t).hold c p)) _)
          cases hy : runApart κ' (erase (f v.ptrs.length b)) ((w.put c (mapSt (Sigma.mk j) (Sigma.mk j) t)).hold c p) <;>
            cases hz : runTyped κ (f v.ptrs.length b) ((v.put c j t).hold c p) <;> rw [hy, hz] at h3
          · exact h3
          · exact h3.elim
          · exact h3.elim
          · rename_i r r'
            obtain ⟨u1, w2⟩ := r
            obtain ⟨u2, v2⟩ := r'
            obtain ⟨e2, h4, h5⟩ := h3
            cases e2
            exact ⟨⟨rfl, h4, h5⟩, h4.mem (h5 _ _ hx)⟩
        · obtain ⟨a, w1⟩ := a
          obtain ⟨b, v1⟩ := b
          obtain ⟨e1, h1, h2⟩ := e
          simp only at e1 h1 h2
          subst e1
          exact (ihk _ (h1.put (h2 _ _ hx) t)).later h2
      · rename_i hj
        have h1 := (hκ j).modOther (some h) ⟨i, x⟩ (fun p b t => andThen (runApart κ' (erase (f w.ptrs.length b)) ((w.put c t).hold c p)) fun r w' =>
          .ok ((r, w'), w'.mem c)) (w.mem c) fun e => hj e.symm
        show OutT v (andThen ((κ' j).mod _ _ _ _) _) _
        rw [h1]
        exact rfl

theorem RelT.none : RelT (Worlds.none : Worlds ι (Σ j, K j) (Σ j, V j)) (TWorlds.none : TWorlds ι K V) :=
  ⟨rfl, fun h => by simp [TWorlds.none] at h, rfl, fun h => by simp [TWorlds.none] at h⟩

theorem OutT.outcome {x : Except Fault (R × Worlds ι (Σ j, K j) (Σ j, V j))} {y : Except Fault (R × TWorlds ι K V)} (h : OutT v x y) : outcome x = outcome y := by
  cases x <;> cases y
  · exact congrArg _ h
  · exact h.elim
  · exact h.elim
  · exact congrArg _ h.1

end

end Amt
