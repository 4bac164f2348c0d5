/-
C44, C67: programs over any number of containers, with callbacks that use all of them and pointers that are kept.
-/
import Verif.Apart

set_option linter.unusedVariables false
set_option linter.unusedSectionVars false

namespace Spec

/-- A client program.  It may create containers, call them, keep pointers to values and use them later, and pass
programs as callbacks to `All` and `Mod`.  Containers and pointers are named by numbers, in the order of their appearance;
everything may depend on what has been returned so far.  `X` are the keys for `Ptr` and `Mod`. -/
inductive Prog (ι K V Op Out X : Type) : Type → Type 1
  | ret {R : Type} (r : R) : Prog ι K V Op Out X R
  /-- a panic -/
  | stop {R : Type} (e : Amt.Fault) : Prog ι K V Op Out X R
  /-- a new container of kind `i` -/
  | new {R : Type} (i : ι) (seed : BitVec 64) (k : Nat → Prog ι K V Op Out X R) : Prog ι K V Op Out X R
  | call {R : Type} (c : Nat) (op : Op) (k : Out → Prog ι K V Op Out X R) : Prog ι K V Op Out X R
  /-- `p := c.Ptr(x)` -/
  | ptr {R : Type} (c : Nat) (x : X) (k : Option Nat → Prog ι K V Op Out X R) : Prog ι K V Op Out X R
  /-- `*p` -/
  | read {R : Type} (p : Nat) (k : V → Prog ι K V Op Out X R) : Prog ι K V Op Out X R
  /-- `*p = v` -/
  | write {R : Type} (p : Nat) (v : V) (k : Prog ι K V Op Out X R) : Prog ι K V Op Out X R
  /-- `c.All(func(key, p) { .. })`; the callback has a state `U` and returns whether to go on -/
  | all {U R : Type} (c : Nat) (f : U → K → Nat → Prog ι K V Op Out X (U × Bool)) (u : U) (k : U → Prog ι K V Op Out X R) : Prog ι K V Op Out X R
  /-- `c.Mod(x, func(p, exists) { .. })` -/
  | mod {A R : Type} (c : Nat) (x : X) (f : Nat → Bool → Prog ι K V Op Out X A) (k : A → Prog ι K V Op Out X R) : Prog ι K V Op Out X R

end Spec

namespace Amt
open Spec

/-- The methods of a kind of container. -/
structure Kind (K V Op Out X : Type) : Type 1 where
  exec : Handle → Op → M K V Out
  ptr : Handle → X → M K V (Option Ptr)
  all : {U : Type} → Handle → (U → K → Ptr → M K V (U × Bool)) → U → M K V U
  mod : {R : Type} → Handle → X → (Ptr → Bool → M K V R) → M K V R

/-- The maps. -/
def MapImpl.kind {K V : Type} [Inhabited V] (I : MapImpl K V) (fuel : Nat) : Kind K V (MOp K V) (MOut K V) K where
  exec := I.exec fuel
  ptr := I.Ptr fuel
  all := I.AllWith fuel
  mod := I.ModWith fuel

/-- The sets: there are no pointers to values, and no `Mod`. -/
def SetImpl.kind {K : Type} (I : SetImpl K) (fuel : Nat) : Kind K Unit (SOp K) (SOut K) Empty where
  exec := I.exec fuel
  ptr := fun _ x => x.elim
  all := fun m f u => I.AllWith fuel m (fun u k => f u k .nil) u
  mod := fun _ x => x.elim

section
variable {ι K V Op Out X R : Type}

/-- Run a program with all containers in one memory.  A name that has not been given stops the program. -/
def run (κ : ι → Kind K V Op Out X) : {R : Type} → Prog ι K V Op Out X R → EnvW ι → M K V (R × EnvW ι)
  | _, .ret r, e => pure (r, e)
  | _, .stop x, e => M.fail x
  | _, .new i sd k, e => newRoot sd >>= fun m =>
    match m with
    | none => M.fail .nilDeref
    | some h => run κ (k e.objs.length) (e.create i h)
  | _, .call c op k, e =>
    match e.objs[c]? with
    | none => M.fail .nilDeref
    | some (i, h) => (κ i).exec (some h) op >>= fun o => run κ (k o) e
  | _, .ptr c x k, e =>
    match e.objs[c]? with
    | none => M.fail .nilDeref
    | some (i, h) => (κ i).ptr (some h) x >>= fun p =>
      match p with
      | none => run κ (k none) e
      | some p => run κ (k (some e.ptrs.length)) (e.hold p)
  | _, .read p k, e =>
    match e.ptrs[p]? with
    | none => M.fail .nilDeref
    | some p => loadKv p >>= fun kv => run κ (k kv.2) e
  | _, .write p v k, e =>
    match e.ptrs[p]? with
    | none => M.fail .nilDeref
    | some p => storeVal p v >>= fun _ => run κ k e
  | _, .all c f u k, e =>
    match e.objs[c]? with
    | none => M.fail .nilDeref
    | some (i, h) =>
      (κ i).all (some h) (fun ue key p => run κ (f ue.1 key ue.2.ptrs.length) (ue.2.hold p) >>= fun r => pure ((r.1.1, r.2), r.1.2)) (u, e) >>= fun r =>
        run κ (k r.1) r.2
  | _, .mod c x f k, e =>
    match e.objs[c]? with
    | none => M.fail .nilDeref
    | some (i, h) => (κ i).mod (some h) x (fun p b => run κ (f e.ptrs.length b) (e.hold p)) >>= fun r => run κ (k r.1) r.2

/-- Go on with the result and the memory. -/
def andThen {α β σ : Type} (x : Except Fault (α × σ)) (g : α → σ → Except Fault β) : Except Fault β :=
  match x with
  | .ok r => g r.1 r.2
  | .error x => .error x

/-- Run a program with each container in a memory of its own. -/
def runApart (κ : ι → Kind K V Op Out X) : {R : Type} → Prog ι K V Op Out X R → Worlds ι K V → Except Fault (R × Worlds ι K V)
  | _, .ret r, w => .ok (r, w)
  | _, .stop x, w => .error x
  | _, .new i sd k, w => andThen (newRoot sd (St.init : St K V)) fun m t =>
    match m with
    | none => .error .nilDeref
    | some h => runApart κ (k w.objs.length) (w.create i h t)
  | _, .call c op k, w =>
    match w.objs[c]? with
    | none => .error .nilDeref
    | some (i, h) => andThen ((κ i).exec (some h) op (w.mem c)) fun o t => runApart κ (k o) (w.put c t)
  | _, .ptr c x k, w =>
    match w.objs[c]? with
    | none => .error .nilDeref
    | some (i, h) => andThen ((κ i).ptr (some h) x (w.mem c)) fun p t =>
      match p with
      | none => runApart κ (k none) (w.put c t)
      | some p => runApart κ (k (some w.ptrs.length)) ((w.put c t).hold c p)
  | _, .read p k, w =>
    match w.ptrs[p]? with
    | none => .error .nilDeref
    | some (c, p) => andThen (loadKv p (w.mem c)) fun kv t => runApart κ (k kv.2) (w.put c t)
  | _, .write p v k, w =>
    match w.ptrs[p]? with
    | none => .error .nilDeref
    | some (c, p) => andThen (storeVal p v (w.mem c)) fun _ t => runApart κ k (w.put c t)
  | _, .all c f u k, w =>
    match w.objs[c]? with
    | none => .error .nilDeref
    | some (i, h) =>
      andThen ((κ i).all (some h) (fun uw key p t => andThen (runApart κ (f uw.1 key uw.2.ptrs.length) ((uw.2.put c t).hold c p)) fun r w' =>
        .ok (((r.1, w'), r.2), w'.mem c)) (u, w) (w.mem c)) fun r t => runApart κ (k r.1) (r.2.put c t)
  | _, .mod c x f k, w =>
    match w.objs[c]? with
    | none => .error .nilDeref
    | some (i, h) =>
      andThen ((κ i).mod (some h) x (fun p b t => andThen (runApart κ (f w.ptrs.length b) ((w.put c t).hold c p)) fun r w' =>
        .ok ((r, w'), w'.mem c)) (w.mem c)) fun r t => runApart κ (k r.1) (r.2.put c t)

/-- The methods `κ` in the common memory do what the methods `κ'` do in a memory of their own. -/
structure KindSim (κ κ' : Kind K V Op Out X) : Prop where
  exec : ∀ h k φ op, Same h k φ EqR (κ.exec (some h) op) (κ'.exec (some k) op)
  ptr : ∀ h k φ x, Same h k φ OptPtrR (κ.ptr (some h) x) (κ'.ptr (some k) x)
  all : ∀ {ι U : Type} {c h k : Nat} {f : U × EnvW ι → K → Ptr → M K V ((U × EnvW ι) × Bool)} {g : U × Worlds ι K V → K → Ptr → M K V ((U × Worlds ι K V) × Bool)},
    (∀ {φ : Nat → Ren} {e : EnvW ι} {w : Worlds ι K V} u key {p q}, AtW c e w h k → PtrR (φ c) p q → SimW c e w φ (RanU c e w) (f (u, e) key p) (g (u, w) key q)) →
    ∀ {φ : Nat → Ren} {e : EnvW ι} {w : Worlds ι K V} u, AtW c e w h k → SimW c e w φ (RanW c e w) (κ.all (some h) f (u, e)) (κ'.all (some k) g (u, w))
  mod : ∀ {ι R : Type} {c h k : Nat} {e : EnvW ι} {w : Worlds ι K V} {f : Ptr → Bool → M K V (R × EnvW ι)} {g : Ptr → Bool → M K V (R × Worlds ι K V)},
    (∀ {φ : Nat → Ren} {p q} b, PtrR (φ c) p q → SimW c e w φ (RanW c e w) (f p b) (g q b)) →
    ∀ {φ : Nat → Ren} x, AtW c e w h k → SimW c e w φ (RanW c e w) (κ.mod (some h) x f) (κ'.mod (some k) x g)

/-- The methods do not depend on addresses. -/
abbrev KindOk (κ : Kind K V Op Out X) : Prop := KindSim κ κ

/-- The outcomes of a program correspond. -/
def OutP (φ : Nat → Ren) (e : EnvW ι) (w : Worlds ι K V) : Except Fault ((R × EnvW ι) × St K V) → Except Fault (R × Worlds ι K V) → Prop
  | .error x, .error y => x = y
  | .ok ((r, e'), s'), .ok (r', w') => ∃ φ', FLe φ φ' ∧ r = r' ∧ RelW φ' e' s' w' ∧ GrowW e e' w w'
  | _, _ => False

theorem SimW.imp {α β : Type} {c : Nat} {e : EnvW ι} {w : Worlds ι K V} {φ : Nat → Ren} {Q Q' : (Nat → Ren) → α → St K V → β → St K V → Prop} {x : M K V α} {y : M K V β}
    (h1 : SimW c e w φ Q x y) (h2 : ∀ φ' a s b t, Q φ' a s b t → Q' φ' a s b t) : SimW c e w φ Q' x y := by
  intro s t hr
  have h3 := h1 s t hr
  cases hx : x s <;> cases hy : y t <;> rw [hx, hy] at h3
  · exact h3
  · exact h3.elim
  · exact h3.elim
  · obtain ⟨φ', h4, h5⟩ := h3
    exact ⟨φ', h4, h2 _ _ _ _ _ h5⟩

/-- The roots correspond. -/
theorem SimW.of_root {α β : Type} {c h k : Nat} {e : EnvW ι} {w : Worlds ι K V} {φ : Nat → Ren} {Q : (Nat → Ren) → α → St K V → β → St K V → Prop} {x : M K V α} {y : M K V β}
    (ha : AtW c e w h k) (hs : φ c h k → SimW c e w φ Q x y) : SimW c e w φ Q x y := by
  intro s t hr
  obtain ⟨i, a1, a2⟩ := ha
  obtain ⟨k', b1, b2⟩ := hr.obj a1
  have b1 : w.objs[c]? = some (i, k') := b1
  rw [b1] at a2
  cases a2
  exact hs b2.root s t hr

theorem all_ok {U : Type} {c h k : Nat} (cf : Cfg K) (fuel : Nat) {f : U × EnvW ι → K → Ptr → M K V ((U × EnvW ι) × Bool)}
    {g : U × Worlds ι K V → K → Ptr → M K V ((U × Worlds ι K V) × Bool)}
    (hf : ∀ {φ : Nat → Ren} {e : EnvW ι} {w : Worlds ι K V} u key {p q}, AtW c e w h k → PtrR (φ c) p q → SimW c e w φ (RanU c e w) (f (u, e) key p) (g (u, w) key q))
    {φ : Nat → Ren} {e : EnvW ι} {w : Worlds ι K V} (u : U) (ha : AtW c e w h k) :
    SimW c e w φ (RanW c e w) (scan (visitMapM cf f) fuel (u, e) ⟨.blk h, 0⟩ >>= fun r => Pure.pure r.1)
      (scan (visitMapM cf g) fuel (u, w) ⟨.blk k, 0⟩ >>= fun r => Pure.pure r.1) := by
  refine SimW.of_root ha fun hr => ?_
  have hv : ∀ {φ : Nat → Ren} {e : EnvW ι} {w : Worlds ι K V} u {x y}, AtW c e w h k → LinkR (φ c) x y →
      SimW c e w φ (RanU c e w) (visitMapM cf f (u, e) x) (visitMapM cf g (u, w) y) := by
    intro φ e w u x y ha' hxy
    unfold visitMapM
    refine SimW.seq ha' (Same.readKey cf hxy) fun φ1 l1 a b hab => ?_
    cases hab
    exact hf u a ha' (hxy.ptr.mono (l1 c))
  refine SimW.bind (SimW.scan hv fuel u ha (RefR.at 0 (.blk hr))) ?_
  · rintro φ' ⟨⟨u1, e1⟩, b1⟩ s' ⟨⟨u2, w2⟩, b2⟩ t' hle ⟨h1, h2, h3, h4⟩
    exact ⟨φ', FLe.refl φ', h1, h3, h4⟩

theorem MapImpl.kind_ok [Inhabited V] {I : MapImpl K V} (hI : I.Blind) (fuel : Nat) : KindOk (I.kind fuel) where
  exec := fun h k φ op => MapImpl.exec_same hI fuel op
  ptr := fun h k φ x => I.Ptr_same fuel x
  all := by
    intro ι U c h k f g hf φ e w u ha
    exact all_ok I.cfg fuel hf u ha
  mod := by
    intro ι R c h k e w f g hf φ x ha
    refine SimW.of_root ha fun hr => ?_
    have cell : ∀ {φ : Nat → Ren}, SimW c e w φ (CellW c e w) (Amt.newKv I.cfg x default >>= fun p => f p false >>= fun r => Pure.pure (p, r))
        (Amt.newKv I.cfg x default >>= fun p => g p false >>= fun r => Pure.pure (p, r)) := by
      intro φ
      refine SimW.seq ha (Same.newKv I.cfg x default) fun φ1 l1 p q hpq => ?_
      refine SimW.bind (hf false hpq) ?_
      rintro φ2 a s' b t' hle hq
      exact ⟨φ2, FLe.refl φ2, hpq.mono (hle c), hq⟩
    exact SimW.upsert I.cfg fuel x ha ⟨rfl, rfl, fun hp => hf true hp, cell, cell⟩ hr

theorem SetImpl.kind_ok {I : SetImpl K} (hI : I.Blind) (fuel : Nat) : KindOk (I.kind fuel) where
  exec := fun h k φ op => SetImpl.exec_same hI fuel op
  ptr := fun h k φ x => x.elim
  all := by
    intro ι U c h k f g hf φ e w u ha
    refine all_ok (f := fun u k _ => f u k .nil) (g := fun u k _ => g u k .nil) I.cfg fuel ?_ u ha
    intro φ e w u key p q ha' hpq
    exact hf u key ha' .nil
  mod := by
    intro ι R c h k e w f g hf φ x
    exact x.elim

/-! ### The theorem -/

theorem RelW.hold {φ : Nat → Ren} {e : EnvW ι} {s : St K V} {w : Worlds ι K V} (hr : RelW φ e s w) {c : Nat} (hc : c < e.objs.length) {p q : Ptr}
    (hp : PtrR (φ c) p q) : RelW φ (e.hold p) s (w.hold c q) := by
  refine ⟨hr.len, hr.obj, hr.disj, hr.out, ?_, fun {j p'} hj => ?_⟩
  · simp only [EnvW.hold, Worlds.hold, List.length_append, hr.plen]; rfl
  · simp only [EnvW.hold, Worlds.hold] at hj ⊢
    rw [List.getElem?_append] at hj ⊢
    rw [← hr.plen]
    split
    · rw [if_pos ‹_›] at hj; exact hr.ptr hj
    · rw [if_neg ‹_›] at hj
      cases hx : j - e.ptrs.length with
      | zero => rw [hx] at hj; cases hj; exact ⟨c, q, rfl, hc, hp⟩
      | succ n => rw [hx] at hj; simp at hj

theorem RelW.new {φ : Nat → Ren} {e : EnvW ι} {s : St K V} {w : Worlds ι K V} (hr : RelW φ e s w) (i : ι) (sd : Seed) :
    ∃ s' t' φ', newRoot sd s = .ok (some s.next, s') ∧ newRoot sd (St.init : St K V) = .ok (some (St.init : St K V).next, t') ∧ FLe φ φ' ∧
      RelW φ' (e.create i s.next) s' (w.create i (St.init : St K V).next t') ∧ GrowW e (e.create i s.next) w (w.create i (St.init : St K V).next t') := by
  obtain ⟨s', t', h1, h2, h3, h4, h5, h6⟩ := newRoot_same sd s (St.init : St K V)
  have hout : ∀ a b, ¬ φ e.objs.length a b := fun a b hab => Nat.lt_irrefl _ (hr.out hab)
  have hlt : ∀ {c a b}, φ c a b → a < s.next := by
    intro c a b hab
    have h7 : e.objs[c]? = some (e.objs[c]'(hr.out hab)) := List.getElem?_eq_getElem _
    obtain ⟨k, _, b2⟩ := hr.obj (i := (e.objs[c]'(hr.out hab)).1) (h := (e.objs[c]'(hr.out hab)).2) h7
    exact (b2.lt hab).1
  refine ⟨s', t', fun c => if c = e.objs.length then Ren.start s.next (St.init : St K V).next else φ c, h1, h2, fun c => ?_, ⟨?_, ?_, ?_, ?_, hr.plen, ?_⟩, ⟨?_, ?_⟩⟩
  · show Ren.Le (φ c) (if c = e.objs.length then _ else φ c)
    split
    · rename_i hc; rw [hc]; exact fun a b hab => absurd hab (hout a b)
    · exact Ren.Le.refl _
  · simp only [EnvW.create, Worlds.create, List.length_append, hr.len]; rfl
  · intro c i' h hc
    simp only [EnvW.create, Worlds.create] at hc ⊢
    rw [List.getElem?_append] at hc ⊢
    rw [← hr.len]
    by_cases hlt' : c < e.objs.length
    · rw [if_pos hlt'] at hc ⊢
      obtain ⟨k, b1, b2⟩ := hr.obj hc
      refine ⟨k, b1, ?_⟩
      rw [if_neg (Nat.ne_of_lt hlt'), if_neg (Nat.ne_of_lt hlt')]
      refine ⟨b2.fn, b2.inj, fun {a b} hab => ?_, fun {a b} hab => ⟨Nat.lt_of_lt_of_le (b2.lt hab).1 h4, (b2.lt hab).2⟩, b2.root, ?_⟩
      · rw [h5 a (b2.lt hab).1]; exact b2.obj hab
      · rw [h6 h (Nat.ne_of_lt (b2.lt b2.root).1)]; exact b2.fields
    · rw [if_neg hlt'] at hc ⊢
      cases hx : c - e.objs.length with
      | zero =>
        rw [hx] at hc
        cases hc
        have : c = e.objs.length := by omega
        rw [if_pos this, if_pos this]
        exact ⟨_, rfl, h3⟩
      | succ n => rw [hx] at hc; simp at hc
  · intro c c' a b b' g1 g2
    have g1 : (if c = e.objs.length then Ren.start s.next (St.init : St K V).next else φ c) a b := g1
    have g2 : (if c' = e.objs.length then Ren.start s.next (St.init : St K V).next else φ c') a b' := g2
    split at g1 <;> split at g2
    · rename_i e1 e2; rw [e1, e2]
    · have := hlt g2; rcases g1 with ⟨g1, _⟩ | ⟨g1, _⟩ <;> omega
    · have := hlt g1; rcases g2 with ⟨g2, _⟩ | ⟨g2, _⟩ <;> omega
    · exact hr.disj g1 g2
  · intro c a b g1
    have g1 : (if c = e.objs.length then Ren.start s.next (St.init : St K V).next else φ c) a b := g1
    simp only [EnvW.create, List.length_append, List.length_singleton]
    split at g1
    · omega
    · have := hr.out g1; omega
  · intro j p hp
    obtain ⟨c, q, b1, b2, b3⟩ := hr.ptr hp
    refine ⟨c, q, b1, by simp only [EnvW.create, List.length_append, List.length_singleton]; omega, ?_⟩
    show PtrR (if c = e.objs.length then _ else φ c) p q
    rw [if_neg (by omega)]
    exact b3
  · intro c o hc
    simp only [EnvW.create]
    rw [List.getElem?_append_left (List.getElem?_eq_some_iff.1 hc).1, hc]
  · intro c o hc
    simp only [Worlds.create]
    rw [List.getElem?_append_left (List.getElem?_eq_some_iff.1 hc).1, hc]

theorem RelW.at {φ : Nat → Ren} {e : EnvW ι} {s : St K V} {w : Worlds ι K V} (hr : RelW φ e s w) {c : Nat} {i : ι} {h : Nat} (he : e.objs[c]? = some (i, h)) :
    ∃ k, w.objs[c]? = some (i, k) ∧ AtW c e w h k := by
  obtain ⟨k, h1, _⟩ := hr.obj he
  exact ⟨k, h1, i, he, h1⟩

theorem RelW.none {φ : Nat → Ren} {e : EnvW ι} {s : St K V} {w : Worlds ι K V} (hr : RelW φ e s w) {c : Nat} (he : e.objs[c]? = none) : w.objs[c]? = none := by
  rw [List.getElem?_eq_none_iff] at he ⊢
  rw [← hr.len]; exact he

/-- From a step on a container to the rest of the program. -/
theorem OutP.seq {α β : Type} {φ : Nat → Ren} {e : EnvW ι} {w : Worlds ι K V} {Q : (Nat → Ren) → α → St K V → β → St K V → Prop} {x : M K V α}
    {f : α → M K V (R × EnvW ι)} {s : St K V} {y : Except Fault (β × St K V)} {g : β → St K V → Except Fault (R × Worlds ι K V)}
    (h1 : OutW φ Q (x s) y) (h2 : ∀ φ' a s' b t', FLe φ φ' → Q φ' a s' b t' → OutP φ' e w (f a s') (g b t')) :
    OutP φ e w ((x >>= f) s) (andThen y g) := by
  rw [bind_run]
  rcases hx : x s with _ | ⟨a, s'⟩ <;> rcases y with _ | ⟨b, t'⟩ <;> rw [hx] at h1
  · exact h1
  · exact h1.elim
  · exact h1.elim
  · obtain ⟨φ', h3, h4⟩ := h1
    have h5 := h2 φ' a s' b t' h3 h4
    show OutP φ e w (f a s') (g b t')
    rcases hf : f a s' with _ | ⟨⟨r, e'⟩, s''⟩ <;> rcases hg : g b t' with _ | ⟨r', w'⟩ <;> rw [hf, hg] at h5
    · exact h5
    · exact h5.elim
    · exact h5.elim
    · obtain ⟨φ'', q1, q2⟩ := h5
      exact ⟨φ'', h3.trans q1, q2⟩

theorem OutP.grow {φ : Nat → Ren} {e e' : EnvW ι} {w w' : Worlds ι K V} (hg : GrowW e e' w w') {x : Except Fault ((R × EnvW ι) × St K V)}
    {y : Except Fault (R × Worlds ι K V)} (h : OutP φ e' w' x y) : OutP φ e w x y := by
  rcases x with _ | ⟨⟨r, e1⟩, s1⟩ <;> rcases y with _ | ⟨r', w1⟩
  · exact h
  · exact h
  · exact h
  · obtain ⟨φ', h1, h2, h3, h4⟩ := h
    exact ⟨φ', h1, h2, h3, hg.trans h4⟩

theorem growW_put (e : EnvW ι) (w : Worlds ι K V) (c : Nat) (t : St K V) : GrowW e e w (w.put c t) := ⟨fun _ _ h => h, fun _ _ h => h⟩

theorem growW_hold (e : EnvW ι) (w : Worlds ι K V) (c : Nat) (p q : Ptr) : GrowW e (e.hold p) w (w.hold c q) := ⟨fun _ _ h => h, fun _ _ h => h⟩

theorem run_apart {κ κ' : ι → Kind K V Op Out X} (hκ : ∀ i, KindSim (κ i) (κ' i)) {R : Type} (p : Prog ι K V Op Out X R) :
    ∀ {φ : Nat → Ren} {e : EnvW ι} {s : St K V} {w : Worlds ι K V}, RelW φ e s w → OutP φ e w (run κ p e s) (runApart κ' p w) := by
  induction p with
  | ret r => intro φ e s w hr; exact ⟨φ, FLe.refl φ, rfl, hr, GrowW.refl e w⟩
  | stop x => intro φ e s w hr; exact rfl
  | new i sd k ih =>
    intro φ e s w hr
    obtain ⟨s', t', φ', h1, h2, h3, h4, h5⟩ := hr.new i sd
    have h6 := (ih e.objs.length h4).grow h5
    unfold run runApart
    rw [bind_ok h1, h2]
    dsimp only [andThen]
    rw [← hr.len]
    rcases hx : run κ (k e.objs.length) (e.create i s.next) s' with _ | ⟨⟨r, e1⟩, s1⟩ <;>
      rcases hy : runApart κ' (k e.objs.length) (w.create i (St.init : St K V).next t') with _ | ⟨r', w1⟩ <;> rw [hx, hy] at h6
    · exact h6
    · exact h6
    · exact h6
    · obtain ⟨φ'', q1, q2⟩ := h6
      exact ⟨φ'', h3.trans q1, q2⟩
  | call c op k ih =>
    intro φ e s w hr
    unfold run runApart
    cases he : e.objs[c]? with
    | none => rw [hr.none he]; rfl
    | some ih' =>
      obtain ⟨i, h⟩ := ih'
      obtain ⟨k', h1, ha⟩ := hr.at he
      rw [h1]
      dsimp only
      refine OutP.seq (g := fun b t => runApart κ' (k b) (w.put c t)) (SimW.own ha ((hκ i).exec h k' (φ c) op) s (w.mem c) (by rw [Worlds.put_self]; exact hr)) ?_
      rintro φ' a s' b t' hle ⟨hq, hr'⟩
      cases hq
      exact (ih _ hr').grow (growW_put ..)
  | ptr c x k ih =>
    intro φ e s w hr
    unfold run runApart
    cases he : e.objs[c]? with
    | none => rw [hr.none he]; rfl
    | some ih' =>
      obtain ⟨i, h⟩ := ih'
      obtain ⟨k', h1, ha⟩ := hr.at he
      rw [h1]
      dsimp only
      refine OutP.seq (SimW.own ha ((hκ i).ptr h k' (φ c) x) s (w.mem c) (by rw [Worlds.put_self]; exact hr)) ?_
      rintro φ' a s' b t' hle ⟨hq, hr'⟩
      cases a <;> cases b
      · exact (ih _ hr').grow (growW_put ..)
      · exact hq.elim
      · exact hq.elim
      · dsimp only
        rw [← hr.plen]
        exact (ih _ (hr'.hold (List.getElem?_eq_some_iff.1 he).1 hq)).grow ((growW_put e w c t').trans (growW_hold ..))
  | read j k ih =>
    intro φ e s w hr
    unfold run runApart
    cases he : e.ptrs[j]? with
    | none =>
      have : w.ptrs[j]? = none := by
        rw [List.getElem?_eq_none_iff] at he ⊢
        rw [← hr.plen]; exact he
      rw [this]; rfl
    | some p =>
      obtain ⟨c, q, h1, h2, h3⟩ := hr.ptr he
      obtain ⟨k', h4, ha⟩ := hr.at (c := c) (i := (e.objs[c]).1) (h := (e.objs[c]).2) (List.getElem?_eq_getElem h2)
      rw [h1]
      dsimp only
      refine OutP.seq (g := fun b t => runApart κ' (k b.2) (w.put c t)) (SimW.own ha (Same.loadKv h3) s (w.mem c) (by rw [Worlds.put_self]; exact hr)) ?_
      rintro φ' a s' b t' hle ⟨hq, hr'⟩
      cases hq
      exact (ih _ hr').grow (growW_put ..)
  | write j v k ih =>
    intro φ e s w hr
    unfold run runApart
    cases he : e.ptrs[j]? with
    | none =>
      have : w.ptrs[j]? = none := by
        rw [List.getElem?_eq_none_iff] at he ⊢
        rw [← hr.plen]; exact he
      rw [this]; rfl
    | some p =>
      obtain ⟨c, q, h1, h2, h3⟩ := hr.ptr he
      obtain ⟨k', h4, ha⟩ := hr.at (c := c) (i := (e.objs[c]).1) (h := (e.objs[c]).2) (List.getElem?_eq_getElem h2)
      rw [h1]
      dsimp only
      refine OutP.seq (g := fun b t => runApart κ' k (w.put c t)) (SimW.own ha (Same.storeVal h3 v) s (w.mem c) (by rw [Worlds.put_self]; exact hr)) ?_
      rintro φ' a s' b t' hle ⟨hq, hr'⟩
      exact (ih hr').grow (growW_put ..)
  | all c f u k ihf ihk =>
    intro φ e s w hr
    unfold run runApart
    cases he : e.objs[c]? with
    | none => rw [hr.none he]; rfl
    | some ih' =>
      obtain ⟨i, h⟩ := ih'
      obtain ⟨k', h1, ha⟩ := hr.at he
      rw [h1]
      dsimp only
      refine OutP.seq (g := fun b t => runApart κ' (k b.1) (b.2.put c t)) ((hκ i).all ?_ u ha s (w.mem c) (by rw [Worlds.put_self]; exact hr)) ?_
      · intro φ e w u key p q ha' hpq s t hr'
        have hc : c < e.objs.length := by
          obtain ⟨_, h5, _⟩ := ha'
          exact (List.getElem?_eq_some_iff.1 h5).1
        have h6 := ihf u key e.ptrs.length (hr'.hold hc hpq)
        dsimp only
        rw [show w.ptrs.length = e.ptrs.length from hr'.plen.symm, bind_run]
        rcases hx : run κ (f u key e.ptrs.length) (e.hold p) s with _ | ⟨⟨⟨r, b⟩, e1⟩, s1⟩ <;>
          rcases hy : runApart κ' (f u key e.ptrs.length) ((w.put c t).hold c q) with _ | ⟨⟨r', b'⟩, w1⟩ <;> rw [hx, hy] at h6
        · exact h6
        · exact h6.elim
        · exact h6.elim
        · obtain ⟨φ', q1, q2, q3, q4⟩ := h6
          cases q2
          exact ⟨φ', q1, rfl, rfl, by rw [Worlds.put_self]; exact q3, ⟨q4.l, q4.r⟩⟩
      · rintro φ' ⟨u1, e1⟩ s' ⟨u2, w2⟩ t' hle ⟨q1, q2, q3⟩
        simp only at q1 q2 q3
        subst q1
        exact (ihk u1 q2).grow (q3.trans (growW_put ..))
  | mod c x f k ihf ihk =>
    intro φ e s w hr
    unfold run runApart
    cases he : e.objs[c]? with
    | none => rw [hr.none he]; rfl
    | some ih' =>
      obtain ⟨i, h⟩ := ih'
      obtain ⟨k', h1, ha⟩ := hr.at he
      rw [h1]
      dsimp only
      refine OutP.seq (g := fun b t => runApart κ' (k b.1) (b.2.put c t)) ((hκ i).mod ?_ x ha s (w.mem c) (by rw [Worlds.put_self]; exact hr)) ?_
      · intro φ p q b hpq s t hr'
        have hc : c < e.objs.length := (List.getElem?_eq_some_iff.1 he).1
        have h6 := ihf e.ptrs.length b (hr'.hold hc hpq)
        dsimp only
        rw [show w.ptrs.length = e.ptrs.length from hr'.plen.symm]
        rcases hx : run κ (f e.ptrs.length b) (e.hold p) s with _ | ⟨⟨r, e1⟩, s1⟩ <;>
          rcases hy : runApart κ' (f e.ptrs.length b) ((w.put c t).hold c q) with _ | ⟨r', w1⟩ <;> rw [hx, hy] at h6
        · exact h6
        · exact h6.elim
        · exact h6.elim
        · obtain ⟨φ', q1, q2, q3, q4⟩ := h6
          exact ⟨φ', q1, q2, by rw [Worlds.put_self]; exact q3, ⟨q4.l, q4.r⟩⟩
      · rintro φ' ⟨u1, e1⟩ s' ⟨u2, w2⟩ t' hle ⟨q1, q2, q3⟩
        simp only at q1 q2 q3
        subst q1
        exact (ihk u1 q2).grow (q3.trans (growW_put ..))

/-- Nothing has been created. -/
def EnvW.none : EnvW ι := ⟨[], []⟩

def Worlds.none : Worlds ι K V := ⟨[], fun _ => St.init, []⟩

theorem RelW.init (s : St K V) : RelW (ι := ι) (fun _ _ _ => False) EnvW.none s Worlds.none where
  len := rfl
  obj := by intro c i h hc; simp [EnvW.none] at hc
  disj := by intro c c' a b b' h; exact h.elim
  out := by intro c a b h; exact h.elim
  plen := rfl
  ptr := by intro j p hp; simp [EnvW.none] at hp

theorem run_outcome {κ κ' : ι → Kind K V Op Out X} (hκ : ∀ i, KindSim (κ i) (κ' i)) {R : Type} (p : Prog ι K V Op Out X R) (s : St K V) :
    outcome (outcome (run κ p EnvW.none s)) = outcome (runApart κ' p Worlds.none) := by
  have h := run_apart hκ p (RelW.init s)
  rcases hx : run κ p EnvW.none s with _ | ⟨⟨r, e1⟩, s1⟩ <;> rcases hy : runApart κ' p Worlds.none with _ | ⟨r', w1⟩ <;> rw [hx, hy] at h
  · exact congrArg _ h
  · exact h.elim
  · exact h.elim
  · obtain ⟨_, _, rfl, _⟩ := h; rfl

/-- C67: whatever a program does with any number of maps, what it sees (its result, or its fault, or that it hangs) is what it would see with
every map in a memory of its own. -/
theorem C67_map [Inhabited V] (I : ι → MapImpl K V) (hI : ∀ i, ∃ g, IsMap (I i) g) (fuel : Nat) {R : Type} (p : Prog ι K V (MOp K V) (MOut K V) K R) (s : St K V) :
    outcome (outcome (run (fun i => (I i).kind fuel) p EnvW.none s)) = outcome (runApart (fun i => (I i).kind fuel) p Worlds.none) :=
  run_outcome (fun i => (hI i).elim fun _ h => MapImpl.kind_ok h.blind fuel) p s

/-- C67 for the sets. -/
theorem C67_set (I : ι → SetImpl K) (hI : ∀ i, ∃ g, IsSet (I i) g) (fuel : Nat) {R : Type} (p : Prog ι K Unit (SOp K) (SOut K) Empty R) (s : St K Unit) :
    outcome (outcome (run (fun i => (I i).kind fuel) p EnvW.none s)) = outcome (runApart (fun i => (I i).kind fuel) p Worlds.none) :=
  run_outcome (fun i => (hI i).elim fun _ h => SetImpl.kind_ok h.blind fuel) p s

end

end Amt
