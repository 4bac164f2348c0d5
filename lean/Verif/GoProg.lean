/-
Programs over the translated methods (`Go*.lean`), for the client programs `Spec.Prog` of `Verif/PropsApart.lean`.
-/
import Verif.GoCells

set_option linter.unusedVariables false
set_option linter.unusedSectionVars false
set_option linter.unusedSimpArgs false

namespace Amt.Go
open Amt Spec

/-- The translated methods of a kind of container.  `exec` is given the content of the scratch array `root.path` (amt.go:36) and returns it. -/
structure CodeKind (K V Op Out X : Type) : Type 1 where
  exec : Handle → List PathLink → Op → M K V (Out × List PathLink)
  ptr : Handle → X → M K V (Option Amt.Ptr)
  all : {U : Type} → Handle → (U → K → Amt.Ptr → M K V (U × Bool)) → U → M K V U
  mod : {U : Type} → Handle → X → (U → Amt.Ptr → Bool → M K V U) → U → M K V U

/-- The maps.  A nil pointer is `none`. -/
def MapFull.kind {K V : Type} [Inhabited V] (G : MapFull K V) (n : Nat) : CodeKind K V (MOp K V) (MOut K V) K where
  exec := G.code.exec n
  ptr := fun m x => G.code.Ptr n m x >>= fun p => pure (if p = .nil then none else some p)
  all := G.All n
  mod := G.Mod n

/-- The sets. -/
def SetFull.kind {K : Type} (G : SetFull K) (n : Nat) : CodeKind K Unit (SOp K) (SOut K) Empty where
  exec := G.code.exec n
  ptr := fun _ x => x.elim
  all := fun m f u => G.All n m (fun u k => f u k .nil) u
  mod := fun _ x => x.elim

/-- The containers of a program, with the content of their scratch arrays, and the pointers it has kept. -/
structure EnvG (ι : Type) where
  objs : List (ι × Nat × List PathLink)
  ptrs : List Amt.Ptr

namespace EnvG
variable {ι : Type}

def none : EnvG ι := ⟨[], []⟩

/-- A container is created; its scratch array is zeroed. -/
def create (e : EnvG ι) (i : ι) (h : Nat) : EnvG ι := { e with objs := e.objs ++ [(i, h, blank)] }

/-- A pointer is kept. -/
def hold (e : EnvG ι) (p : Amt.Ptr) : EnvG ι := { e with ptrs := e.ptrs ++ [p] }

/-- The scratch array of a container after a call. -/
def scratch (e : EnvG ι) (c : Nat) (i : ι) (h : Nat) (path : List PathLink) : EnvG ι := { e with objs := e.objs.set c (i, h, path) }

end EnvG

section
variable {ι K V Op Out X R : Type}

/-- Run a program over the translated methods. -/
def runGo (C : ι → CodeKind K V Op Out X) : {R : Type} → Prog ι K V Op Out X R → EnvG ι → M K V (R × EnvG ι)
  | _, .ret r, e => pure (r, e)
  | _, .stop x, e => M.fail x
  | _, .new i sd k, e => Amt.newRoot sd >>= fun m =>
    match m with
    | none => M.fail .nilDeref
    | some h => runGo C (k e.objs.length) (e.create i h)
  | _, .call c op k, e =>
    match e.objs[c]? with
    | none => M.fail .nilDeref
    | some (i, h, path) => (C i).exec (some h) path op >>= fun o => runGo C (k o.1) (e.scratch c i h o.2)
  | _, .ptr c x k, e =>
    match e.objs[c]? with
    | none => M.fail .nilDeref
    | some (i, h, _) => (C i).ptr (some h) x >>= fun p =>
      match p with
      | none => runGo C (k none) e
      | some p => runGo C (k (some e.ptrs.length)) (e.hold p)
  | _, .read p k, e =>
    match e.ptrs[p]? with
    | none => M.fail .nilDeref
    | some p => loadKv p >>= fun kv => runGo C (k kv.2) e
  | _, .write p v k, e =>
    match e.ptrs[p]? with
    | none => M.fail .nilDeref
    | some p => storeVal p v >>= fun _ => runGo C k e
  | _, .all c f u k, e =>
    match e.objs[c]? with
    | none => M.fail .nilDeref
    | some (i, h, _) =>
      (C i).all (some h) (fun ue key p => runGo C (f ue.1 key ue.2.ptrs.length) (ue.2.hold p) >>= fun r => pure ((r.1.1, r.2), r.1.2)) (u, e) >>= fun r =>
        runGo C (k r.1) r.2
  | _, .mod c x f k, e =>
    match e.objs[c]? with
    | none => M.fail .nilDeref
    | some (i, h, _) =>
      (C i).mod (some h) x (fun _ p b => runGo C (f e.ptrs.length b) (e.hold p) >>= fun r => pure (some r)) none >>= fun r =>
        match r with
        | none => M.fail .nilDeref
        | some r => runGo C (k r.1) r.2

/-- No callbacks of `Mod` that are programs. -/
def NoMod : {R : Type} → Prog ι K V Op Out X R → Prop
  | _, .ret _ => True
  | _, .stop _ => True
  | _, .new _ _ k => ∀ c, NoMod (k c)
  | _, .call _ _ k => ∀ o, NoMod (k o)
  | _, .ptr _ _ k => ∀ p, NoMod (k p)
  | _, .read _ k => ∀ v, NoMod (k v)
  | _, .write _ _ k => NoMod k
  | _, .all _ f _ k => (∀ u key p, NoMod (f u key p)) ∧ ∀ u, NoMod (k u)
  | _, .mod _ _ _ _ => False

/-- The methods `C`, between those of `κ` and those of `κ'`, which have larger loop bounds; `Mod` with programs as callbacks only if `μ`. -/
structure Follows (μ : Prop) (C : CodeKind K V Op Out X) (κ κ' : Kind K V Op Out X) : Prop where
  exec_lo : ∀ h path op, path.length = 12 → SimT (fun a b => a.1 = b ∧ a.2.length = 12) (C.exec (some h) path op) (κ.exec (some h) op)
  exec_hi : ∀ h path op, path.length = 12 → SimT (fun b a => a.1 = b ∧ a.2.length = 12) (κ'.exec (some h) op) (C.exec (some h) path op)
  ptr_lo : ∀ h x, SimT Eq (C.ptr (some h) x) (κ.ptr (some h) x)
  ptr_hi : ∀ h x, SimT Eq (κ'.ptr (some h) x) (C.ptr (some h) x)
  all_lo : ∀ {U U' : Type} {Q : U → U' → Prop} (h : Nat) {f : U → K → Amt.Ptr → M K V (U × Bool)} {f' : U' → K → Amt.Ptr → M K V (U' × Bool)},
    (∀ u u' k p, Q u u' → SimT (Stop Q) (f u k p) (f' u' k p)) → ∀ u u', Q u u' → SimT Q (C.all (some h) f u) (κ.all (some h) f' u')
  all_hi : ∀ {U U' : Type} {Q : U → U' → Prop} (h : Nat) {f : U → K → Amt.Ptr → M K V (U × Bool)} {f' : U' → K → Amt.Ptr → M K V (U' × Bool)},
    (∀ u u' k p, Q u u' → SimT (Stop Q) (f u k p) (f' u' k p)) → ∀ u u', Q u u' → SimT Q (κ'.all (some h) f u) (C.all (some h) f' u')
  mod_lo : μ → ∀ {U R : Type} {Q : U → R → Prop} (h : Nat) (x : X) {f : U → Amt.Ptr → Bool → M K V U} {f' : Amt.Ptr → Bool → M K V R} (u : U),
    (∀ p b, Neat (f u p b)) → (∀ p b, SimT Q (f u p b) (f' p b)) → SimT Q (C.mod (some h) x f u) (κ.mod (some h) x f')
  mod_hi : μ → ∀ {U R : Type} {Q : R → U → Prop} (h : Nat) (x : X) {f : U → Amt.Ptr → Bool → M K V U} {f' : Amt.Ptr → Bool → M K V R} (u : U),
    (∀ p b, SimT Q (f' p b) (f u p b)) → SimT Q (κ'.mod (some h) x f') (C.mod (some h) x f u)

/-- The same containers and the same pointers. -/
structure EnvR (g : EnvG ι) (e : EnvW ι) : Prop where
  objs : e.objs = g.objs.map fun o => (o.1, o.2.1)
  ptrs : e.ptrs = g.ptrs
  path : ∀ o ∈ g.objs, o.2.2.length = 12

theorem EnvR.none : EnvR (EnvG.none : EnvG ι) EnvW.none := ⟨rfl, rfl, by intro o h; simp [EnvG.none] at h⟩

theorem EnvR.len {g : EnvG ι} {e : EnvW ι} (h : EnvR g e) : e.objs.length = g.objs.length := by rw [h.objs, List.length_map]

theorem EnvR.hold {g : EnvG ι} {e : EnvW ι} (h : EnvR g e) (p : Amt.Ptr) : EnvR (g.hold p) (e.hold p) := by
  refine ⟨h.objs, ?_, h.path⟩
  show e.ptrs ++ [p] = g.ptrs ++ [p]
  rw [h.ptrs]

theorem EnvR.create {g : EnvG ι} {e : EnvW ι} (h : EnvR g e) (i : ι) (a : Nat) : EnvR (g.create i a) (e.create i a) := by
  refine ⟨?_, h.ptrs, fun o ho => ?_⟩
  · show e.objs ++ [(i, a)] = (g.objs ++ [(i, a, blank)]).map _
    rw [h.objs, List.map_append]
    rfl
  · have ho : o ∈ g.objs ++ [(i, a, blank)] := ho
    rcases List.mem_append.1 ho with h1 | h1
    · exact h.path o h1
    · rw [List.mem_singleton.1 h1]; exact (show blank.length = 12 from by decide)

theorem EnvR.at {g : EnvG ι} {e : EnvW ι} (h : EnvR g e) (c : Nat) :
    (g.objs[c]? = .none ∧ e.objs[c]? = .none) ∨ (∃ i a path, g.objs[c]? = some (i, a, path) ∧ e.objs[c]? = some (i, a) ∧ path.length = 12) := by
  cases hc : g.objs[c]? with
  | none => left; exact ⟨rfl, by rw [h.objs, List.getElem?_map, hc]; rfl⟩
  | some o =>
    right
    obtain ⟨i, a, path⟩ := o
    exact ⟨i, a, path, rfl, by rw [h.objs, List.getElem?_map, hc]; rfl, h.path _ (List.mem_of_getElem? hc)⟩

theorem EnvR.scratch {g : EnvG ι} {e : EnvW ι} (h : EnvR g e) {c : Nat} {i : ι} {a : Nat} {path path' : List PathLink} (hc : g.objs[c]? = some (i, a, path))
    (hp : path'.length = 12) : EnvR (g.scratch c i a path') e := by
  refine ⟨?_, h.ptrs, fun o ho => ?_⟩
  · rw [h.objs]
    refine List.ext_getElem? fun j => ?_
    show _ = ((g.objs.set c (i, a, path')).map _)[j]?
    rw [List.getElem?_map, List.getElem?_map, List.getElem?_set]
    by_cases hj : c = j
    · subst hj
      rw [if_pos rfl, if_pos (List.getElem?_eq_some_iff.1 hc).1, hc]
      rfl
    · rw [if_neg hj]
  · have ho : o ∈ g.objs.set c (i, a, path') := ho
    rcases List.mem_or_eq_of_mem_set ho with h1 | h1
    · exact h.path o h1
    · rw [h1]; exact hp

/-- The results of a program. -/
def RunR (a : R × EnvG ι) (b : R × EnvW ι) : Prop := a.1 = b.1 ∧ EnvR a.2 b.2

theorem runGo_sim {μ : Prop} {C : ι → CodeKind K V Op Out X} {κ κ' : ι → Kind K V Op Out X} (hC : ∀ i, Follows μ (C i) (κ i) (κ' i)) {R : Type} (p : Prog ι K V Op Out X R) :
    (μ ∨ NoMod p) → ∀ {g : EnvG ι} {e : EnvW ι}, EnvR g e → SimT RunR (runGo C p g) (Amt.run κ p e) ∧ SimT (fun b a => RunR a b) (Amt.run κ' p e) (runGo C p g) := by
  induction p with
  | ret r => intro hp g e h; exact ⟨SimT.pure ⟨rfl, h⟩, SimT.pure ⟨rfl, h⟩⟩
  | stop x => intro hp g e h; exact ⟨SimT.fail _, SimT.fail _⟩
  | new i sd k ih =>
    intro hp g e h
    unfold runGo Amt.run
    have hn : SimT Eq (Amt.newRoot sd : M K V Handle) (Amt.newRoot sd) := SimT.same (newRoot_neat sd) (CellsStay.newRoot sd)
    rw [h.len]
    refine ⟨hn.bind ?_, hn.bind ?_⟩ <;> rintro m _ rfl <;> cases m with
    | none => exact SimT.fail _
    | some a => first | exact (ih _ (hp.imp id fun q => q _) (h.create i a)).1 | exact (ih _ (hp.imp id fun q => q _) (h.create i a)).2
  | call c op k ih =>
    intro hp g e h
    unfold runGo Amt.run
    rcases h.at c with ⟨h1, h2⟩ | ⟨i, a, path, h1, h2, h3⟩
    · rw [h1, h2]; exact ⟨SimT.fail _, SimT.fail _⟩
    · rw [h1, h2]
      dsimp only
      refine ⟨((hC i).exec_lo a path op h3).bind ?_, ((hC i).exec_hi a path op h3).bind ?_⟩
      · rintro ⟨o, q⟩ b ⟨rfl, hq⟩; exact (ih o (hp.imp id fun q => q _) (h.scratch h1 hq)).1
      · rintro b ⟨o, q⟩ ⟨rfl, hq⟩; exact (ih o (hp.imp id fun q => q _) (h.scratch h1 hq)).2
  | ptr c x k ih =>
    intro hp g e h
    unfold runGo Amt.run
    rcases h.at c with ⟨h1, h2⟩ | ⟨i, a, path, h1, h2, h3⟩
    · rw [h1, h2]; exact ⟨SimT.fail _, SimT.fail _⟩
    · rw [h1, h2]
      dsimp only
      rw [h.ptrs]
      refine ⟨((hC i).ptr_lo a x).bind ?_, ((hC i).ptr_hi a x).bind ?_⟩ <;> rintro o _ rfl <;> cases o with
      | none => first | exact (ih _ (hp.imp id fun q => q _) h).1 | exact (ih _ (hp.imp id fun q => q _) h).2
      | some p => first | exact (ih _ (hp.imp id fun q => q _) (h.hold p)).1 | exact (ih _ (hp.imp id fun q => q _) (h.hold p)).2
  | read p k ih =>
    intro hp g e h
    unfold runGo Amt.run
    rw [h.ptrs]
    cases g.ptrs[p]? with
    | none => exact ⟨SimT.fail _, SimT.fail _⟩
    | some q =>
      refine ⟨(SimT.reads (Reads.loadKv q)).bind ?_, (SimT.reads (Reads.loadKv q)).bind ?_⟩ <;> rintro kv _ rfl
      · exact (ih _ (hp.imp id fun q => q _) h).1
      · exact (ih _ (hp.imp id fun q => q _) h).2
  | write p v k ih =>
    intro hp g e h
    unfold runGo Amt.run
    rw [h.ptrs]
    cases g.ptrs[p]? with
    | none => exact ⟨SimT.fail _, SimT.fail _⟩
    | some q =>
      have hw : SimT Eq (storeVal q v : M K V Unit) (storeVal q v) := SimT.same (Neat.storeVal q v) (CellsStay.storeVal q v)
      exact ⟨hw.bind fun _ _ _ => (ih hp h).1, hw.bind fun _ _ _ => (ih hp h).2⟩
  | all c f u k ihf ihk =>
    intro hp g e h
    unfold runGo Amt.run
    rcases h.at c with ⟨h1, h2⟩ | ⟨i, a, path, h1, h2, h3⟩
    · rw [h1, h2]; exact ⟨SimT.fail _, SimT.fail _⟩
    · rw [h1, h2]
      dsimp only
      refine ⟨((hC i).all_lo (Q := RunR) a ?_ _ _ ⟨rfl, h⟩).bind ?_, ((hC i).all_hi (Q := fun b a => RunR a b) a ?_ _ _ ⟨rfl, h⟩).bind ?_⟩
      · rintro ⟨u, g⟩ ⟨_, e⟩ key p ⟨rfl, he⟩
        dsimp only at he ⊢
        rw [he.ptrs]
        refine (ihf u key _ (hp.imp id fun q => q.1 _ _ _) (he.hold p)).1.bind ?_
        rintro ⟨⟨u1, b1⟩, g1⟩ ⟨⟨u2, b2⟩, e2⟩ ⟨hr, he'⟩
        cases hr
        exact SimT.pure ⟨⟨rfl, he'⟩, rfl⟩
      · rintro ⟨u, g⟩ ⟨_, e⟩ ⟨rfl, he⟩
        exact (ihk u (hp.imp id fun q => q.2 _) he).1
      · rintro ⟨u, e⟩ ⟨_, g⟩ key p ⟨rfl, he⟩
        dsimp only at he ⊢
        rw [he.ptrs]
        refine (ihf _ key _ (hp.imp id fun q => q.1 _ _ _) (he.hold p)).2.bind ?_
        rintro ⟨⟨u1, b1⟩, g1⟩ ⟨⟨u2, b2⟩, e2⟩ ⟨hr, he'⟩
        cases hr
        exact SimT.pure ⟨⟨rfl, he'⟩, rfl⟩
      · rintro ⟨u, e⟩ ⟨_, g⟩ ⟨rfl, he⟩
        exact (ihk _ (hp.imp id fun q => q.2 _) he).2
  | mod c x f k ihf ihk =>
    intro hp g e h
    replace hp : μ := hp.elim id fun q => q.elim
    unfold runGo Amt.run
    rcases h.at c with ⟨h1, h2⟩ | ⟨i, a, path, h1, h2, h3⟩
    · rw [h1, h2]; exact ⟨SimT.fail _, SimT.fail _⟩
    · rw [h1, h2]
      dsimp only
      rw [h.ptrs]
      have lo := fun p b => (ihf g.ptrs.length b (Or.inl hp) (h.hold p)).1
      have hi := fun p b => (ihf g.ptrs.length b (Or.inl hp) (h.hold p)).2
      refine ⟨((hC i).mod_lo hp (Q := fun a b => ∃ r, a = some r ∧ RunR r b) a x none ?_ ?_).bind ?_,
        ((hC i).mod_hi hp (Q := fun b a => ∃ r, a = some r ∧ RunR r b) a x none ?_).bind ?_⟩
      · intro p b
        exact Neat.bind (hi p b).neat fun r => Neat.pure _
      · intro p b s hs
        have h4 := (lo p b).bind (f := fun r => Pure.pure (some r)) (g := fun r => Pure.pure r) (Q' := fun a b => ∃ r, a = some r ∧ RunR r b)
          (fun r r' hr => SimT.pure ⟨r, rfl, hr⟩)
        rw [bind_pure_M] at h4
        exact h4 s hs
      · rintro _ b ⟨⟨r, g1⟩, rfl, hr, he⟩
        dsimp only at hr he ⊢
        rw [← hr]
        exact (ihk r (Or.inl hp) he).1
      · intro p b s hs
        have h4 := (hi p b).bind (f := fun r => Pure.pure r) (g := fun r => Pure.pure (some r)) (Q' := fun b a => ∃ r, a = some r ∧ RunR r b)
          (fun r r' hr => SimT.pure ⟨r', rfl, hr⟩)
        rw [bind_pure_M] at h4
        exact h4 s hs
      · rintro b _ ⟨⟨r, g1⟩, rfl, hr, he⟩
        dsimp only at hr he ⊢
        rw [← hr]
        exact (ihk r (Or.inl hp) he).2

end

end Amt.Go
