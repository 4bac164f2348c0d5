/-
C80: a client program over the translated methods does what it does over the model: any number of containers, kept pointers, and callbacks
that are programs.
-/
import Verif.GoProg
import Verif.BugsCallback

set_option linter.unusedVariables false
set_option linter.unusedSectionVars false
set_option linter.unusedSimpArgs false

namespace Amt.Go
open Amt Spec

section
variable {K V : Type} [Inhabited V]

theorem MapFullOf.code {G : MapFull K V} {I : MapImpl K V} (h : MapFullOf G I) : Mirrors G.code I := by
  cases h with
  | string sum => exact stringMap_mirrors sum
  | bytes sum => exact bytesMap_mirrors sum
  | arr sum kb => exact arrMap_mirrors sum kb
  | int sum => exact intMap_mirrors sum
  | generic I => exact map_mirrors I

theorem MapFullOf.stay {G : MapFull K V} {I : MapImpl K V} (h : MapFullOf G I) : (∀ k v, InsStay (I.setI k v)) ∧ ∀ k f, InsStay (I.modI k f) := by
  cases h with
  | string sum => exact ⟨fun k v => setIns_stay .., fun k f => modIns_stay ..⟩
  | bytes sum => exact ⟨fun k v => setIns_stay .., fun k f => modIns_stay ..⟩
  | arr sum kb => exact ⟨fun k v => setInsArr_stay .., fun k f => modIns_stay ..⟩
  | int sum => exact ⟨fun k v => setIns_stay .., fun k f => modIns_stay ..⟩
  | generic I => exact ⟨fun k v => setIns_stay .., fun k f => modIns_stay ..⟩

theorem MapFullOf.forget {G : MapFull K V} {I : MapImpl K V} (h : MapFullOf G I) : I.cfg.forget = false := by
  cases h <;> rfl

/-- The model with the cell for a free slot made late. -/
def lateKind (I : MapImpl K V) (n : Nat) : Kind K V (MOp K V) (MOut K V) K :=
  { I.kind n with exec := fun m op => deref m >>= fun h => lateExec I h n op }

theorem Between.sim_lo {Out : Type} {x : M K V (Out × List PathLink)} {y : Nat → M K V Out} {n : Nat} (hy : CellsStay (y n)) (h : ∀ s, Tidy s → Between x y n s) :
    SimT (fun a b => a.1 = b ∧ a.2.length = 12) x (y n) := by
  intro s hs
  rcases (h s hs).lo with h1 | h1
  · exact Or.inl h1
  · right
    rcases hx : x s with e | ⟨⟨a, p⟩, t⟩ <;> rcases hy' : y n s with e' | ⟨b, t'⟩ <;> rw [hx, hy'] at h1
    · exact h1
    · exact h1.elim
    · exact h1.elim
    · obtain ⟨rfl, rfl, h2, h3⟩ := h1
      exact ⟨rfl, h3, hy _ _ _ hy', rfl, h2⟩

theorem Between.sim_hi {Out : Type} {x : M K V (Out × List PathLink)} {y : Nat → M K V Out} {n : Nat} (hy : CellsStay (y (n + 301))) (h : ∀ s, Tidy s → Between x y n s) :
    SimT (fun b a => a.1 = b ∧ a.2.length = 12) (y (n + 301)) x := by
  intro s hs
  rcases (h s hs).hi with h1 | h1
  · exact Or.inl h1
  · right
    rcases hx : x s with e | ⟨⟨a, p⟩, t⟩ <;> rcases hy' : y (n + 301) s with e' | ⟨b, t'⟩ <;> rw [hx, hy'] at h1
    · exact h1.symm
    · exact h1.elim
    · exact h1.elim
    · obtain ⟨rfl, rfl, h2, h3⟩ := h1
      exact ⟨rfl, h3, hy _ _ _ hy', rfl, h2⟩

/-- Where the keys are in cells, a key that is found has a cell. -/
theorem lookupX_cell {c : Cfg K} (hc : c.store = .boxed) (h n : Nat) (key : K) {s t : St K V} {p : Amt.Ptr} (he : lookupX c h n key s = .ok (some p, t)) : p ≠ .nil := by
  unfold lookupX at he
  obtain ⟨r, s1, e1, he⟩ := ok_bind he
  obtain ⟨⟨cur, b⟩, s2, e2, he⟩ := ok_bind he
  dsimp only at he
  cases b with
  | false => cases he
  | true =>
    rw [if_pos rfl] at he
    obtain ⟨item, s3, e3, he⟩ := ok_bind he
    obtain ⟨x, s4, e4, he⟩ := ok_bind he
    obtain ⟨k, s5, e5, he⟩ := ok_bind he
    split at he
    · cases he
      intro hx
      unfold readKey at e5
      rw [hc, hx] at e5
      cases e5
    · cases he

theorem ptr_lookup {G : MapCode K V} {I : MapImpl K V} (hG : Mirrors G I) (hc : I.cfg.store = .boxed) (n h : Nat) (key : K) (s : St K V) :
    (G.Ptr n (some h) key >>= fun p => pure (if p = .nil then none else some p)) s = lookupX I.cfg h (n + 300) key s := by
  have h1 : G.Ptr n (some h) key s = ptrX I.cfg h (n + 300) key s := hG.ptr n h key s
  rw [bind_run, h1]
  unfold ptrX
  rw [bind_run]
  cases he : lookupX I.cfg h (n + 300) key s with
  | error e => rfl
  | ok r =>
    obtain ⟨o, t⟩ := r
    cases o with
    | none => rfl
    | some p =>
      cases p with
      | nil => exact absurd rfl (lookupX_cell hc h _ key he)
      | blk b => rfl

theorem map_follows {G : MapFull K V} {I : MapImpl K V} (h : MapFullOf G I) (hc : I.cfg.store = .boxed) (n : Nat) :
    Follows True (G.kind n) (lateKind I n) (lateKind I (n + 301)) where
  exec_lo a path op hp := Between.sim_lo (y := fun n => lateExec I a n op) (CellsStay.lateExec h.stay.1 h.stay.2 a n op) fun s hs => exec_between h.code a n path op s hp hs
  exec_hi a path op hp := Between.sim_hi (y := fun n => lateExec I a n op) (CellsStay.lateExec h.stay.1 h.stay.2 a _ op) fun s hs => exec_between h.code a n path op s hp hs
  ptr_lo a x := by
    refine SimT.eq_left (fun s _ => ptr_lookup h.code hc n a x s) (SimT.less (SimT.reads (Reads.lookupX _ _ _ _)) (lookup_lo I.cfg a n x))
  ptr_hi a x := by
    refine SimT.eq_right (fun s _ => ptr_lookup h.code hc n a x s) (SimT.more (SimT.reads (Reads.lookupX _ _ _ _)) (lookupX_lookup I.cfg a (n + 300) x))
  all_lo := by
    intro U U' Q a f f' hf u u' hu
    show SimT Q (G.All n (some a) f u) (I.AllWith n (some a) f' u')
    rw [C79_map_All h]
    exact SimT.bind (Q := Stop Q) (SimT.scan (fun u u' x hq => (SimT.visit hc hf u u' x hq).1) (Nat.le_refl n) u u' _ hu) fun r r' hr => SimT.pure hr.1
  all_hi := by
    intro U U' Q a f f' hf u u' hu
    show SimT Q (I.AllWith (n + 301) (some a) f u) (G.All n (some a) f' u')
    rw [C79_map_All h]
    exact SimT.bind (Q := Stop Q) (SimT.scan (fun u u' x hq => (SimT.visit hc hf u u' x hq).2) (Nat.le_add_right n 301) u u' _ hu) fun r r' hr => SimT.pure hr.1
  mod_lo := by
    intro _ U R Q a x f f' u hn hf
    refine SimT.eq_left (fun s hs => mod_upsert h n a x f u (modNew_neat _ x hn) hs) (SimT.more ?_ (upsert_lo I.cfg a n x (mod_mono h x f u)))
    have h1 := SimT.upsert (V := V) hc h.forget a n x (I.modI x fun v _ => v).chash (I.modI x fun v _ => v).guard
      (Q := Q) (cb := fun p b => fieldAddr p >>= fun q => f u q b) (cb' := f') (fun p b s hs hp => by rw [hp.field]; exact hf p b s hs)
    unfold withCb at h1
    unfold modG modNew
    simp only [bind_assoc_M] at h1 ⊢
    exact h1
  mod_hi := by
    intro _ U R Q a x f f' u hf
    refine SimT.eq_right (fun s hs => mod_upsert h n a x f u (modNew_neat _ x fun p b => (hf p b).neat) hs) (SimT.less ?_ (upsert_hi I.cfg a (n + 300) x (mod_mono h x f u)))
    have h1 := SimT.upsert (V := V) hc h.forget a (n + 300 + 1) x (I.modI x fun v _ => v).chash (I.modI x fun v _ => v).guard
      (Q := Q) (cb := f') (cb' := fun p b => fieldAddr p >>= fun q => f u q b) (fun p b s hs hp => by rw [hp.field]; exact hf p b s hs)
    unfold withCb at h1
    unfold modG modNew
    simp only [bind_assoc_M] at h1 ⊢
    exact h1

/-! ### The sets -/

theorem SetFullOf.code {K : Type} {G : SetFull K} {I : SetImpl K} (h : SetFullOf G I) : SetMirrors G.code I := by
  cases h with
  | string sum => exact stringSet_mirrors sum
  | bytes sum => exact bytesSet_mirrors sum
  | arr sum kb => exact arrSet_mirrors sum kb
  | int sum => exact intSet_mirrors sum
  | generic I => exact set_mirrors I

theorem SetFullOf.stay {K : Type} {G : SetFull K} {I : SetImpl K} (h : SetFullOf G I) : ∀ k, InsStay (I.addI k) := by
  cases h <;> exact fun k => addIns_stay ..

def lateKindS {K : Type} (I : SetImpl K) (n : Nat) : Kind K Unit (SOp K) (SOut K) Empty :=
  { I.kind n with exec := fun m op => deref m >>= fun h => lateExecS I h n op }

theorem set_follows {K : Type} {G : SetFull K} {I : SetImpl K} (h : SetFullOf G I) (n : Nat) : Follows True (G.kind n) (lateKindS I n) (lateKindS I (n + 301)) where
  exec_lo a path op hp := Between.sim_lo (y := fun n => lateExecS I a n op) (CellsStay.lateExecS h.stay a n op) fun s hs => execS_between h.code a n path op s hp hs
  exec_hi a path op hp := Between.sim_hi (y := fun n => lateExecS I a n op) (CellsStay.lateExecS h.stay a _ op) fun s hs => execS_between h.code a n path op s hp hs
  ptr_lo a x := x.elim
  ptr_hi a x := x.elim
  all_lo := by
    intro U U' Q a f f' hf u u' hu
    show SimT Q (G.All n (some a) (fun u k => f u k .nil) u) (I.AllWith n (some a) (fun u k => f' u k .nil) u')
    rw [C79_set_All h]
    refine SimT.bind (Q := Stop Q) (SimT.scan (fun u u' x hq => ?_) (Nat.le_refl n) u u' _ hu) fun r r' hr => SimT.pure hr.1
    exact SimT.bind (SimT.reads (Reads.readKey _ _)) (by rintro k _ rfl; exact hf u u' k .nil hq)
  all_hi := by
    intro U U' Q a f f' hf u u' hu
    show SimT Q (I.AllWith (n + 301) (some a) (fun u k => f u k .nil) u) (G.All n (some a) (fun u k => f' u k .nil) u')
    rw [C79_set_All h]
    refine SimT.bind (Q := Stop Q) (SimT.scan (fun u u' x hq => ?_) (Nat.le_add_right n 301) u u' _ hu) fun r r' hr => SimT.pure hr.1
    exact SimT.bind (SimT.reads (Reads.readKey _ _)) (by rintro k _ rfl; exact hf u u' k .nil hq)
  mod_lo := by intro _ U R Q a x; exact x.elim
  mod_hi := by intro _ U R Q a x; exact x.elim

end

/-! ### The theorem -/

section
variable {ι K V Op Out X R : Type}

/-- What a program sees: its result, or its fault, or that it has been cut off. -/
def seen {E : Type} (x : Except Fault ((R × E) × St K V)) : Except Fault R := outcome (outcome x)

theorem seen_lo {x : M K V (R × EnvG ι)} {y : M K V (R × EnvW ι)} (h : SimT RunR x y) {s : St K V} (hs : Tidy s) : seen (y s) = .error .diverge ∨ seen (x s) = seen (y s) := by
  rcases h s hs with h1 | h1
  · left; rw [h1]; rfl
  · right
    rcases hx : x s with e | ⟨⟨a, p⟩, t⟩ <;> rcases hy : y s with e' | ⟨⟨b, q⟩, t'⟩ <;> rw [hx, hy] at h1
    · exact congrArg _ h1
    · exact h1.elim
    · exact h1.elim
    · obtain ⟨_, _, _, h2, _⟩ := h1
      exact congrArg _ h2

theorem seen_hi {x : M K V (R × EnvG ι)} {y : M K V (R × EnvW ι)} (h : SimT (fun b a => RunR a b) y x) {s : St K V} (hs : Tidy s) :
    seen (x s) = .error .diverge ∨ seen (y s) = seen (x s) := by
  rcases h s hs with h1 | h1
  · left; rw [h1]; rfl
  · right
    rcases hx : x s with e | ⟨⟨a, p⟩, t⟩ <;> rcases hy : y s with e' | ⟨⟨b, q⟩, t'⟩ <;> rw [hx, hy] at h1
    · exact congrArg _ h1
    · exact h1.elim
    · exact h1.elim
    · obtain ⟨_, _, _, h2, _⟩ := h1
      exact congrArg _ h2.symm

theorem late_map [Inhabited V] {G : ι → MapFull K V} {I : ι → MapImpl K V} (h : ∀ i, MapFullOf (G i) (I i)) (n : Nat) (p : Prog ι K V (MOp K V) (MOut K V) K R) (s s₀ : St K V) :
    seen (Amt.run (fun i => lateKind (I i) n) p EnvW.none s) = seen (Amt.run (fun i => (I i).kind n) p EnvW.none s₀) := by
  have h1 : ∀ i, KindSim (lateKind (I i) n) (lateKind (I i) n) := fun i =>
    ⟨fun a k φ op => lateExec_self (h i).code.blind a k n φ op, (MapImpl.kind_ok (h i).code.blind n).ptr, (MapImpl.kind_ok (h i).code.blind n).all, (MapImpl.kind_ok (h i).code.blind n).mod⟩
  have h2 : ∀ i, KindSim ((I i).kind n) (lateKind (I i) n) := fun i =>
    ⟨fun a k φ op => lateExec_same (h i).code a k n φ op, (MapImpl.kind_ok (h i).code.blind n).ptr, (MapImpl.kind_ok (h i).code.blind n).all, (MapImpl.kind_ok (h i).code.blind n).mod⟩
  exact (run_outcome h1 p s).trans (run_outcome h2 p s₀).symm

theorem late_set {G : ι → SetFull K} {I : ι → SetImpl K} (h : ∀ i, SetFullOf (G i) (I i)) (n : Nat) (p : Prog ι K Unit (SOp K) (SOut K) Empty R) (s s₀ : St K Unit) :
    seen (Amt.run (fun i => lateKindS (I i) n) p EnvW.none s) = seen (Amt.run (fun i => (I i).kind n) p EnvW.none s₀) := by
  have h1 : ∀ i, KindSim (lateKindS (I i) n) (lateKindS (I i) n) := fun i =>
    ⟨fun a k φ op => lateExecS_self (h i).code.blind a k n φ op, (SetImpl.kind_ok (h i).code.blind n).ptr, (SetImpl.kind_ok (h i).code.blind n).all, (SetImpl.kind_ok (h i).code.blind n).mod⟩
  have h2 : ∀ i, KindSim ((I i).kind n) (lateKindS (I i) n) := fun i =>
    ⟨fun a k φ op => lateExecS_same (h i).code a k n φ op, (SetImpl.kind_ok (h i).code.blind n).ptr, (SetImpl.kind_ok (h i).code.blind n).all, (SetImpl.kind_ok (h i).code.blind n).mod⟩
  exact (run_outcome h1 p s).trans (run_outcome h2 p s₀).symm

/-- C80, the maps that keep their keys in cells (all but `IntMap`): if the program ends over the model, with a result or in a panic, then it ends so over the
translated methods, and the other way round. -/
theorem C80_map [Inhabited V] {G : ι → MapFull K V} {I : ι → MapImpl K V} (h : ∀ i, MapFullOf (G i) (I i)) (hc : ∀ i, (I i).cfg.store = .boxed) (n : Nat)
    (p : Prog ι K V (MOp K V) (MOut K V) K R) {s : St K V} (hs : Tidy s) (s₀ : St K V) :
    (seen (Amt.run (fun i => (I i).kind n) p EnvW.none s₀) = .error .diverge ∨
      seen (runGo (fun i => (G i).kind n) p EnvG.none s) = seen (Amt.run (fun i => (I i).kind n) p EnvW.none s₀)) ∧
    (seen (runGo (fun i => (G i).kind n) p EnvG.none s) = .error .diverge ∨
      seen (Amt.run (fun i => (I i).kind (n + 301)) p EnvW.none s₀) = seen (runGo (fun i => (G i).kind n) p EnvG.none s)) := by
  have h1 := runGo_sim (fun i => map_follows (h i) (hc i) n) p (Or.inl trivial) (EnvR.none (ι := ι))
  rw [← late_map h n p s s₀, ← late_map h (n + 301) p s s₀]
  exact ⟨seen_lo h1.1 hs, seen_hi h1.2 hs⟩

/-- C80, all five sets. -/
theorem C80_set {G : ι → SetFull K} {I : ι → SetImpl K} (h : ∀ i, SetFullOf (G i) (I i)) (n : Nat)
    (p : Prog ι K Unit (SOp K) (SOut K) Empty R) {s : St K Unit} (hs : Tidy s) (s₀ : St K Unit) :
    (seen (Amt.run (fun i => (I i).kind n) p EnvW.none s₀) = .error .diverge ∨
      seen (runGo (fun i => (G i).kind n) p EnvG.none s) = seen (Amt.run (fun i => (I i).kind n) p EnvW.none s₀)) ∧
    (seen (runGo (fun i => (G i).kind n) p EnvG.none s) = .error .diverge ∨
      seen (Amt.run (fun i => (I i).kind (n + 301)) p EnvW.none s₀) = seen (runGo (fun i => (G i).kind n) p EnvG.none s)) := by
  have h1 := runGo_sim (fun i => set_follows (h i) n) p (Or.inl trivial) (EnvR.none (ι := ι))
  rw [← late_set h n p s s₀, ← late_set h (n + 301) p s s₀]
  exact ⟨seen_lo h1.1 hs, seen_hi h1.2 hs⟩

/-! ### Loop bounds -/

/-- The methods with larger loop bounds. -/
structure KindExt (κ κ' : Kind K V Op Out X) : Prop where
  exec : ∀ m op, Ext (κ.exec m op) (κ'.exec m op)
  ptr : ∀ m x, Ext (κ.ptr m x) (κ'.ptr m x)
  all : ∀ {U : Type} m {f f' : U → K → Amt.Ptr → M K V (U × Bool)}, (∀ u k p, Ext (f u k p) (f' u k p)) → ∀ u, Ext (κ.all m f u) (κ'.all m f' u)
  mod : ∀ {R : Type} m x {f f' : Amt.Ptr → Bool → M K V R}, (∀ p b, Ext (f p b) (f' p b)) → Ext (κ.mod m x f) (κ'.mod m x f')

theorem run_ext {κ κ' : ι → Kind K V Op Out X} (hκ : ∀ i, KindExt (κ i) (κ' i)) {R : Type} (p : Prog ι K V Op Out X R) :
    ∀ e, Ext (Amt.run κ p e) (Amt.run κ' p e) := by
  induction p with
  | ret r => intro e; exact Ext.refl _
  | stop x => intro e; exact Ext.refl _
  | new i sd k ih =>
    intro e
    unfold Amt.run
    refine Ext.bind (Ext.refl _) fun m => ?_
    cases m with
    | none => exact Ext.refl _
    | some h => exact ih _ _
  | call c op k ih =>
    intro e
    unfold Amt.run
    cases e.objs[c]? with
    | none => exact Ext.refl _
    | some o => exact Ext.bind ((hκ _).exec _ _) fun r => ih _ _
  | ptr c x k ih =>
    intro e
    unfold Amt.run
    cases e.objs[c]? with
    | none => exact Ext.refl _
    | some o =>
      refine Ext.bind ((hκ _).ptr _ _) fun r => ?_
      cases r with
      | none => exact ih _ _
      | some p => exact ih _ _
  | read p k ih =>
    intro e
    unfold Amt.run
    cases e.ptrs[p]? with
    | none => exact Ext.refl _
    | some q => exact Ext.bind (Ext.refl _) fun r => ih _ _
  | write p v k ih =>
    intro e
    unfold Amt.run
    cases e.ptrs[p]? with
    | none => exact Ext.refl _
    | some q => exact Ext.bind (Ext.refl _) fun r => ih _
  | all c f u k ihf ihk =>
    intro e
    unfold Amt.run
    cases e.objs[c]? with
    | none => exact Ext.refl _
    | some o => exact Ext.bind ((hκ _).all _ (fun u k p => Ext.bind (ihf _ _ _ _) fun r => Ext.refl _) _) fun r => ihk _ _
  | mod c x f k ihf ihk =>
    intro e
    unfold Amt.run
    cases e.objs[c]? with
    | none => exact Ext.refl _
    | some o => exact Ext.bind ((hκ _).mod _ _ fun p b => ihf _ _ _) fun r => ihk _ _

theorem map_kindExt [Inhabited V] {I : MapImpl K V} (hI : I.Mono) {n n' : Nat} (hn : n ≤ n') : KindExt (I.kind n) (I.kind n') where
  exec m op := MapImpl.exec_ext hI hn m op
  ptr m x := Ext.bind (Ext.refl _) fun h => lookup_ext _ _ hn _
  all := by
    intro U m f f' hf u
    exact Ext.bind (Ext.refl _) fun h => Ext.bind (scan_ext₂ (fun u l => Ext.bind (Ext.refl _) fun k => hf _ _ _) hn _ _) fun r => Ext.refl _
  mod := by
    intro R m x f f' hf
    refine Ext.bind (Ext.refl _) fun h => upsert_ext₂ _ _ hn _ ⟨hI.mod x fun v _ => v, rfl, rfl, fun p => hf p true, ?_, ?_⟩
    · exact Ext.bind (Ext.refl _) fun p => Ext.bind (hf p false) fun _ => Ext.refl _
    · exact Ext.bind (Ext.refl _) fun p => Ext.bind (hf p false) fun _ => Ext.refl _

theorem set_kindExt {I : SetImpl K} (hI : I.Mono) {n n' : Nat} (hn : n ≤ n') : KindExt (I.kind n) (I.kind n') where
  exec m op := SetImpl.exec_ext hI hn m op
  ptr m x := x.elim
  all := by
    intro U m f f' hf u
    exact Ext.bind (Ext.refl _) fun h => Ext.bind (scan_ext₂ (fun u l => Ext.bind (Ext.refl _) fun k => hf _ _ _) hn _ _) fun r => Ext.refl _
  mod := by intro R m x; exact x.elim

theorem Ext.seen {E : Type} {x y : M K V (R × E)} (h : Ext x y) (s : St K V) {o : Except Fault R} (ho : o ≠ .error .diverge) (hx : seen (x s) = o) : seen (y s) = o := by
  rcases h s with h1 | h1
  · rw [h1] at hx; exact absurd hx.symm ho
  · rw [h1]; exact hx

/-- C80: the program ends in `o` over the translated methods of the maps if and only if it does over the model. -/
theorem C80_map_ends [Inhabited V] {G : ι → MapFull K V} {I : ι → MapImpl K V} (h : ∀ i, MapFullOf (G i) (I i)) (hc : ∀ i, (I i).cfg.store = .boxed)
    (p : Prog ι K V (MOp K V) (MOut K V) K R) {s : St K V} (hs : Tidy s) (s₀ : St K V) {o : Except Fault R} (ho : o ≠ .error .diverge) :
    (∃ n, ∀ n', n ≤ n' → seen (runGo (fun i => (G i).kind n') p EnvG.none s) = o) ↔ ∃ n, seen (Amt.run (fun i => (I i).kind n) p EnvW.none s₀) = o := by
  constructor
  · rintro ⟨n, hn⟩
    rcases (C80_map h hc n p hs s₀).2 with h1 | h1
    · exact absurd ((hn n (Nat.le_refl n)).symm.trans h1) ho
    · exact ⟨n + 301, h1.trans (hn n (Nat.le_refl n))⟩
  · rintro ⟨n, hn⟩
    refine ⟨n, fun n' hn' => ?_⟩
    have h2 := Ext.seen (run_ext (fun i => map_kindExt (h i).code.mono hn') p EnvW.none) s₀ ho hn
    rcases (C80_map h hc n' p hs s₀).1 with h1 | h1
    · exact absurd (h2.symm.trans h1) ho
    · exact h1.trans h2

/-- C80: it does not end over the one if and only if it does not over the other. -/
theorem C80_map_loops [Inhabited V] {G : ι → MapFull K V} {I : ι → MapImpl K V} (h : ∀ i, MapFullOf (G i) (I i)) (hc : ∀ i, (I i).cfg.store = .boxed)
    (p : Prog ι K V (MOp K V) (MOut K V) K R) {s : St K V} (hs : Tidy s) (s₀ : St K V) :
    (∀ n, seen (runGo (fun i => (G i).kind n) p EnvG.none s) = .error .diverge) ↔ ∀ n, seen (Amt.run (fun i => (I i).kind n) p EnvW.none s₀) = .error .diverge := by
  constructor
  · intro hd n
    rcases (C80_map h hc n p hs s₀).1 with h1 | h1
    · exact h1
    · exact h1.symm.trans (hd n)
  · intro hd n
    rcases (C80_map h hc n p hs s₀).2 with h1 | h1
    · exact h1
    · exact h1.symm.trans (hd _)

/-- What a program over the translated methods has done with one loop bound, it does with every larger one. -/
theorem C80_map_stable [Inhabited V] {G : ι → MapFull K V} {I : ι → MapImpl K V} (h : ∀ i, MapFullOf (G i) (I i)) (hc : ∀ i, (I i).cfg.store = .boxed)
    (p : Prog ι K V (MOp K V) (MOut K V) K R) {s : St K V} (hs : Tidy s) {o : Except Fault R} (ho : o ≠ .error .diverge) {n n' : Nat} (hn : n + 301 ≤ n')
    (he : seen (runGo (fun i => (G i).kind n) p EnvG.none s) = o) : seen (runGo (fun i => (G i).kind n') p EnvG.none s) = o := by
  rcases (C80_map h hc n p hs s).2 with h1 | h1
  · exact absurd (he.symm.trans h1) ho
  · have h2 := Ext.seen (run_ext (fun i => map_kindExt (h i).code.mono hn) p EnvW.none) s ho (h1.trans he)
    rcases (C80_map h hc n' p hs s).1 with h3 | h3
    · exact absurd (h2.symm.trans h3) ho
    · exact h3.trans h2

/-- C67 of the translated code: a program that ends over the translated methods, all maps in one memory, sees what it sees with every map of the model in a
memory of its own. -/
theorem C80_map_apart [Inhabited V] {G : ι → MapFull K V} {I : ι → MapImpl K V} (h : ∀ i, MapFullOf (G i) (I i)) (hc : ∀ i, (I i).cfg.store = .boxed) (n : Nat)
    (p : Prog ι K V (MOp K V) (MOut K V) K R) {s : St K V} (hs : Tidy s) (hd : seen (runGo (fun i => (G i).kind n) p EnvG.none s) ≠ .error .diverge) :
    outcome (runApart (fun i => (I i).kind (n + 301)) p Worlds.none) = seen (runGo (fun i => (G i).kind n) p EnvG.none s) := by
  rcases (C80_map h hc n p hs s).2 with h1 | h1
  · exact absurd h1 hd
  · exact (run_outcome (fun i => MapImpl.kind_ok (h i).code.blind (n + 301)) p s).symm.trans h1

/-- C80 for the sets. -/
theorem C80_set_ends {G : ι → SetFull K} {I : ι → SetImpl K} (h : ∀ i, SetFullOf (G i) (I i))
    (p : Prog ι K Unit (SOp K) (SOut K) Empty R) {s : St K Unit} (hs : Tidy s) (s₀ : St K Unit) {o : Except Fault R} (ho : o ≠ .error .diverge) :
    (∃ n, ∀ n', n ≤ n' → seen (runGo (fun i => (G i).kind n') p EnvG.none s) = o) ↔ ∃ n, seen (Amt.run (fun i => (I i).kind n) p EnvW.none s₀) = o := by
  constructor
  · rintro ⟨n, hn⟩
    rcases (C80_set h n p hs s₀).2 with h1 | h1
    · exact absurd ((hn n (Nat.le_refl n)).symm.trans h1) ho
    · exact ⟨n + 301, h1.trans (hn n (Nat.le_refl n))⟩
  · rintro ⟨n, hn⟩
    refine ⟨n, fun n' hn' => ?_⟩
    have h2 := Ext.seen (run_ext (fun i => set_kindExt (h i).code.mono hn') p EnvW.none) s₀ ho hn
    rcases (C80_set h n' p hs s₀).1 with h1 | h1
    · exact absurd (h2.symm.trans h1) ho
    · exact h1.trans h2

end

/-! ### Programs -/

/-- A string map, and a map with byte slices as keys. -/
def exMaps : Bool → MapFull ByteStr Nat
  | true => ⟨stringMap toyHash, StringMap.Mod toyHash, StringMap.All⟩
  | false => ⟨bytesMap toyHash, BytesMap.Mod toyHash, BytesMap.All⟩

def exModels : Bool → MapImpl ByteStr Nat
  | true => Amt.StringMap toyHash
  | false => Amt.BytesMap toyHash

theorem exMaps_of : ∀ i, MapFullOf (exMaps i) (exModels i)
  | true => .string toyHash
  | false => .bytes toyHash

theorem exModels_boxed : ∀ i, (exModels i).cfg.store = .boxed
  | true => rfl
  | false => rfl

/-- Two maps; the callbacks of `All` and of `Mod` on the first use the second; a pointer is kept. -/
def exProg : Prog Bool ByteStr Nat (MOp ByteStr Nat) (MOut ByteStr Nat) ByteStr (List (MOut ByteStr Nat)) :=
  .new true 0#64 fun a => .new false 0#64 fun b => .call a (.set [1] 10) fun _ => .call a (.set [0x11] 20) fun _ =>
    .all a (fun (u : Unit) k p => .read p fun v => .call b (.set k v) fun _ => .ret ((), true)) () fun _ =>
    .ptr a [1] fun p =>
    .mod a [0x21] (fun q ok => .call b (.get [0x11]) fun _ => .call b (.del [1]) fun _ => .write q 30 (.ret ok)) fun ok =>
    match p with
    | none => .ret []
    | some p => .write p 40 (.call a (.get [1]) fun x => .call a (.get [0x21]) fun y => .call b .len fun z => .ret [x, y, z])

example : seen (runGo (fun i => (exMaps i).kind 20) exProg EnvG.none St.init) = .ok [.pair 40 true, .pair 30 true, .num 1#64] := by decide +kernel

example := C80_map exMaps_of exModels_boxed 20 exProg init_tidy St.init
example := C80_map_apart exMaps_of exModels_boxed 20 exProg init_tidy (by decide +kernel)
example := C80_map_stable exMaps_of exModels_boxed exProg init_tidy (o := .ok [.pair 40 true, .pair 30 true, .num 1#64]) (by nofun) (Nat.le_refl 321) (by decide +kernel)
example := C80_map_ends exMaps_of exModels_boxed exProg init_tidy St.init (o := .ok [.pair 40 true, .pair 30 true, .num 1#64]) (by nofun)

/-- A set whose elements are put into another set. -/
def exProgS : Prog Unit ByteStr Unit (SOp ByteStr) (SOut ByteStr) Empty (List (SOut ByteStr)) :=
  .new () 0#64 fun a => .new () 0#64 fun b => .call a (.add [1]) fun _ => .call a (.add [0x11]) fun _ =>
    .all a (fun (u : Unit) k _ => .call b (.add k) fun _ => .call a (.has k) fun _ => .ret ((), true)) () fun _ =>
    .call a (.del [1]) fun _ => .call a (.has [1]) fun x => .call b (.has [1]) fun y => .ret [x, y]

example : seen (runGo (fun _ => (⟨stringSet toyHash, StringSet.All⟩ : SetFull ByteStr).kind 20) exProgS EnvG.none St.init) = .ok [.bool false, .bool true] := by decide +kernel

example := C80_set (fun _ : Unit => SetFullOf.string toyHash) 20 exProgS init_tidy St.init
example := C80_set_ends (fun _ : Unit => SetFullOf.string toyHash) exProgS init_tidy St.init (o := .ok [.bool false, .bool true]) (by nofun)

/-! ### Findings 11, 12 and 18 in the translated code -/

/-- Delete each key that `All` visits. -/
def delProg : Prog Bool ByteStr Nat (MOp ByteStr Nat) (MOut ByteStr Nat) ByteStr (List ByteStr × MOut ByteStr Nat) :=
  .new true 0#64 fun a => .call a (.set [1] 10) fun _ => .call a (.set [2] 20) fun _ => .call a (.set [3] 30) fun _ =>
    .all a (fun (u : List ByteStr) k p => .call a (.del k) fun _ => .ret (u ++ [k], true)) [] fun u => .call a .len fun x => .ret (u, x)

/-- C46 is false of string_map.go: the key 3 is visited twice, and 2 never. -/
theorem C46_code_refuted (n : Nat) (hn : 321 ≤ n) : seen (runGo (fun i => (exMaps i).kind n) delProg EnvG.none St.init) = .ok ([[1], [3], [3]], .num 1#64) :=
  C80_map_stable (n := 20) exMaps_of exModels_boxed delProg init_tidy (by nofun) hn (by decide +kernel)

/-- The callback of `Mod` stores the key 1. -/
def slotProg : Prog Bool ByteStr Nat (MOp ByteStr Nat) (MOut ByteStr Nat) ByteStr (List (MOut ByteStr Nat)) :=
  .new true 0#64 fun a => .mod a [2] (fun q _ => .call a (.set [1] 10) fun _ => .write q 20 (.ret ())) fun _ =>
    .call a .len fun x => .call a (.get [1]) fun y => .call a (.get [2]) fun z => .ret [x, y, z]

/-- C47 is false of string_map.go: two keys are counted and neither is found. -/
theorem C47_code_refuted_slot (n : Nat) (hn : 321 ≤ n) :
    seen (runGo (fun i => (exMaps i).kind n) slotProg EnvG.none St.init) = .ok [.num 2#64, .pair 0 false, .pair 0 false] :=
  C80_map_stable (n := 20) exMaps_of exModels_boxed slotProg init_tidy (by nofun) hn (by decide +kernel)

/-- The callback of `Mod` looks up the key that the new one collides with. -/
def peekProg : Prog Bool ByteStr Nat (MOp ByteStr Nat) (MOut ByteStr Nat) ByteStr Unit :=
  .new true 0#64 fun a => .call a (.set [1] 10) fun _ => .mod a [0x11] (fun q _ => .call a (.get [1]) fun _ => .ret ()) fun _ => .ret ()

/-- C47 is false of string_map.go: nil is dereferenced. -/
theorem C47_code_refuted_collision (n : Nat) (hn : 321 ≤ n) : seen (runGo (fun i => (exMaps i).kind n) peekProg EnvG.none St.init) = .error .nilDeref :=
  C80_map_stable (n := 20) exMaps_of exModels_boxed peekProg init_tidy (by nofun) hn (by decide +kernel)

/-- The callback of `Mod` stores the keys 01 01 and 01 02 next to the key that the new one collides with. -/
def unsafeProg : Prog Bool ByteStr Nat (MOp ByteStr Nat) (MOut ByteStr Nat) ByteStr (MOut ByteStr Nat) :=
  .new true 0#64 fun a => .call a (.set [0x21] 10) fun _ =>
    .mod a [0x31] (fun q _ => .call a (.set [1, 1] 1) fun _ => .call a (.set [1, 2] 2) fun _ => .write q 20 (.ret ())) fun _ => .call a (.get [1, 1]) fun x => .ret x

/-- C47 is false of string_map.go: a key-value cell is read as an array of links. -/
theorem C47_code_refuted_unsafe (n : Nat) (hn : 321 ≤ n) : seen (runGo (fun i => (exMaps i).kind n) unsafeProg EnvG.none St.init) = .error .wrongType :=
  C80_map_stable (n := 20) exMaps_of exModels_boxed unsafeProg init_tidy (by nofun) hn (by decide +kernel)

end Amt.Go
