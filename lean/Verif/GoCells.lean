/-
The calls of the model turn no key-value cell into something else.  Used only in proofs.
-/
import Verif.GoSim

set_option linter.unusedVariables false
set_option linter.unusedSectionVars false
set_option linter.unusedSimpArgs false

namespace Amt.Go
open Amt Spec

section
variable {K V α β R : Type}

/-- The hooks of an insertion keep cells. -/
structure InsStay (ins : Ins K V R) : Prop where
  hit : ∀ p, CellsStay (ins.hit p)
  newSlot : CellsStay ins.newSlot
  newSplit : CellsStay ins.newSplit

theorem CellsStay.modLink (r : Ref) (f : Link → Link) : CellsStay (modLink r f : M K V Unit) := CellsStay.struct (Struct.modLink r f)

theorem CellsStay.store (r : Ref) (x : Link) : CellsStay (store r x : M K V Unit) := CellsStay.struct (Struct.store r x)

theorem CellsStay.load (r : Ref) : CellsStay (load r : M K V Link) := CellsStay.struct (Struct.load r)

theorem CellsStay.modRoot (h : Nat) (f : Meta → Meta) : CellsStay (modRoot h f : M K V Unit) := CellsStay.struct (Struct.modRoot h f)

theorem CellsStay.newLinkArray (n : Nat) : CellsStay (Amt.newLinkArray n : M K V Ptr) := CellsStay.struct (Struct.newLinkArray n)

theorem CellsStay.newKv (c : Cfg K) (k : K) (v : V) : CellsStay (newKv c k v : M K V Ptr) := CellsStay.struct (Struct.newKv c k v)

theorem CellsStay.newRoot (sd : Seed) : CellsStay (Amt.newRoot sd : M K V Handle) := by
  intro s a t e
  obtain ⟨s', t', h1, h2, h3, h4, h5, h6⟩ := newRoot_same sd s s
  rw [h1] at e
  cases e
  exact ⟨h4, fun b k v hb hm => ⟨k, v, by rw [h5 b hb]; exact hm⟩⟩

theorem CellsStay.insertSlot (c : Cfg K) (h : Nat) (key : K) {ins : Ins K V R} (hi : InsStay ins) (cur : Cur) : CellsStay (insertSlot c h key ins cur) := by
  unfold Amt.insertSlot
  refine CellsStay.bind (CellsStay.load _) fun lk₀ => CellsStay.bind hi.newSlot fun x => CellsStay.bind (CellsStay.load _) fun lk => ?_
  refine CellsStay.ite ?_ ?_
  · refine CellsStay.bind (CellsStay.struct (Struct.shiftUp _ _ _)) fun _ => CellsStay.bind (CellsStay.store _ _) fun _ => ?_
    exact CellsStay.bind (CellsStay.modLink _ _) fun _ => CellsStay.bind (CellsStay.modRoot _ _) fun _ => CellsStay.pure _
  · refine CellsStay.bind (CellsStay.newLinkArray _) fun _ => CellsStay.bind (CellsStay.modLink _ _) fun _ =>
      CellsStay.bind (CellsStay.struct (Struct.copyUp _ _ _ _ _ _)) fun _ => CellsStay.bind (CellsStay.store _ _) fun _ =>
      CellsStay.bind (CellsStay.struct (Struct.copyUp _ _ _ _ _ _)) fun _ => ?_
    exact CellsStay.bind (CellsStay.modLink _ _) fun _ => CellsStay.bind (CellsStay.modRoot _ _) fun _ => CellsStay.pure _

theorem CellsStay.slotL (h : Nat) (l : Ref) (d idx : Nat) (bit : BitVec 32) {cell : M K V Ptr} (hc : CellsStay cell) (mk : Ptr → Link) (r : R) :
    CellsStay (slotL h l d idx bit cell mk r) := by
  rw [slotL_room]
  refine CellsStay.bind ?_ fun x => CellsStay.bind hc fun p => ?_
  · unfold room
    refine CellsStay.bind (CellsStay.load _) fun lk => CellsStay.ite ?_ ?_
    · exact CellsStay.bind (CellsStay.struct (Struct.shiftUp _ _ _)) fun _ => CellsStay.pure _
    · exact CellsStay.bind (CellsStay.newLinkArray _) fun _ => CellsStay.bind (CellsStay.modLink _ _) fun _ =>
        CellsStay.bind (CellsStay.struct (Struct.copyUp _ _ _ _ _ _)) fun _ => CellsStay.pure _
  · unfold fill
    refine CellsStay.bind (CellsStay.store _ _) fun _ => CellsStay.bind (CellsStay.ite (CellsStay.struct (Struct.copyUp _ _ _ _ _ _)) (CellsStay.pure _)) fun _ => ?_
    exact CellsStay.bind (CellsStay.modLink _ _) fun _ => CellsStay.bind (CellsStay.modRoot _ _) fun _ => CellsStay.pure _

theorem CellsStay.split (c : Cfg K) (sd : Seed) (h : Nat) (key ckey : K) (cptr : Ptr) {ins : Ins K V R} (hi : InsStay ins) (fuel : Nat) :
    ∀ item d hd chd w cw, CellsStay (split c sd h key ckey cptr ins fuel item d hd chd w cw) := by
  induction fuel with
  | zero => intros; exact CellsStay.fail _
  | succ fuel ih =>
    intro item d hd chd w cw
    unfold Amt.split
    refine CellsStay.bind (CellsStay.modLink _ _) fun _ => CellsStay.ite ?_ ?_
    · refine CellsStay.bind (CellsStay.modLink _ _) fun _ => CellsStay.bind (CellsStay.newLinkArray _) fun _ => CellsStay.bind (CellsStay.modLink _ _) fun _ =>
        CellsStay.bind hi.newSplit fun x => CellsStay.bind (CellsStay.load _) fun _ => ?_
      refine CellsStay.ite ?_ ?_
      · exact CellsStay.bind (CellsStay.modLink _ _) fun _ => CellsStay.bind (CellsStay.modLink _ _) fun _ => CellsStay.bind (CellsStay.modRoot _ _) fun _ => CellsStay.pure _
      · exact CellsStay.bind (CellsStay.modLink _ _) fun _ => CellsStay.bind (CellsStay.modLink _ _) fun _ => CellsStay.bind (CellsStay.modRoot _ _) fun _ => CellsStay.pure _
    · exact CellsStay.bind (CellsStay.newLinkArray _) fun _ => CellsStay.bind (CellsStay.modLink _ _) fun _ => ih _ _ _ _ _ _

theorem CellsStay.conflict (c : Cfg K) (sd : Seed) (h fuel : Nat) (key : K) {ins : Ins K V R} (hi : InsStay ins) (cur : Cur) :
    CellsStay (conflict c sd h fuel key ins cur) := by
  unfold Amt.conflict
  refine CellsStay.bind (CellsStay.struct (Struct.itemRef _)) fun item => CellsStay.bind (CellsStay.load _) fun x =>
    CellsStay.bind (CellsStay.struct (Struct.readKey _ _)) fun k => ?_
  refine CellsStay.ite (hi.hit _) (CellsStay.bind (CellsStay.struct (Struct.liftE _)) fun y => CellsStay.ite ?_ ?_)
  · exact CellsStay.bind hi.newSlot fun _ => CellsStay.bind (CellsStay.modLink _ _) fun _ => CellsStay.pure _
  · exact CellsStay.bind (CellsStay.modLink _ _) fun _ => CellsStay.bind (CellsStay.modRoot _ _) fun _ => CellsStay.split _ _ _ _ _ _ hi _ _ _ _ _ _ _

theorem CellsStay.upsert (c : Cfg K) (h fuel : Nat) (key : K) {ins : Ins K V R} (hi : InsStay ins) : CellsStay (upsert c h fuel key ins) := by
  unfold Amt.upsert
  refine CellsStay.bind (CellsStay.struct (Struct.getRoot _)) fun r => CellsStay.bind (CellsStay.struct (Struct.search _ _ _ _ _)) fun x => ?_
  exact CellsStay.ite (CellsStay.conflict _ _ _ _ _ hi _) (CellsStay.insertSlot _ _ _ hi _)

theorem CellsStay.upsertT (c : Cfg K) (h fuel : Nat) (key : K) {ins : Ins K V R} (hi : InsStay ins) {cell : M K V Ptr} (hc : CellsStay cell) (r : R) :
    CellsStay (upsertT c h fuel key ins cell r) := by
  unfold Go.upsertT
  refine CellsStay.bind (CellsStay.struct (Struct.getRoot _)) fun r => CellsStay.bind (CellsStay.struct (Struct.search _ _ _ _ _)) fun x => ?_
  exact CellsStay.ite (CellsStay.conflict _ _ _ _ _ hi _) (CellsStay.bind (CellsStay.load _) fun _ => CellsStay.slotL _ _ _ _ _ hc _ _)

theorem CellsStay.scanItems {U : Type} {visit : U → Link → M K V (U × Bool)} {rec : U → Ref → M K V (U × Bool)} (hv : ∀ u x, CellsStay (visit u x))
    (hr : ∀ u l, CellsStay (rec u l)) (l : Ref) (tm : BitVec 32) : ∀ n i pm u, CellsStay (scanItems visit rec l tm n i pm u) := by
  intro n
  induction n with
  | zero => intro i pm u; exact CellsStay.pure _
  | succ n ih =>
    intro i pm u
    unfold Amt.scanItems
    dsimp only
    refine CellsStay.bind (CellsStay.load _) fun x => CellsStay.ite ?_ ?_
    · exact CellsStay.bind (CellsStay.load _) fun y => CellsStay.bind (hv _ _) fun r => CellsStay.ite (ih _ _ _) (CellsStay.pure _)
    · exact CellsStay.bind (hr _ _) fun r => CellsStay.ite (ih _ _ _) (CellsStay.pure _)

theorem CellsStay.scan {U : Type} {visit : U → Link → M K V (U × Bool)} (hv : ∀ u x, CellsStay (visit u x)) : ∀ n u l, CellsStay (scan visit n u l) := by
  intro n
  induction n with
  | zero => intros; exact CellsStay.fail _
  | succ n ih =>
    intro u l
    unfold Amt.scan
    exact CellsStay.bind (CellsStay.load _) fun x => CellsStay.scanItems hv (fun u l => ih u l) _ _ _ _ _ _

theorem setIns_stay (c : Cfg K) (chash : Chash K) (g : Bool) (key : K) (v : V) : InsStay (setIns c chash g key v) :=
  ⟨fun p => CellsStay.storeVal p v, CellsStay.bind (CellsStay.newKv _ _ _) fun _ => CellsStay.pure _, CellsStay.bind (CellsStay.newKv _ _ _) fun _ => CellsStay.pure _⟩

theorem setInsArr_stay [Inhabited V] (c : Cfg K) (chash : Chash K) (key : K) (v : V) : InsStay (setInsArr c chash key v) :=
  ⟨fun p => CellsStay.storeVal p v, CellsStay.bind (CellsStay.newKv _ _ _) fun _ => CellsStay.pure _, CellsStay.bind (CellsStay.newKv _ _ _) fun _ => CellsStay.pure _⟩

theorem modIns_stay [Inhabited V] (c : Cfg K) (chash : Chash K) (g : Bool) (key : K) (f : V → Bool → V) : InsStay (modIns c chash g key f) :=
  ⟨fun p => CellsStay.bind (CellsStay.reads (Reads.loadKv p)) fun _ => CellsStay.bind (CellsStay.storeVal p _) fun _ => CellsStay.pure _,
    CellsStay.bind (CellsStay.newKv _ _ _) fun _ => CellsStay.pure _, CellsStay.bind (CellsStay.newKv _ _ _) fun _ => CellsStay.pure _⟩

theorem addIns_stay (c : Cfg K) (chash : Chash K) (key : K) : InsStay (addIns c chash key) :=
  ⟨fun p => CellsStay.pure _, CellsStay.bind (CellsStay.newKv _ _ _) fun _ => CellsStay.pure _, CellsStay.bind (CellsStay.newKv _ _ _) fun _ => CellsStay.pure _⟩

theorem CellsStay.lookup (c : Cfg K) (h n : Nat) (key : K) : CellsStay (lookup c h n key : M K V (Option Ptr)) :=
  CellsStay.struct (Struct.of_reader (Reader.lookup c h n key))

/-- A call of a map. -/
theorem CellsStay.lateExec [Inhabited V] {I : MapImpl K V} (h1 : ∀ k v, InsStay (I.setI k v)) (h2 : ∀ k f, InsStay (I.modI k f)) (h n : Nat) (op : MOp K V) :
    CellsStay (lateExec I h n op) := by
  have hl : ∀ key, CellsStay (I.Ptr n (some h) key) := fun key => CellsStay.bind (CellsStay.pure _) fun _ => CellsStay.lookup I.cfg _ n key
  cases op with
  | get k =>
    refine CellsStay.bind (CellsStay.bind (hl k) fun o => ?_) fun _ => CellsStay.pure _
    cases o with
    | none => exact CellsStay.pure _
    | some p => exact CellsStay.bind (CellsStay.reads (Reads.loadKv p)) fun _ => CellsStay.pure _
  | val k =>
    refine CellsStay.bind (CellsStay.bind (hl k) fun o => ?_) fun _ => CellsStay.pure _
    cases o with
    | none => exact CellsStay.pure _
    | some p => exact CellsStay.bind (CellsStay.reads (Reads.loadKv p)) fun _ => CellsStay.pure _
  | ptr k =>
    refine CellsStay.bind (hl k) fun o => ?_
    cases o with
    | none => exact CellsStay.pure _
    | some p => exact CellsStay.bind (CellsStay.reads (Reads.loadKv p)) fun _ => CellsStay.pure _
  | write k v =>
    refine CellsStay.bind (hl k) fun o => ?_
    cases o with
    | none => exact CellsStay.pure _
    | some p => exact CellsStay.bind (CellsStay.storeVal p v) fun _ => CellsStay.pure _
  | set k v => exact CellsStay.bind (CellsStay.upsertT I.cfg h n k (h1 k v) (CellsStay.newKv _ _ _) ()) fun _ => CellsStay.pure _
  | mod k f => exact CellsStay.bind (CellsStay.bind (CellsStay.pure _) fun _ => CellsStay.upsert I.cfg _ n k (h2 k f)) fun _ => CellsStay.pure _
  | del k => exact CellsStay.bind (CellsStay.bind (CellsStay.pure _) fun _ => CellsStay.struct (Struct.delete I.cfg _ n I.delSkip k)) fun _ => CellsStay.pure _
  | len => exact CellsStay.bind (CellsStay.reads (len_reads h)) fun _ => CellsStay.pure _
  | dep => exact CellsStay.bind (CellsStay.reads (dep_reads h)) fun _ => CellsStay.pure _
  | all f =>
    refine CellsStay.bind (CellsStay.bind (CellsStay.pure h) fun _ => CellsStay.bind (CellsStay.scan (fun u x => ?_) _ _ _) fun _ => CellsStay.pure _) fun _ => CellsStay.pure _
    exact CellsStay.bind (CellsStay.reads (Reads.readKey _ _)) fun k => CellsStay.bind (CellsStay.reads (Reads.loadKv _)) fun kv => CellsStay.bind (CellsStay.storeVal _ _) fun _ => CellsStay.pure _

/-- A call of a set. -/
theorem CellsStay.lateExecS {I : SetImpl K} (h1 : ∀ k, InsStay (I.addI k)) (h n : Nat) (op : SOp K) : CellsStay (lateExecS I h n op) := by
  cases op with
  | has k => exact CellsStay.bind (CellsStay.bind (CellsStay.pure _) fun _ => CellsStay.bind (CellsStay.lookup I.cfg _ n k) fun _ => CellsStay.pure _) fun _ => CellsStay.pure _
  | add k => exact CellsStay.bind (CellsStay.upsertT I.cfg h n k (h1 k) (CellsStay.newKv _ _ _) ()) fun _ => CellsStay.pure _
  | del k => exact CellsStay.bind (CellsStay.bind (CellsStay.pure _) fun _ => CellsStay.struct (Struct.delete I.cfg _ n I.delSkip k)) fun _ => CellsStay.pure _
  | len => exact CellsStay.bind (CellsStay.reads (len_reads h)) fun _ => CellsStay.pure _
  | dep => exact CellsStay.bind (CellsStay.reads (dep_reads h)) fun _ => CellsStay.pure _
  | all f =>
    refine CellsStay.bind (CellsStay.bind (CellsStay.pure h) fun _ => CellsStay.bind (CellsStay.scan (fun u x => ?_) _ _ _) fun _ => CellsStay.pure _) fun _ => CellsStay.pure _
    exact CellsStay.bind (CellsStay.reads (Reads.readKey _ _)) fun k => CellsStay.pure _

/-! ### A cell made late, on both sides -/

variable {h k : Nat} {φ : Ren}

theorem late_self (c : Cfg K) (hr : φ h k) (fuel : Nat) (key : K) (v : V) (r : R) {ins : Ins K V R} (hi : InsR h k ins) :
    Same h k φ EqR (Go.upsertT c h fuel key ins (newKv c key v) r) (Go.upsertT c k fuel key ins (newKv c key v) r) := by
  unfold Go.upsertT
  refine Same.bind Same.getRoot fun φ1 l1 m m' e => ?_
  cases e
  refine Same.bind (Same.search c _ key fuel (CurR.start c _ key (l1 _ _ hr))) fun φ2 l2 x y hxy => ?_
  obtain ⟨x, b⟩ := x
  obtain ⟨y, b'⟩ := y
  obtain ⟨h1, h2⟩ := hxy
  simp only at h1 h2
  subst h2
  refine Same.ite (fun _ => Same.conflict c _ fuel key hi h1) fun _ => ?_
  refine Same.bind (Same.load h1.l) fun φ3 l3 a b hab => ?_
  rw [slotL_room, slotL_room, h1.hd, h1.d, hab.pmap]
  refine Same.bind (Same.room (h1.l.mono l3) _ _) fun φ4 l4 u w huw => ?_
  refine Same.bind (Same.newKv c key v) fun φ5 l5 p q hpq => ?_
  exact Same.fill (h1.l.mono (l3.trans (l4.trans l5))) c key _ _ _ r hpq (huw.mono l5)

theorem lateExec_self [Inhabited V] {I : MapImpl K V} (hb : I.Blind) (h k n : Nat) (φ : Ren) (op : MOp K V) : Same h k φ EqR (lateExec I h n op) (lateExec I k n op) := by
  have h1 := MapImpl.exec_same hb n op (h := h) (k := k) (φ := φ)
  cases op with
  | set key v =>
    refine Same.of_root fun hr => Same.bind (RA := EqR) ?_ fun φ' l a b e => Same.pure rfl
    exact late_self I.cfg hr n key v () (hb.set h k key v)
  | _ => exact h1

theorem lateExecS_self {I : SetImpl K} (hb : I.Blind) (h k n : Nat) (φ : Ren) (op : SOp K) : Same h k φ EqR (lateExecS I h n op) (lateExecS I k n op) := by
  have h1 := SetImpl.exec_same hb n op (h := h) (k := k) (φ := φ)
  cases op with
  | add key =>
    refine Same.of_root fun hr => Same.bind (RA := EqR) ?_ fun φ' l a b e => Same.pure rfl
    exact late_self I.cfg hr n key () () (hb h k key)
  | _ => exact h1

end

end Amt.Go
