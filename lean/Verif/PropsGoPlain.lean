/-
C80 for `IntMap`: programs in which the callbacks of `Mod` are functions of the value; those of `All` are programs.

The key of an `IntMap` is in the link, and the cell may be missing (`Verif/PropsGoCallback.lean`); so the address of the value is taken with Go's check
for nil in the model as well.
-/
import Verif.PropsGoProg

set_option linter.unusedVariables false
set_option linter.unusedSectionVars false
set_option linter.unusedSimpArgs false

namespace Amt.Go
open Amt Spec

section
variable {ι K V Op Out X R : Type}

/-- `&kv.v`, if there is a `kv`. -/
def checkPtr (o : Option Amt.Ptr) : M K V (Option Amt.Ptr) :=
  match o with
  | none => pure none
  | some p => fieldAddr p >>= fun q => pure (some q)

/-- The methods, with Go's check for nil where the address of a value is taken. -/
def checked (κ : Kind K V Op Out X) : Kind K V Op Out X where
  exec := κ.exec
  ptr := fun m x => κ.ptr m x >>= checkPtr
  all := fun m f u => κ.all m (fun u k p => fieldAddr p >>= fun q => f u k q) u
  mod := fun m x f => κ.mod m x fun p b => fieldAddr p >>= fun q => f q b

theorem KindExt.checked {κ κ' : Kind K V Op Out X} (h : KindExt κ κ') : KindExt (checked κ) (checked κ') where
  exec := h.exec
  ptr m x := Ext.bind (h.ptr m x) fun o => Ext.refl _
  all m f f' hf u := h.all m (fun u k p => Ext.bind (Ext.refl _) fun q => hf u k q) u
  mod m x f f' hf := h.mod m x fun p b => Ext.bind (Ext.refl _) fun q => hf q b

theorem SimW.field {α β : Type} {c : Nat} {e : EnvW ι} {w : Worlds ι K V} {φ : Nat → Ren} {Q : (Nat → Ren) → α → St K V → β → St K V → Prop} {p q : Amt.Ptr}
    {f : Amt.Ptr → M K V α} {g : Amt.Ptr → M K V β} {r : Ren} (hp : PtrR r p q) (h : SimW c e w φ Q (f p) (g q)) :
    SimW c e w φ Q (fieldAddr p >>= f) (fieldAddr q >>= g) := by
  cases hp with
  | nil => intro s t hr; rfl
  | blk hab => exact h

theorem checked_sim {κ κ' : Kind K V Op Out X} (h : KindSim κ κ') : KindSim (checked κ) (checked κ') where
  exec := h.exec
  ptr a k φ x := by
    refine Same.bind (h.ptr a k φ x) fun φ' l o o' ho => ?_
    cases o with
    | none => cases o' with
      | none => exact Same.pure trivial
      | some q => exact ho.elim
    | some p => cases o' with
      | none => exact ho.elim
      | some q =>
        have ho : PtrR φ' p q := ho
        cases ho with
        | nil => exact Same.fail _
        | blk hab => exact Same.pure (RA := OptPtrR) (PtrR.blk hab)
  all := by
    intro ι U c a k f g hf φ e w u ha
    exact h.all (fun u key p q ha' hp => SimW.field hp (hf u key ha' hp)) u ha
  mod := by
    intro ι R c a k e w f g hf φ x ha
    exact h.mod (fun b hp => SimW.field hp (hf b hp)) x ha

theorem ptr_checked [Inhabited V] {G : MapCode K V} {I : MapImpl K V} (hG : Mirrors G I) (n h : Nat) (key : K) (s : St K V) :
    (G.Ptr n (some h) key >>= fun p => pure (if p = .nil then none else some p)) s = (lookupX I.cfg h (n + 300) key >>= checkPtr) s := by
  have h1 : G.Ptr n (some h) key s = ptrX I.cfg h (n + 300) key s := hG.ptr n h key s
  rw [bind_run, h1]
  unfold ptrX
  rw [bind_run, bind_run]
  cases he : lookupX I.cfg h (n + 300) key s with
  | error e => rfl
  | ok r =>
    obtain ⟨o, t⟩ := r
    cases o with
    | none => rfl
    | some p =>
      cases p with
      | nil => rfl
      | blk b => rfl

theorem checkPtr_reads [Inhabited V] (o : Option Amt.Ptr) : Reads (checkPtr o : M K V (Option Amt.Ptr)) := by
  cases o with
  | none => exact Reads.pure _
  | some p => exact Reads.bind (fieldAddr_reads p) fun q => Reads.pure _

theorem map_follows_plain [Inhabited V] {G : MapFull K V} {I : MapImpl K V} (h : MapFullOf G I) (n : Nat) :
    Follows False (G.kind n) (checked (lateKind I n)) (checked (lateKind I (n + 301))) where
  exec_lo a path op hp := Between.sim_lo (y := fun n => lateExec I a n op) (CellsStay.lateExec h.stay.1 h.stay.2 a n op) fun s hs => exec_between h.code a n path op s hp hs
  exec_hi a path op hp := Between.sim_hi (y := fun n => lateExec I a n op) (CellsStay.lateExec h.stay.1 h.stay.2 a _ op) fun s hs => exec_between h.code a n path op s hp hs
  ptr_lo a x := by
    refine SimT.eq_left (fun s _ => ptr_checked h.code n a x s) ?_
    exact SimT.less (SimT.reads (Reads.bind (Reads.lookupX _ _ _ _) checkPtr_reads)) (Ext.bind (lookup_lo I.cfg a n x) fun o => Ext.refl _)
  ptr_hi a x := by
    refine SimT.eq_right (fun s _ => ptr_checked h.code n a x s) ?_
    exact SimT.more (SimT.reads (Reads.bind (Reads.lookupX _ _ _ _) checkPtr_reads)) (Ext.bind (lookupX_lookup I.cfg a (n + 300) x) fun o => Ext.refl _)
  all_lo := by
    intro U U' Q a f f' hf u u' hu
    show SimT Q (G.All n (some a) f u) (I.AllWith n (some a) (fun u k p => fieldAddr p >>= fun q => f' u k q) u')
    rw [C79_map_All h]
    refine SimT.bind (Q := Stop Q) (SimT.scan (fun u u' x hq => ?_) (Nat.le_refl n) u u' _ hu) fun r r' hr => SimT.pure hr.1
    refine SimT.bind (SimT.reads (Reads.readKey _ _)) ?_
    rintro k _ rfl
    refine SimT.bind (SimT.reads (fieldAddr_reads _)) ?_
    rintro p _ rfl
    exact hf u u' k p hq
  all_hi := by
    intro U U' Q a f f' hf u u' hu
    show SimT Q (I.AllWith (n + 301) (some a) (fun u k p => fieldAddr p >>= fun q => f u k q) u) (G.All n (some a) f' u')
    rw [C79_map_All h]
    refine SimT.bind (Q := Stop Q) (SimT.scan (fun u u' x hq => ?_) (Nat.le_add_right n 301) u u' _ hu) fun r r' hr => SimT.pure hr.1
    refine SimT.bind (SimT.reads (Reads.readKey _ _)) ?_
    rintro k _ rfl
    refine SimT.bind (SimT.reads (fieldAddr_reads _)) ?_
    rintro p _ rfl
    exact hf u u' k p hq
  mod_lo := fun h => h.elim
  mod_hi := fun h => h.elim

theorem late_checked [Inhabited V] {G : ι → MapFull K V} {I : ι → MapImpl K V} (h : ∀ i, MapFullOf (G i) (I i)) (n : Nat) (p : Prog ι K V (MOp K V) (MOut K V) K R) (s s₀ : St K V) :
    seen (Amt.run (fun i => checked (lateKind (I i) n)) p EnvW.none s) = seen (Amt.run (fun i => checked ((I i).kind n)) p EnvW.none s₀) := by
  have h1 : ∀ i, KindSim (lateKind (I i) n) (lateKind (I i) n) := fun i =>
    ⟨fun a k φ op => lateExec_self (h i).code.blind a k n φ op, (MapImpl.kind_ok (h i).code.blind n).ptr, (MapImpl.kind_ok (h i).code.blind n).all, (MapImpl.kind_ok (h i).code.blind n).mod⟩
  have h2 : ∀ i, KindSim ((I i).kind n) (lateKind (I i) n) := fun i =>
    ⟨fun a k φ op => lateExec_same (h i).code a k n φ op, (MapImpl.kind_ok (h i).code.blind n).ptr, (MapImpl.kind_ok (h i).code.blind n).all, (MapImpl.kind_ok (h i).code.blind n).mod⟩
  exact (run_outcome (fun i => checked_sim (h1 i)) p s).trans (run_outcome (fun i => checked_sim (h2 i)) p s₀).symm

/-- C80 for all five maps, `IntMap` included: programs without programs as callbacks of `Mod`. -/
theorem C80_map_plain [Inhabited V] {G : ι → MapFull K V} {I : ι → MapImpl K V} (h : ∀ i, MapFullOf (G i) (I i)) (n : Nat)
    (p : Prog ι K V (MOp K V) (MOut K V) K R) (hp : NoMod p) {s : St K V} (hs : Tidy s) (s₀ : St K V) :
    (seen (Amt.run (fun i => checked ((I i).kind n)) p EnvW.none s₀) = .error .diverge ∨
      seen (runGo (fun i => (G i).kind n) p EnvG.none s) = seen (Amt.run (fun i => checked ((I i).kind n)) p EnvW.none s₀)) ∧
    (seen (runGo (fun i => (G i).kind n) p EnvG.none s) = .error .diverge ∨
      seen (Amt.run (fun i => checked ((I i).kind (n + 301))) p EnvW.none s₀) = seen (runGo (fun i => (G i).kind n) p EnvG.none s)) := by
  have h1 := runGo_sim (fun i => map_follows_plain (h i) n) p (Or.inr hp) (EnvR.none (ι := ι))
  rw [← late_checked h n p s s₀, ← late_checked h (n + 301) p s s₀]
  exact ⟨seen_lo h1.1 hs, seen_hi h1.2 hs⟩

/-- The same with ends in place of loop bounds. -/
theorem C80_map_plain_ends [Inhabited V] {G : ι → MapFull K V} {I : ι → MapImpl K V} (h : ∀ i, MapFullOf (G i) (I i))
    (p : Prog ι K V (MOp K V) (MOut K V) K R) (hp : NoMod p) {s : St K V} (hs : Tidy s) (s₀ : St K V) {o : Except Fault R} (ho : o ≠ .error .diverge) :
    (∃ n, ∀ n', n ≤ n' → seen (runGo (fun i => (G i).kind n') p EnvG.none s) = o) ↔ ∃ n, seen (Amt.run (fun i => checked ((I i).kind n)) p EnvW.none s₀) = o := by
  constructor
  · rintro ⟨n, hn⟩
    rcases (C80_map_plain h n p hp hs s₀).2 with h1 | h1
    · exact absurd ((hn n (Nat.le_refl n)).symm.trans h1) ho
    · exact ⟨n + 301, h1.trans (hn n (Nat.le_refl n))⟩
  · rintro ⟨n, hn⟩
    refine ⟨n, fun n' hn' => ?_⟩
    have h2 := Ext.seen (run_ext (fun i => (map_kindExt (h i).code.mono hn').checked) p EnvW.none) s₀ ho hn
    rcases (C80_map_plain h n' p hp hs s₀).1 with h1 | h1
    · exact absurd (h2.symm.trans h1) ho
    · exact h1.trans h2

end

/-- Two integer maps; the callback of `All` on the first fills the second and deletes from it. -/
def exInt : Prog Unit IntKey Nat (MOp IntKey Nat) (MOut IntKey Nat) IntKey (List (MOut IntKey Nat)) :=
  .new () 0#64 fun a => .new () 0#64 fun b => .call a (.set 1 10) fun _ => .call a (.set 0x11 20) fun _ => .call b (.set 1 5) fun _ =>
    .all a (fun (u : Unit) k p => .read p fun v => .call b (.set k v) fun _ => .call b (.del 1) fun _ => .ret ((), true)) () fun _ =>
    .ptr a 1 fun p =>
    match p with
    | none => .ret []
    | some p => .write p 40 (.call a (.get 1) fun x => .call b (.get 0x11) fun y => .call b .len fun z => .ret [x, y, z])

theorem exInt_noMod : NoMod exInt := by
  refine fun a b _ _ _ => ⟨fun _ _ _ v _ _ => trivial, fun _ p => ?_⟩
  cases p with
  | none => trivial
  | some p => exact fun _ _ _ => trivial

example : seen (runGo (fun _ => (⟨intMap toyHash, IntMap.Mod toyHash, IntMap.All⟩ : MapFull IntKey Nat).kind 20) exInt EnvG.none St.init) =
    .ok [.pair 40 true, .pair 20 true, .num 1#64] := by decide +kernel

example := C80_map_plain (fun _ : Unit => MapFullOf.int (V := Nat) toyHash) 20 exInt exInt_noMod init_tidy St.init
example := C80_map_plain_ends (fun _ : Unit => MapFullOf.int (V := Nat) toyHash) exInt exInt_noMod init_tidy St.init
  (o := .ok [.pair 40 true, .pair 20 true, .num 1#64]) (by nofun)

end Amt.Go
