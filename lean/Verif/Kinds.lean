/-
Programs that handle key-value cells only by their addresses: they may make new ones, but leave those that are there
alone, and arrays of links stay arrays of links.  Used only in proofs.
-/
import Verif.PropsAny

set_option linter.unusedVariables false
set_option linter.unusedSectionVars false

namespace Amt
open T Spec

/-- Between `s` and `s'`, cells are the same and arrays are still arrays. -/
def Kinds {K V : Type} (s s' : St K V) : Prop :=
  s.next ≤ s'.next ∧ ∀ a, a < s.next → (∀ k v, s.mem a = some (.kv k v) → s'.mem a = s.mem a) ∧
    (∀ xs, s.mem a = some (.links xs) → ∃ ys, s'.mem a = some (.links ys))

section
variable {K V α β : Type}

theorem Kinds.refl (s : St K V) : Kinds s s := ⟨Nat.le_refl _, fun a _ => ⟨fun _ _ _ => rfl, fun xs h => ⟨xs, h⟩⟩⟩

theorem Kinds.trans {s s' s'' : St K V} (h1 : Kinds s s') (h2 : Kinds s' s'') : Kinds s s'' := by
  refine ⟨Nat.le_trans h1.1 h2.1, fun a ha => ⟨fun k v h => ?_, fun xs h => ?_⟩⟩
  · have h3 := (h1.2 a ha).1 k v h
    rw [(h2.2 a (Nat.lt_of_lt_of_le ha h1.1)).1 k v (by rw [h3]; exact h), h3]
  · obtain ⟨ys, h3⟩ := (h1.2 a ha).2 xs h
    exact (h2.2 a (Nat.lt_of_lt_of_le ha h1.1)).2 ys h3

/-- Such a program. -/
def Struct (x : M K V α) : Prop := ∀ s a s', x s = .ok (a, s') → Kinds s s'

theorem Struct.of_reader {x : M K V α} (h : Reader x) : Struct x := by
  intro s a s' e
  obtain rfl := (h.ok e).1
  exact Kinds.refl _

theorem Struct.pure (a : α) : Struct (Pure.pure a : M K V α) := Struct.of_reader (Reader.pure a)

theorem Struct.fail (e : Fault) : Struct (M.fail e : M K V α) := Struct.of_reader (Reader.fail e)

theorem Struct.bind {x : M K V α} {f : α → M K V β} (h1 : Struct x) (h2 : ∀ a, Struct (f a)) : Struct (x >>= f) := by
  intro s b s' e
  rw [bind_run] at e
  cases hx : x s with
  | error e' => rw [hx] at e; cases e
  | ok r =>
    rw [hx] at e
    exact (h1 s r.1 r.2 hx).trans (h2 r.1 r.2 b s' e)

theorem Struct.ite {p : Prop} [Decidable p] {x y : M K V α} (h1 : Struct x) (h2 : Struct y) : Struct (if p then x else y) := by
  split
  · exact h1
  · exact h2

theorem Struct.load (r : Ref) : Struct (load r : M K V Link) := Struct.of_reader (Reader.load r)

theorem Struct.store (r : Ref) (x : Link) : Struct (store r x : M K V Unit) := by
  intro s a s' e
  unfold Amt.store at e
  split at e
  · cases e
  · rename_i b hb
    split at e
    · cases e
    · cases e
    · rename_i xs hm
      split at e
      · cases e
        refine ⟨Nat.le_refl _, fun a _ => ⟨fun k v h => ?_, fun ys h => ?_⟩⟩
        · simp only
          rw [if_neg]
          intro hab; rw [hab, hm] at h; cases h
        · simp only
          by_cases hab : a = b
          · rw [if_pos hab]; exact ⟨_, rfl⟩
          · rw [if_neg hab]; exact ⟨ys, h⟩
      · cases e

theorem Struct.modLink (r : Ref) (f : Link → Link) : Struct (modLink r f : M K V Unit) :=
  Struct.bind (Struct.load r) fun _ => Struct.store _ _

theorem Struct.modRoot (h : Nat) (f : Meta → Meta) : Struct (modRoot h f : M K V Unit) := by
  intro s a s' e
  cases e
  exact ⟨Nat.le_refl _, fun a _ => ⟨fun _ _ _ => rfl, fun xs h => ⟨xs, h⟩⟩⟩

theorem Struct.getRoot (h : Nat) : Struct (getRoot h : M K V Meta) := Struct.of_reader (Reader.getRoot h)

theorem Struct.alloc (o : Obj K V) : Struct (alloc o : M K V Ptr) := by
  intro s a s' e
  cases e
  refine ⟨Nat.le_succ _, fun a ha => ?_⟩
  have : a ≠ s.next := by omega
  simp only [if_neg this]
  exact ⟨fun _ _ _ => trivial, fun xs h => ⟨xs, h⟩⟩

theorem Struct.newLinkArray (n : Nat) : Struct (newLinkArray n : M K V Ptr) := by
  unfold Amt.newLinkArray
  exact Struct.ite (Struct.alloc _) (Struct.ite (Struct.alloc _) (Struct.ite (Struct.alloc _) (Struct.alloc _)))

theorem Struct.newKv (c : Cfg K) (k : K) (v : V) : Struct (newKv c k v : M K V Ptr) := by
  unfold Amt.newKv
  split
  · exact Struct.alloc _
  · exact Struct.alloc _
  · exact Struct.pure _

theorem Struct.readKey (c : Cfg K) (x : Link) : Struct (readKey c x : M K V K) := Struct.of_reader (Reader.readKey c x)

theorem Struct.liftE (x : Except Fault α) : Struct (liftE x : M K V α) := by
  intro s a s' e
  unfold Amt.liftE at e
  cases x with
  | error e' => cases e
  | ok b => cases e; exact Kinds.refl _

theorem Struct.search (c : Cfg K) (sd : Seed) (key : K) (fuel : Nat) (cur : Cur) :
    Struct (search c sd key fuel cur : M K V (Cur × Bool)) := Struct.of_reader (Reader.search c sd key fuel cur)

theorem Struct.itemRef (cur : Cur) : Struct (itemRef cur : M K V Ref) := Struct.bind (Struct.load _) fun _ => Struct.pure _

theorem Struct.shiftUp (arr : Ptr) (idx n : Nat) : Struct (shiftUp arr idx n : M K V Unit) := by
  induction n with
  | zero => exact Struct.pure _
  | succ n ih => exact Struct.ite (Struct.bind (Struct.load _) fun _ => Struct.bind (Struct.store _ _) fun _ => ih) (Struct.pure _)

theorem Struct.copyUp (dst src : Ptr) (doff soff n i : Nat) : Struct (copyUp dst src doff soff n i : M K V Unit) := by
  induction n generalizing i with
  | zero => exact Struct.pure _
  | succ n ih => exact Struct.bind (Struct.load _) fun _ => Struct.bind (Struct.store _ _) fun _ => ih _

/-- The hooks make cells and call back, but do not touch the cells that are there. -/
structure Ins.Struct {R : Type} (ins : Ins K V R) : Prop where
  hit : ∀ p, Amt.Struct (ins.hit p)
  newSlot : Amt.Struct ins.newSlot
  newSplit : Amt.Struct ins.newSplit

theorem Struct.insertSlot {R : Type} (c : Cfg K) (h : Nat) (key : K) {ins : Ins K V R} (hi : ins.Struct) (cur : Cur) :
    Struct (insertSlot c h key ins cur) := by
  unfold Amt.insertSlot
  refine Struct.bind (Struct.load _) fun lk₀ => Struct.bind hi.newSlot fun x => Struct.bind (Struct.load _) fun lk => ?_
  refine Struct.ite ?_ ?_
  · refine Struct.bind (Struct.shiftUp _ _ _) fun _ => Struct.bind (Struct.store _ _) fun _ => ?_
    exact Struct.bind (Struct.modLink _ _) fun _ => Struct.bind (Struct.modRoot _ _) fun _ => Struct.pure _
  · refine Struct.bind (Struct.newLinkArray _) fun _ => Struct.bind (Struct.modLink _ _) fun _ => Struct.bind (Struct.copyUp _ _ _ _ _ _) fun _ =>
      Struct.bind (Struct.store _ _) fun _ => Struct.bind (Struct.copyUp _ _ _ _ _ _) fun _ => ?_
    exact Struct.bind (Struct.modLink _ _) fun _ => Struct.bind (Struct.modRoot _ _) fun _ => Struct.pure _

theorem Struct.split {R : Type} (c : Cfg K) (sd : Seed) (h : Nat) (key ckey : K) (cptr : Ptr) {ins : Ins K V R} (hi : ins.Struct) (fuel : Nat) :
    ∀ item d hd chd w cw, Struct (split c sd h key ckey cptr ins fuel item d hd chd w cw) := by
  induction fuel with
  | zero => intros; exact Struct.fail _
  | succ fuel ih =>
    intro item d hd chd w cw
    unfold Amt.split
    refine Struct.bind (Struct.modLink _ _) fun _ => Struct.ite ?_ ?_
    · refine Struct.bind (Struct.modLink _ _) fun _ => Struct.bind (Struct.newLinkArray _) fun _ => Struct.bind (Struct.modLink _ _) fun _ =>
        Struct.bind hi.newSplit fun x => Struct.bind (Struct.load _) fun _ => ?_
      refine Struct.ite ?_ ?_
      · exact Struct.bind (Struct.modLink _ _) fun _ => Struct.bind (Struct.modLink _ _) fun _ => Struct.bind (Struct.modRoot _ _) fun _ => Struct.pure _
      · exact Struct.bind (Struct.modLink _ _) fun _ => Struct.bind (Struct.modLink _ _) fun _ => Struct.bind (Struct.modRoot _ _) fun _ => Struct.pure _
    · exact Struct.bind (Struct.newLinkArray _) fun _ => Struct.bind (Struct.modLink _ _) fun _ => ih _ _ _ _ _ _

theorem Struct.conflict {R : Type} (c : Cfg K) (sd : Seed) (h fuel : Nat) (key : K) {ins : Ins K V R} (hi : ins.Struct) (cur : Cur) :
    Struct (conflict c sd h fuel key ins cur) := by
  unfold Amt.conflict
  refine Struct.bind (Struct.itemRef _) fun item => Struct.bind (Struct.load _) fun x => Struct.bind (Struct.readKey _ _) fun k => ?_
  refine Struct.ite (hi.hit _) (Struct.bind (Struct.liftE _) fun y => Struct.ite ?_ ?_)
  · exact Struct.bind hi.newSlot fun _ => Struct.bind (Struct.modLink _ _) fun _ => Struct.pure _
  · exact Struct.bind (Struct.modLink _ _) fun _ => Struct.bind (Struct.modRoot _ _) fun _ => Struct.split _ _ _ _ _ _ hi _ _ _ _ _ _ _

theorem Struct.upsert {R : Type} (c : Cfg K) (h fuel : Nat) (key : K) {ins : Ins K V R} (hi : ins.Struct) :
    Struct (upsert c h fuel key ins) := by
  unfold Amt.upsert
  refine Struct.bind (Struct.getRoot _) fun r => Struct.bind (Struct.search _ _ _ _ _) fun x => ?_
  exact Struct.ite (Struct.conflict _ _ _ _ _ hi _) (Struct.insertSlot _ _ _ hi _)

theorem Struct.pathAt (path : List (Nat × Option Ref)) (d : Nat) : Struct (pathAt path d : M K V (Nat × Ref)) := by
  unfold Amt.pathAt
  split
  · exact Struct.fail _
  · exact Struct.fail _
  · exact Struct.pure _

theorem Struct.collapse (h d : Nat) : ∀ path l count, Struct (collapse h d path l count : M K V Unit) := by
  induction d with
  | zero => intros; exact Struct.pure _
  | succ d ih =>
    intro path l count
    unfold Amt.collapse
    refine Struct.bind (Struct.load _) fun lk => Struct.ite ?_ (Struct.pure _)
    exact Struct.bind (Struct.load _) fun _ => Struct.bind (Struct.store _ _) fun _ => Struct.bind (Struct.modRoot _ _) fun _ =>
      Struct.bind (Struct.pathAt _ _) fun _ => Struct.bind (Struct.modLink _ _) fun _ => Struct.bind (Struct.load _) fun _ => ih _ _ _

theorem Struct.shiftBack (d : Nat) (l : Ref) (idx count : Nat) : Struct (shiftBack d l idx count : M K V Unit) := by
  unfold Amt.shiftBack
  refine Struct.bind (Struct.load _) fun lk => Struct.ite ?_ (Struct.copyUp _ _ _ _ _ _)
  exact Struct.bind (Struct.newLinkArray _) fun _ => Struct.bind (Struct.modLink _ _) fun _ => Struct.bind (Struct.copyUp _ _ _ _ _ _) fun _ =>
    Struct.copyUp _ _ _ _ _ _

theorem Struct.unlink (h d : Nat) : ∀ path l idx count, Struct (unlink h d path l idx count : M K V Unit) := by
  induction d with
  | zero => intros; exact Struct.bind (Struct.shiftBack _ _ _ _) fun _ => Struct.collapse _ _ _ _ _
  | succ d ih =>
    intro path l idx count
    unfold Amt.unlink
    refine Struct.ite ?_ (Struct.bind (Struct.shiftBack _ _ _ _) fun _ => Struct.collapse _ _ _ _ _)
    exact Struct.bind (Struct.modLink _ _) fun _ => Struct.bind (Struct.pathAt _ _) fun _ => Struct.bind (Struct.load _) fun _ =>
      Struct.bind (Struct.modLink _ _) fun _ => Struct.bind (Struct.load _) fun _ => ih _ _ _ _

theorem Struct.delete (c : Cfg K) (h fuel : Nat) (skip : Bool → Bool) (key : K) : Struct (delete c h fuel skip key : M K V Unit) := by
  unfold Amt.delete
  refine Struct.bind (Struct.getRoot _) fun r => Struct.bind (Struct.search _ _ _ _ _) fun x => Struct.ite ?_ (Struct.pure _)
  unfold Amt.remove
  refine Struct.bind (Struct.itemRef _) fun _ => Struct.bind (Struct.load _) fun _ => Struct.bind (Struct.readKey _ _) fun _ =>
    Struct.ite (Struct.pure _) ?_
  exact Struct.bind (Struct.load _) fun _ => Struct.bind (Struct.modLink _ _) fun _ => Struct.bind (Struct.modRoot _ _) fun _ =>
    Struct.bind (Struct.load _) fun _ => Struct.unlink _ _ _ _ _ _

end

end Amt
