/-
Addresses do not matter: the methods do the same when the addresses in memory are replaced by others.
-/
import Verif.ParLock

set_option linter.unusedVariables false
set_option linter.unusedSectionVars false

namespace Amt.Par
open Amt

/-! ### Renaming -/

/-- Values in which addresses are replaced. -/
class Rn (α : Type) where
  mp : (Nat → Nat) → α → α

open Rn (mp)

/-- There are no addresses in other values. -/
instance (priority := low) rnOther {α : Type} : Rn α := ⟨fun _ a => a⟩
/-- The address of a root. -/
instance rnNat : Rn Nat := ⟨fun f n => f n⟩
instance rnPtr : Rn Ptr := ⟨fun f p => match p with | .nil => .nil | .blk b => .blk (f b)⟩
instance rnRef : Rn Ref := ⟨fun f r => ⟨mp f r.base, r.idx⟩⟩
instance rnLink : Rn Link := ⟨fun f x => ⟨mp f x.ptr, x.pmap, x.tmap⟩⟩
instance rnOption {α : Type} [Rn α] : Rn (Option α) := ⟨fun f o => o.map (mp f)⟩
instance rnList {α : Type} [Rn α] : Rn (List α) := ⟨fun f l => l.map (mp f)⟩
instance rnProd {α β : Type} [Rn α] [Rn β] : Rn (α × β) := ⟨fun f x => (mp f x.1, mp f x.2)⟩
instance rnMProd {α β : Type} [Rn α] [Rn β] : Rn (MProd α β) := ⟨fun f x => ⟨mp f x.1, mp f x.2⟩⟩
instance rnStep {α : Type} [Rn α] : Rn (ForInStep α) := ⟨fun f x => match x with | .done a => .done (mp f a) | .yield a => .yield (mp f a)⟩
instance (priority := high) rnBytes : Rn (List UInt8) := ⟨fun _ a => a⟩
/-- The number is a radix. -/
instance (priority := high) rnPath : Rn PathLink := ⟨fun f x => (x.1, mp f x.2)⟩
instance rnSlice : Rn Slice := ⟨fun f x => ⟨mp f x.arr, mp f x.big, x.len⟩⟩
instance rnObj {K V : Type} : Rn (Obj K V) := ⟨fun f o => match o with | .links xs => .links (mp f xs) | .kv k v => .kv k v⟩
instance rnWord : Rn Word := ⟨fun f w => match w with | .ptr p => .ptr (mp f p) | .pmap b => .pmap b | .tmap b => .tmap b⟩

/-! ### Programs that do the same up to renaming -/

section
variable {K V α β : Type}

/-- `t'` is `t` with the addresses renamed by `f`. -/
inductive Nrel [Rn α] (f : Nat → Nat) : T K V α → T K V α → Prop where
  | ret (a : α) : Nrel f (.ret a) (.ret (mp f a))
  | fail (e : Fault) : Nrel f (.fail e) (.fail e)
  | load (r : Ref) {k k' : Link → T K V α} (h : ∀ x, Nrel f (k x) (k' (mp f x))) : Nrel f (.load r k) (.load (mp f r) k')
  | store (r : Ref) (x : Link) {k k' : T K V α} (h : Nrel f k k') : Nrel f (.store r x k) (.store (mp f r) (mp f x) k')
  | put (r : Ref) (w : Word) {k k' : T K V α} (h : Nrel f k k') : Nrel f (.put r w k) (.put (mp f r) (mp f w) k')
  | alloc (o : Obj K V) {k k' : Ptr → T K V α} (h : ∀ p, Nrel f (k p) (k' (mp f p))) : Nrel f (.alloc o k) (.alloc (mp f o) k')
  | loadKv (p : Ptr) {k k' : Option K × V → T K V α} (h : ∀ x, Nrel f (k x) (k' x)) : Nrel f (.loadKv p k) (.loadKv (mp f p) k')
  | storeVal (p : Ptr) (v : V) {k k' : T K V α} (h : Nrel f k k') : Nrel f (.storeVal p v k) (.storeVal (mp f p) v k')
  | getRoot (b : Nat) {k k' : Meta → T K V α} (h : ∀ x, Nrel f (k x) (k' x)) : Nrel f (.getRoot b k) (.getRoot (f b) k')
  | modRoot (b : Nat) (g : Meta → Meta) {k k' : T K V α} (h : Nrel f k k') : Nrel f (.modRoot b g k) (.modRoot (f b) g k')

namespace Nrel
variable {f : Nat → Nat} [Rn α] [Rn β]

theorem bind {t t' : T K V α} {g g' : α → T K V β} (h : Nrel f t t') (hg : ∀ a, Nrel f (g a) (g' (mp f a))) : Nrel f (t >>= g) (t' >>= g') := by
  show Nrel f (T.bind t g) (T.bind t' g')
  induction h with
  | ret a => exact hg a
  | fail e => exact .fail e
  | load r _ ih => exact .load r ih
  | store r x _ ih => exact .store r x ih
  | put r x _ ih => exact .put r x ih
  | alloc r _ ih => exact .alloc r ih
  | loadKv r _ ih => exact .loadKv r ih
  | storeVal r x _ ih => exact .storeVal r x ih
  | getRoot r _ ih => exact .getRoot r ih
  | modRoot r x _ ih => exact .modRoot r x ih

theorem pure {a a' : α} (h : a' = mp f a) : Nrel (K := K) (V := V) f (Pure.pure a) (Pure.pure a') := h ▸ .ret a
theorem load' {r r' : Ref} (h : r' = mp f r) : Nrel (K := K) (V := V) f (Par.load r) (Par.load r') := h ▸ .load r fun x => .load r fun y => .load r fun z => .ret _
theorem store' {r r' : Ref} {x x' : Link} (h : r' = mp f r) (h' : x' = mp f x) : Nrel (K := K) (V := V) f (Par.store r x) (Par.store r' x') :=
  h ▸ h' ▸ .put r (.ptr x.ptr) (.put r (.pmap x.pmap) (.put r (.tmap x.tmap) (.ret ())))
theorem setPtr {r r' : Ref} {x x' : Ptr} (h : r' = mp f r) (h' : x' = mp f x) : Nrel (K := K) (V := V) f (Par.setPtr r x) (Par.setPtr r' x') :=
  h ▸ h' ▸ .put r (.ptr x) (.ret ())
theorem setPmap {r r' : Ref} {x x' : BitVec 32} (h : r' = mp f r) (h' : x' = x) : Nrel (K := K) (V := V) f (Par.setPmap r x) (Par.setPmap r' x') :=
  h ▸ h' ▸ .put r (.pmap x') (.ret ())
theorem setTmap {r r' : Ref} {x x' : BitVec 32} (h : r' = mp f r) (h' : x' = x) : Nrel (K := K) (V := V) f (Par.setTmap r x) (Par.setTmap r' x') :=
  h ▸ h' ▸ .put r (.tmap x') (.ret ())
theorem alloc' {o o' : Obj K V} (h : o' = mp f o) : Nrel (K := K) (V := V) f (Par.alloc o) (Par.alloc o') := h ▸ .alloc o fun p => .ret p
theorem storeVal' {p p' : Ptr} {v v' : V} (h : p' = mp f p) (h' : v' = v) : Nrel (K := K) f (Par.storeVal p v) (Par.storeVal p' v') :=
  h ▸ h' ▸ .storeVal p v' (.ret ())
theorem getRoot' {b b' : Nat} (h : b' = mp f b) : Nrel (K := K) (V := V) f (Par.getRoot b) (Par.getRoot b') := h ▸ .getRoot b fun x => .ret x
theorem modRoot' {b b' : Nat} {g g' : Meta → Meta} (h : b' = mp f b) (h' : g' = g) : Nrel (K := K) (V := V) f (Par.modRoot b g) (Par.modRoot b' g') :=
  h ▸ h' ▸ .modRoot b g' (.ret ())
theorem modLen {b b' : Nat} {g g' : BitVec 64 → BitVec 64} (h : b' = mp f b) (h' : g' = g) : Nrel (K := K) (V := V) f (Par.modLen b g) (Par.modLen b' g') :=
  h ▸ h' ▸ .getRoot b fun x => .modRoot b _ (.ret ())
theorem modDep {b b' : Nat} {g g' : BitVec 64 → BitVec 64} (h : b' = mp f b) (h' : g' = g) : Nrel (K := K) (V := V) f (Par.modDep b g) (Par.modDep b' g') :=
  h ▸ h' ▸ .getRoot b fun x => .modRoot b _ (.ret ())
theorem deref {m m' : Handle} (h : m' = mp f m) : Nrel (K := K) (V := V) f (Par.deref m) (Par.deref m') := by
  subst h
  cases m with
  | none => exact .fail _
  | some b => exact .ret b

theorem ite {c c' : Prop} {i : Decidable c} {i' : Decidable c'} {t t' u u' : T K V α} (hc : c ↔ c') (h : Nrel f t t') (h' : Nrel f u u') :
    Nrel f (if c then t else u) (if c' then t' else u') := by
  by_cases hx : c
  · rw [if_pos hx, if_pos (hc.1 hx)]; exact h
  · rw [if_neg hx, if_neg (fun e => hx (hc.2 e))]; exact h'

theorem loop {σ : Type} [Rn σ] {g g' : σ → T K V (ForInStep σ)} (h : ∀ s, Nrel f (g s) (g' (mp f s))) : ∀ n s, Nrel f (Par.loop g n s) (Par.loop g' n (mp f s))
  | 0, _ => .fail _
  | n + 1, s => bind (h s) fun r => by
    cases r with
    | done s => exact .ret s
    | yield s => exact loop h n s

theorem forIn {σ : Type} [Rn σ] {g g' : Unit → σ → T K V (ForInStep σ)} {b b' : Go.Budget} {s s' : σ} (hb : b' = b) (hs : s' = mp f s)
    (h : ∀ u s, Nrel f (g u s) (g' u (mp f s))) : Nrel f (ForIn.forIn b s g) (ForIn.forIn b' s' g') := hb ▸ hs ▸ loop (h ()) b'.n s

theorem newLinkArray {c c' : BitVec 8} (h : c' = c) : Nrel (K := K) (V := V) f (Par.newLinkArray c) (Par.newLinkArray c') := by
  subst h
  exact ite Iff.rfl (bind (alloc' rfl) fun _ => pure rfl) (ite Iff.rfl (bind (alloc' rfl) fun _ => pure rfl)
    (ite Iff.rfl (bind (alloc' rfl) fun _ => pure rfl) (bind (alloc' rfl) fun _ => pure rfl)))

/-- Of a key or value there is nothing to rename (the type may be any). -/
theorem kvKey [Rn K] (hK : ∀ k : K, mp f k = k) {p p' : Ptr} (h : p' = mp f p) : Nrel (K := K) (V := V) f (Par.kvKey p) (Par.kvKey p') := by
  subst h
  refine .loadKv p fun x => ?_
  rcases x with ⟨_ | k, v⟩
  · exact .fail _
  · exact pure (hK k).symm

theorem kvVal [Rn V] (hV : ∀ v : V, mp f v = v) {p p' : Ptr} (h : p' = mp f p) : Nrel (K := K) (V := V) f (Par.kvVal p) (Par.kvVal p') := by
  subst h
  exact .loadKv p fun x => pure (hV x.2).symm

theorem fieldAddr {p p' : Ptr} (h : p' = mp f p) : Nrel (K := K) (V := V) f (Par.fieldAddr p) (Par.fieldAddr p') := by
  subst h
  cases p with
  | nil => exact .fail _
  | blk b => exact .ret _

theorem andM {x y x' y' : T K V Bool} (h : Nrel f x x') (h' : Nrel f y y') : Nrel f (Par.andM x y) (Par.andM x' y') :=
  bind h fun _ => ite Iff.rfl h' (pure rfl)

theorem ofRoot {h h' : Nat} {l l' : List PathLink} (hl : l' = mp f l) : Nrel (K := K) (V := V) f (Slice.ofRootT h l) (Slice.ofRootT h' l') := by
  subst hl
  exact pure rfl

theorem view_mp (p : Slice) : (mp f p).view = mp f p.view := by
  obtain ⟨arr, big, len⟩ := p
  cases big with
  | none => exact (List.map_take ..).symm
  | some b => exact (List.map_take ..).symm

theorem linkAt {p p' : Slice} {d d' : BitVec 8} (h : p' = mp f p) (hd : d' = d) : Nrel (K := K) (V := V) f (p.linkAtT d) (p'.linkAtT d') := by
  subst h hd
  unfold Slice.linkAtT
  rw [view_mp, show (mp f p.view)[d'.toNat]? = (p.view[d'.toNat]?).map (mp f) from List.getElem?_map ..]
  rcases p.view[d'.toNat]? with _ | ⟨_, _ | _⟩
  · exact .fail _
  · exact pure rfl
  · exact pure rfl

theorem radixAt {p p' : Slice} {d d' : BitVec 8} (h : p' = mp f p) (hd : d' = d) : Nrel (K := K) (V := V) f (p.radixAtT d) (p'.radixAtT d') := by
  subst h hd
  unfold Slice.radixAtT
  rw [view_mp, show (mp f p.view)[d'.toNat]? = (p.view[d'.toNat]?).map (mp f) from List.getElem?_map ..]
  rcases p.view[d'.toNat]? with _ | ⟨_, _⟩
  · exact .fail _
  · exact pure rfl

theorem pathClear_mp (l : List PathLink) (d : Nat) : pathClear (mp f l) d = mp f (pathClear l d) := by
  unfold pathClear
  show (l.map (mp f)).modify d _ = (l.modify d _).map (mp f)
  refine List.ext_getElem? fun i => ?_
  rw [List.getElem?_modify, List.getElem?_map, List.getElem?_map, List.getElem?_modify]
  cases l[i]? with
  | none => rfl
  | some e =>
    show some _ = some _
    split <;> rfl

theorem clearAt {p p' : Slice} {d d' : BitVec 8} (h : p' = mp f p) (hd : d' = d) : Nrel (K := K) (V := V) f (p.clearAtT d) (p'.clearAtT d') := by
  subst h hd
  obtain ⟨arr, big, len⟩ := p
  refine ite Iff.rfl ?_ (.fail _)
  cases big with
  | none => exact pure (congrArg (fun x => (⟨x, none, len⟩ : Slice)) (pathClear_mp arr _))
  | some b => exact pure (congrArg (fun x => (⟨mp f arr, some x, len⟩ : Slice)) (pathClear_mp b _))

theorem append_mp (p : Slice) (n : Nat) (l : Ref) : (mp f p).append (n, some (mp f l)) = mp f (p.append (n, some l)) := by
  obtain ⟨arr, big, len⟩ := p
  have hv := view_mp (f := f) ⟨arr, big, len⟩
  cases big with
  | some b =>
    show (⟨mp f arr, some ((mp f (⟨arr, some b, len⟩ : Slice)).view ++ [(n, some (mp f l))]), len + 1⟩ : Slice) = _
    rw [hv]
    show _ = (⟨mp f arr, some (mp f ((⟨arr, some b, len⟩ : Slice).view ++ [(n, some l)])), len + 1⟩ : Slice)
    rw [show mp f ((⟨arr, some b, len⟩ : Slice).view ++ [(n, some l)]) = mp f (⟨arr, some b, len⟩ : Slice).view ++ [(n, some (mp f l))] from List.map_append ..]
  | none =>
    show (if len < (arr.map (mp f)).length then (⟨(arr.map (mp f)).set len (n, some (mp f l)), none, len + 1⟩ : Slice)
      else ⟨mp f arr, some ((mp f (⟨arr, none, len⟩ : Slice)).view ++ [(n, some (mp f l))]), len + 1⟩) =
      mp f (if len < arr.length then (⟨arr.set len (n, some l), none, len + 1⟩ : Slice) else ⟨arr, some ((⟨arr, none, len⟩ : Slice).view ++ [(n, some l)]), len + 1⟩)
    rw [List.length_map, hv]
    split
    · show _ = (⟨(arr.set len (n, some l)).map (mp f), none, len + 1⟩ : Slice)
      rw [List.map_set]; rfl
    · show _ = (⟨mp f arr, some (mp f ((⟨arr, none, len⟩ : Slice).view ++ [(n, some l)])), len + 1⟩ : Slice)
      rw [show mp f ((⟨arr, none, len⟩ : Slice).view ++ [(n, some l)]) = mp f (⟨arr, none, len⟩ : Slice).view ++ [(n, some (mp f l))] from List.map_append ..]

end Nrel
end

/-! ### Going through a method -/

section
variable {f : Nat → Nat}

theorem mp_fst {α β : Type} [Rn α] [Rn β] (x : MProd α β) : (mp f x).fst = mp f x.fst := rfl
theorem mp_snd {α β : Type} [Rn α] [Rn β] (x : MProd α β) : (mp f x).snd = mp f x.snd := rfl
theorem mp_pmap (x : Link) : (mp f x).pmap = x.pmap := rfl
theorem mp_tmap (x : Link) : (mp f x).tmap = x.tmap := rfl
theorem mp_ptr (x : Link) : (mp f x).ptr = mp f x.ptr := rfl
theorem mp_arr (x : Slice) : (mp f x).arr = mp f x.arr := rfl
theorem mp_other {α : Type} (a : α) : @mp α rnOther f a = a := rfl
theorem mp_bytes (a : List UInt8) : mp f a = a := rfl
theorem mp_none {α : Type} [Rn α] : mp f (none : Option α) = none := rfl
theorem mp_some {α : Type} [Rn α] (a : α) : mp f (some a) = some (mp f a) := rfl
theorem mp_mk {α β : Type} [Rn α] [Rn β] (a : α) (b : β) : mp f (MProd.mk a b) = ⟨mp f a, mp f b⟩ := rfl
theorem mp_pair {α β : Type} [Rn α] [Rn β] (a : α) (b : β) : @mp _ rnProd f (a, b) = (mp f a, mp f b) := rfl
theorem mp_fst' {α β : Type} [Rn α] [Rn β] (x : α × β) : (@mp _ rnProd f x).1 = mp f x.1 := rfl
theorem mp_snd' {α β : Type} [Rn α] [Rn β] (x : α × β) : (@mp _ rnProd f x).2 = mp f x.2 := rfl
theorem mp_isSome {α : Type} [Rn α] (o : Option α) : (mp f o).isSome = o.isSome := by cases o <;> rfl
theorem mp_nil (p : Ptr) : (mp f p = .nil) = (p = .nil) := by cases p <;> simp [mp]
theorem mp_bne (p : Ptr) : (mp f p != .nil) = (p != .nil) := by cases p <;> rfl
theorem mp_beq (p : Ptr) : (mp f p == .nil) = (p == .nil) := by cases p <;> rfl
theorem mp_append (p : Slice) (n : Nat) (l : Ref) : (mp f p).append (n, some (mp f l)) = mp f (p.append (n, some l)) := Nrel.append_mp p n l

end

macro "mp_simp" : tactic => `(tactic| simp only [mp_fst, mp_snd, mp_pmap, mp_tmap, mp_ptr, mp_arr, mp_other, mp_bytes, mp_none, mp_some, mp_pair, mp_fst', mp_snd',
  mp_isSome, mp_nil, mp_bne, mp_beq, mp_append])

/-- Go through both programs. -/
macro "nat_step" : tactic => `(tactic| first
  | with_reducible refine Nrel.pure ?_; done | with_reducible exact Nrel.fail _ 
  | (with_reducible refine Nrel.pure ?_); rfl
  | (with_reducible refine Nrel.load' ?_); rfl
  | (with_reducible refine Nrel.store' ?_ ?_) <;> rfl
  | (with_reducible refine Nrel.setPtr ?_ ?_) <;> rfl
  | (with_reducible refine Nrel.setPmap ?_ ?_) <;> rfl
  | (with_reducible refine Nrel.setTmap ?_ ?_) <;> rfl
  | (with_reducible refine Nrel.alloc' ?_) <;> rfl
  | (with_reducible refine Nrel.storeVal' ?_ ?_) <;> rfl
  | (with_reducible refine Nrel.getRoot' ?_) <;> rfl
  | (with_reducible refine Nrel.modLen ?_ ?_) <;> rfl
  | (with_reducible refine Nrel.modDep ?_ ?_) <;> rfl
  | (with_reducible refine Nrel.deref ?_) <;> rfl
  | (with_reducible refine Nrel.newLinkArray ?_) <;> rfl
  | (with_reducible refine Nrel.kvKey (fun _ => rfl) ?_) <;> rfl
  | (with_reducible refine Nrel.kvVal (fun _ => rfl) ?_) <;> rfl
  | (with_reducible refine Nrel.fieldAddr ?_) <;> rfl
  | (with_reducible refine Nrel.ofRoot ?_) <;> rfl
  | (with_reducible refine Nrel.linkAt ?_ ?_) <;> rfl
  | (with_reducible refine Nrel.radixAt ?_ ?_) <;> rfl
  | (with_reducible refine Nrel.clearAt ?_ ?_) <;> rfl
  | ((with_reducible refine Nrel.bind ?_ fun _ => ?_) <;> try mp_simp)
  | (with_reducible apply Nrel.ite; exact Iff.rfl)
  | ((with_reducible refine Nrel.forIn rfl ?_ fun _ _ => ?_) <;> first | rfl | try mp_simp)
  | with_reducible refine Nrel.andM ?_ ?_
  | (split <;> (rename_i heq; simp only [heq, mp_none, mp_some])))

end Amt.Par
