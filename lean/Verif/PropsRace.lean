/-
There are no data races with the lock, nor between goroutines with containers of their own (C83).
-/
import Verif.PropsOwn

set_option linter.unusedVariables false
set_option linter.unusedSectionVars false

namespace Amt.Par
open Amt Spec
open Rn (mp)

/-- What is accessed: a link of an array of links, a cell, the fields `seed`, `len` and `dep` of a root. -/
inductive Loc where
  | link (a i : Nat)
  | cell (a : Nat)
  | root (a : Nat)
deriving DecidableEq

/-- The object it belongs to. -/
def Loc.obj : Loc → Nat
  | .link a _ => a
  | .cell a => a
  | .root a => a

section
variable {K V α : Type}

/-- What a goroutine is about to access, and whether it writes.  (Nothing if it has ended, is about to allocate, or is about to follow a nil pointer.) -/
def T.next : T K V α → Option (Loc × Bool)
  | .load ⟨.blk a, i⟩ _ => some (.link a i, false)
  | .store ⟨.blk a, i⟩ _ _ => some (.link a i, true)
  | .put ⟨.blk a, i⟩ _ _ => some (.link a i, true)
  | .loadKv (.blk a) _ => some (.cell a, false)
  | .storeVal (.blk a) _ _ => some (.cell a, true)
  | .getRoot a _ => some (.root a, false)
  | .modRoot a _ _ => some (.root a, true)
  | _ => none

/-- Two goroutines are about to access the same, and one of them writes. -/
def Race (t t' : T K V α) : Prop := ∃ l b b', t.next = some (l, b) ∧ t'.next = some (l, b') ∧ (b = true ∨ b' = true)

instance (t t' : T K V α) : Decidable (Race t t') :=
  match h : t.next, h' : t'.next with
  | some (l, b), some (l', b') =>
    if e : l = l' ∧ (b = true ∨ b' = true) then isTrue ⟨l, b, b', h, e.1 ▸ h', e.2⟩
    else isFalse fun ⟨x, c, c', h1, h2, h3⟩ => e (by rw [h] at h1; rw [h'] at h2; cases h1; cases h2; exact ⟨rfl, h3⟩)
  | none, _ => isFalse fun ⟨_, _, _, h1, _⟩ => by rw [h] at h1; cases h1
  | some _, none => isFalse fun ⟨_, _, _, _, h2, _⟩ => by rw [h'] at h2; cases h2

theorem RO.next {t : T K V α} (h : t.RO) {l : Loc} {b : Bool} (e : t.next = some (l, b)) : b = false := by
  cases t with
  | load r k =>
    obtain ⟨_ | a, i⟩ := r
    · cases e
    · cases e; rfl
  | loadKv p k =>
    cases p with
    | nil => cases e
    | blk a => cases e; rfl
  | getRoot h k => cases e; rfl
  | ret a => cases e
  | fail a => cases e
  | alloc o k => cases e
  | store => exact h.elim
  | put => exact h.elim
  | storeVal => exact h.elim
  | modRoot => exact h.elim

theorem RO.no_race {t t' : T K V α} (h : t.RO) (h' : t'.RO) : ¬ Race t t' := by
  rintro ⟨l, b, b', e, e', hb⟩
  rw [RO.next h e, RO.next h' e'] at hb
  rcases hb with hb | hb <;> cases hb

theorem Nrel.next [Rn α] {f : Nat → Nat} {t t' : T K V α} (h : Nrel f t t') {l : Loc} {b : Bool} (e : t'.next = some (l, b)) : ∃ p, l.obj = f p := by
  cases h with
  | load r _ =>
    obtain ⟨_ | a, i⟩ := r
    · cases e
    · cases e; exact ⟨a, rfl⟩
  | store r _ _ =>
    obtain ⟨_ | a, i⟩ := r
    · cases e
    · cases e; exact ⟨a, rfl⟩
  | put r _ _ =>
    obtain ⟨_ | a, i⟩ := r
    · cases e
    · cases e; exact ⟨a, rfl⟩
  | loadKv p _ =>
    cases p with
    | nil => cases e
    | blk a => cases e; exact ⟨a, rfl⟩
  | storeVal p _ _ =>
    cases p with
    | nil => cases e
    | blk a => cases e; exact ⟨a, rfl⟩
  | getRoot a _ => cases e; exact ⟨a, rfl⟩
  | modRoot a _ _ => cases e; exact ⟨a, rfl⟩
  | ret => cases e
  | fail => cases e
  | alloc => cases e

/-- Goroutines that start with nothing: at any time, two of them are about to access different objects, none of which was there before. -/
theorem own_apart [Rn α] {n : Nat} (sched : List (Fin n)) (ts : Fin n → T K V α) (hts : ∀ i, Natural (ts i)) {s : St K V} (hs : Clean s) {i j : Fin n} (hij : i ≠ j)
    {l l' : Loc} {b b' : Bool} (h : ((interleave sched ts s).1 i).next = some (l, b)) (h' : ((interleave sched ts s).1 j).next = some (l', b')) :
    l.obj ≠ l'.obj ∧ s.next ≤ l.obj ∧ s.next ≤ l'.obj := by
  have h0 := own sched ts hts hs
  obtain ⟨p, hp⟩ := (h0.1 i).1.next h
  obtain ⟨q, hq⟩ := (h0.1 j).1.next h'
  exact ⟨fun e => hij (place_eq sched ts s i j p q (hp.symm.trans (e.trans hq))).1, hp ▸ place_ge sched ts s i p, hq ▸ place_ge sched ts s j q⟩

end

/-! ### C83 -/

section
variable {ι κ K V R : Type} [DecidableEq ι] [Inhabited V]

theorem Inv.no_race {Op Out : Type} {G : Guarded K V Op Out} {prog : ι → List Out → Option Op} {s₀ : St K V} {path₀ : List PathLink} {w : World ι K V Op Out}
    (h : Inv G prog s₀ path₀ w) {i j : ι} (hij : i ≠ j) {c c' : Op} {t t' : T K V (Out × List PathLink)} (hi : w.now i = some (c, t)) (hj : w.now j = some (c', t')) :
    ¬ Race t t' := by
  have hr : G.read c = true := by
    cases e : G.read c with
    | true => rfl
    | false => rw [h.alone i c t hi e j (Ne.symm hij)] at hj; cases hj
  have hr' : G.read c' = true := by
    cases e : G.read c' with
    | true => rfl
    | false => rw [h.alone j c' t' hj e i hij] at hi; cases hi
  exact RO.no_race (h.ro i c t hi hr) (h.ro j c' t' hj hr')

/-- C83 for the maps: goroutines that call the methods of a map with the read-write lock of C81.  At no time are two of them about to access the same
memory, one of them writing. -/
theorem C83_map {G : MapTree K V} {C : Go.MapCode K V} (h : MapTreeOf G C) (n : Nat) (sd : Seed) (prog : ι → List (MOut K V) → Option (Call K V))
    {w : World ι K V (Call K V) (MOut K V)} (hw : Reach (h.of.guarded n (some 0)) prog (World.start (fresh sd) Amt.blank) w) {i j : ι} (hij : i ≠ j)
    {c c' : Call K V} {t t' : T K V (MOut K V × List PathLink)} (hi : w.now i = some (c, t)) (hj : w.now j = some (c', t')) : ¬ Race t t' :=
  (Inv.reach hw).no_race hij hi hj

/-- C83 for the sets. -/
theorem C83_set {G : SetTree K} {C : Go.SetCode K} (h : SetTreeOf G C) (n : Nat) (sd : Seed) (prog : ι → List (SOut K) → Option (SCall K))
    {w : World ι K Unit (SCall K) (SOut K)} (hw : Reach (h.of.guarded n (some 0)) prog (World.start (fresh sd) Amt.blank) w) {i j : ι} (hij : i ≠ j)
    {c c' : SCall K} {t t' : T K Unit (SOut K × List PathLink)} (hi : w.now i = some (c, t)) (hj : w.now j = some (c', t')) : ¬ Race t t' :=
  (Inv.reach hw).no_race hij hi hj

/-- Reading calls need no lock among themselves: in whatever state the map is, and in any order of the accesses. -/
theorem C83_readers {G : MapTree K V} {C : Go.MapCode K V} (h : MapTreeOf G C) (n : Nat) (m : Handle) (path : List PathLink) (c : ι → Read K V) (s : St K V) (sched : List ι)
    (i j : ι) : ¬ Race ((interleave sched (fun i => G.call n m path (.rlock (c i))) s).1 i) ((interleave sched (fun i => G.call n m path (.rlock (c i))) s).1 j) :=
  have h1 := (interleave_ro sched (fun i => G.call n m path (.rlock (c i))) s fun i => (h.of.guarded n m).ro path (.rlock (c i)) rfl).2
  RO.no_race (h1 i).1 (h1 j).1

theorem C83_readers_set {G : SetTree K} {C : Go.SetCode K} (h : SetTreeOf G C) (n : Nat) (m : Handle) (path : List PathLink) (c : ι → SCall K) (hc : ∀ i, (c i).isRead = true)
    (s : St K Unit) (sched : List ι) (i j : ι) :
    ¬ Race ((interleave sched (fun i => G.call n m path (c i)) s).1 i) ((interleave sched (fun i => G.call n m path (c i)) s).1 j) :=
  have h1 := (interleave_ro sched (fun i => G.call n m path (c i)) s fun i => (h.of.guarded n m).ro path (c i) (hc i)).2
  RO.no_race (h1 i).1 (h1 j).1

/-- C83 for goroutines with maps of their own (C82): at no time are two of them about to access the same object, not even to read it, nor an object that was there
before them. -/
theorem C83_own_map {g : Nat} {G : κ → MapTrees K V} {C : κ → Go.MapFull K V} (h : ∀ k, MapTreesOf (G k) (C k)) (n : Nat)
    (p : Fin g → Prog κ K V (MOp K V) (MOut K V) K R) {s : St K V} (hs : Clean s) (sched : List (Fin g)) {i j : Fin g} (hij : i ≠ j) {l l' : Loc} {b b' : Bool}
    (hi : ((interleave sched (fun i => client (fun k => (G k).kind n) (p i)) s).1 i).next = some (l, b))
    (hj : ((interleave sched (fun i => client (fun k => (G k).kind n) (p i)) s).1 j).next = some (l', b')) :
    l.obj ≠ l'.obj ∧ s.next ≤ l.obj ∧ s.next ≤ l'.obj :=
  own_apart sched _ (fun i => client_natural (fun k => (h k).nat.kind n) (p i)) hs hij hi hj

theorem C83_own_set {g : Nat} {G : κ → SetTrees K} {C : κ → Go.SetFull K} (h : ∀ k, SetTreesOf (G k) (C k)) (n : Nat)
    (p : Fin g → Prog κ K Unit (SOp K) (SOut K) Empty R) {s : St K Unit} (hs : Clean s) (sched : List (Fin g)) {i j : Fin g} (hij : i ≠ j) {l l' : Loc} {b b' : Bool}
    (hi : ((interleave sched (fun i => client (fun k => (G k).kind n) (p i)) s).1 i).next = some (l, b))
    (hj : ((interleave sched (fun i => client (fun k => (G k).kind n) (p i)) s).1 j).next = some (l', b')) :
    l.obj ≠ l'.obj ∧ s.next ≤ l.obj ∧ s.next ≤ l'.obj :=
  own_apart sched _ (fun i => client_natural (fun k => (h k).nat.kind n) (p i)) hs hij hi hj

theorem C83_own_no_race {g : Nat} {G : κ → MapTrees K V} {C : κ → Go.MapFull K V} (h : ∀ k, MapTreesOf (G k) (C k)) (n : Nat)
    (p : Fin g → Prog κ K V (MOp K V) (MOut K V) K R) {s : St K V} (hs : Clean s) (sched : List (Fin g)) {i j : Fin g} (hij : i ≠ j) :
    ¬ Race ((interleave sched (fun i => client (fun k => (G k).kind n) (p i)) s).1 i) ((interleave sched (fun i => client (fun k => (G k).kind n) (p i)) s).1 j) := by
  rintro ⟨l, b, b', hi, hj, _⟩
  exact (C83_own_map h n p hs sched hij hi hj).1 rfl

end

/-- Without the lock: `Get` and `Set` of a StringMap, of the same key or of different ones, are about to access the same link after some accesses (here its
bitmap pmap), and `Set` writes; so are two `Set`. -/
theorem C83_refuted_unlocked : ∃ (sum : Maphash) (sd : Seed) (k k' : ByteStr), k ≠ k' ∧
    ∀ ops : Bool → MOp ByteStr Nat, ops ∈ [fun i => if i then MOp.set k' 8 else MOp.get k, fun i => if i then .set k 8 else .get k, fun i => if i then .set k' 8 else .set k 7] →
      ∃ sched, (fun ts : Bool → T ByteStr Nat (MOut ByteStr Nat × List PathLink) => Race (ts false) (ts true))
        (interleave sched (fun i => (stringMap sum).exec 256 (some 0) Amt.blank (ops i)) (fresh sd)).1 := by
  refine ⟨toyHash, 0#64, strKey 0x01, strKey 0x02, by decide, fun ops h => ?_⟩
  simp only [List.mem_cons, List.not_mem_nil, or_false] at h
  rcases h with rfl | rfl | rfl
  · exact ⟨List.replicate 20 true ++ List.replicate 2 false, by decide +kernel⟩
  · exact ⟨List.replicate 20 true ++ List.replicate 2 false, by decide +kernel⟩
  · exact ⟨List.replicate 20 true ++ List.replicate 20 false, by decide +kernel⟩

/-- Two goroutines with maps of their own, both in the middle of a call and about to write. -/
example : (fun ts : Fin 2 → T ByteStr Nat (List (MOut ByteStr Nat)) => ((ts 0).next.map fun x => x.2) = some true ∧ ((ts 1).next.map fun x => x.2) = some true)
    (interleave (List.replicate 18 0 ++ List.replicate 18 1) (fun i : Fin 2 => client (fun _ : Unit => (stringMapFull toyHash : MapTrees ByteStr Nat).kind 256)
      (calls () 0#64 [.set (strKey 0x01) 7])) St.init).1 := by decide +kernel

end Amt.Par
