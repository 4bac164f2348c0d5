/-
The code looks at keys only through the configuration of the container, and at values not at all: with other types of keys and values it does the
same, in the image of the memory.
-/
import Verif.Callback
import Verif.PropsMixed

set_option linter.unusedVariables false
set_option linter.unusedSectionVars false

namespace Amt
open Spec

section
variable {K V K' V' α β γ δ : Type} {f : K → K'} {g : V → V'}

/-- The image of an object. -/
def mapObj (f : K → K') (g : V → V') : Obj K V → Obj K' V'
  | .links xs => .links xs
  | .kv k v => .kv (k.map f) (g v)

/-- The image of a memory. -/
def mapSt (f : K → K') (g : V → V') (s : St K V) : St K' V' := { mem := fun a => (s.mem a).map (mapObj f g), next := s.next, roots := s.roots }

/-- The two containers treat a key and its image in the same way. -/
structure CfgI (f : K → K') (c' : Cfg K') (c : Cfg K) : Prop where
  store : c'.store = c.store
  encP : ∀ k, c'.encP (f k) = c.encP k
  encT : ∀ k, c'.encT (f k) = c.encT k
  dec : ∀ p t, c'.dec p t = (c.dec p t).map f
  eq : ∀ a b, c'.eq (f a) (f b) = c.eq a b
  digest : ∀ s k w d, c'.digest s (f k) w d = c.digest s k w d
  forget : c'.forget = c.forget

/-- The outcomes correspond. -/
def OutI (f : K → K') (g : V → V') (Q : α → β → Prop) : Except Fault (α × St K' V') → Except Fault (β × St K V) → Prop
  | .error e, .error e' => e = e'
  | .ok (a, s), .ok (b, t) => Q a b ∧ s = mapSt f g t
  | _, _ => False

/-- The first program does in the image of a memory what the second one does in the memory. -/
def Img (f : K → K') (g : V → V') (Q : α → β → Prop) (x : M K' V' α) (y : M K V β) : Prop := ∀ t, OutI f g Q (x (mapSt f g t)) (y t)

theorem Img.pure {Q : α → β → Prop} {a : α} {b : β} (h : Q a b) : Img f g Q (Pure.pure a) (Pure.pure b) := fun t => ⟨h, rfl⟩

theorem Img.fail {Q : α → β → Prop} (e : Fault) : Img f g Q (M.fail e) (M.fail e) := fun t => rfl

theorem Img.bind {Q : α → β → Prop} {Q' : γ → δ → Prop} {x : M K' V' α} {y : M K V β} {F : α → M K' V' γ} {G : β → M K V δ} (h1 : Img f g Q x y)
    (h2 : ∀ a b, Q a b → Img f g Q' (F a) (G b)) : Img f g Q' (x >>= F) (y >>= G) := by
  intro t
  have h3 := h1 t
  rw [bind_run, bind_run]
  cases hx : x (mapSt f g t) <;> cases hy : y t <;> rw [hx, hy] at h3
  · exact h3
  · exact h3.elim
  · exact h3.elim
  · rename_i r r'
    obtain ⟨a, s1⟩ := r
    obtain ⟨b, t1⟩ := r'
    obtain ⟨h4, rfl⟩ := h3
    exact h2 a b h4 t1

/-- When the results are equal. -/
theorem Img.seq {Q' : γ → δ → Prop} {x : M K' V' α} {y : M K V α} {F : α → M K' V' γ} {G : α → M K V δ} (h1 : Img f g Eq x y)
    (h2 : ∀ a, Img f g Q' (F a) (G a)) : Img f g Q' (x >>= F) (y >>= G) :=
  h1.bind fun a b e => by cases e; exact h2 a

theorem Img.ite {Q : α → β → Prop} {p : Prop} [Decidable p] {x x' : M K' V' α} {y y' : M K V β} (h1 : Img f g Q x y) (h2 : Img f g Q x' y') :
    Img f g Q (if p then x else x') (if p then y else y') := by
  split
  · exact h1
  · exact h2

theorem Img.imp {Q Q' : α → β → Prop} {x : M K' V' α} {y : M K V β} (h1 : Img f g Q x y) (h2 : ∀ a b, Q a b → Q' a b) : Img f g Q' x y := by
  intro t
  have h3 := h1 t
  cases hx : x (mapSt f g t) <;> cases hy : y t <;> rw [hx, hy] at h3
  · exact h3
  · exact h3.elim
  · exact h3.elim
  · exact ⟨h2 _ _ h3.1, h3.2⟩

/-! ### Accesses -/

theorem Img.load (r : Ref) : Img f g Eq (load r : M K' V' Link) (load r : M K V Link) := by
  intro t
  obtain ⟨p, i⟩ := r
  cases p with
  | nil => exact rfl
  | blk b =>
    simp only [Amt.load, mapSt]
    cases hx : t.mem b with
    | none => exact rfl
    | some o =>
      cases o with
      | kv k v => exact rfl
      | links xs =>
        simp only [Option.map_some, mapObj]
        cases xs[i]? with
        | none => exact rfl
        | some x => exact ⟨rfl, rfl⟩

/-- The image of a memory with one object replaced. -/
theorem mapSt_put (t : St K V) (b : Nat) (o : Obj K V) (n : Nat) :
    ({ mem := fun a => if a = b then some (mapObj f g o) else (t.mem a).map (mapObj f g), next := n, roots := t.roots } : St K' V') =
      mapSt f g { t with mem := fun a => if a = b then some o else t.mem a, next := n } := by
  unfold mapSt
  congr 1
  funext a
  simp only
  split <;> rfl

theorem Img.store (r : Ref) (x : Link) : Img f g Eq (store r x : M K' V' Unit) (store r x : M K V Unit) := by
  intro t
  obtain ⟨p, i⟩ := r
  cases p with
  | nil => exact rfl
  | blk b =>
    simp only [Amt.store, mapSt]
    cases hx : t.mem b with
    | none => exact rfl
    | some o =>
      cases o with
      | kv k v => exact rfl
      | links xs =>
        simp only [Option.map_some, mapObj]
        split
        · exact ⟨rfl, mapSt_put t b (.links (xs.set i x)) t.next⟩
        · exact rfl

theorem Img.modLink (r : Ref) (F : Link → Link) : Img f g Eq (modLink r F : M K' V' Unit) (modLink r F : M K V Unit) :=
  Img.seq (Img.load r) fun x => Img.store r _

theorem Img.alloc (o : Obj K V) : Img f g Eq (alloc (mapObj f g o) : M K' V' Ptr) (alloc o) :=
  fun t => ⟨rfl, mapSt_put t t.next o (t.next + 1)⟩

theorem Img.newLinkArray (n : Nat) : Img f g Eq (newLinkArray n : M K' V' Ptr) (newLinkArray n : M K V Ptr) := by
  unfold Amt.newLinkArray
  exact Img.ite (Img.alloc (.links _)) (Img.ite (Img.alloc (.links _)) (Img.ite (Img.alloc (.links _)) (Img.alloc (.links _))))

theorem Img.loadKv (p : Ptr) : Img f g (fun a b => a = (b.1.map f, g b.2)) (loadKv p : M K' V' (Option K' × V')) (loadKv p : M K V (Option K × V)) := by
  intro t
  cases p with
  | nil => exact rfl
  | blk b =>
    simp only [Amt.loadKv, mapSt]
    cases hx : t.mem b with
    | none => exact rfl
    | some o => cases o <;> first | exact rfl | exact ⟨rfl, rfl⟩

theorem Img.storeVal (p : Ptr) (v : V) : Img f g Eq (storeVal p (g v) : M K' V' Unit) (storeVal p v : M K V Unit) := by
  intro t
  cases p with
  | nil => exact rfl
  | blk b =>
    simp only [Amt.storeVal, mapSt]
    cases hx : t.mem b with
    | none => exact rfl
    | some o =>
      cases o with
      | links xs => exact rfl
      | kv k u => exact ⟨rfl, mapSt_put t b (.kv k v) t.next⟩

theorem Img.getRoot (h : Nat) : Img f g Eq (getRoot h : M K' V' Meta) (getRoot h : M K V Meta) := fun t => ⟨rfl, rfl⟩

theorem Img.modRoot (h : Nat) (F : Meta → Meta) : Img f g Eq (modRoot h F : M K' V' Unit) (modRoot h F : M K V Unit) := fun t => ⟨rfl, rfl⟩

theorem Img.liftE (x : Except Fault α) : Img f g Eq (liftE x : M K' V' α) (liftE x : M K V α) := by
  intro t
  cases x with
  | error e => exact rfl
  | ok a => exact ⟨rfl, rfl⟩

theorem Img.deref (m : Handle) : Img f g Eq (deref m : M K' V' Nat) (deref m : M K V Nat) := by
  cases m with
  | none => exact Img.fail _
  | some h => exact Img.pure rfl

/-- The image of an empty memory is empty. -/
theorem mapSt_init : mapSt f g (St.init : St K V) = St.init := rfl

theorem Img.newRoot (sd : Seed) : Img f g Eq (newRoot sd : M K' V' Handle) (newRoot sd : M K V Handle) := by
  intro t
  refine ⟨rfl, ?_⟩
  unfold mapSt
  congr 1
  funext a
  simp only
  split
  · rfl
  · split <;> rfl

variable {c' : Cfg K'} {c : Cfg K}

theorem Img.readKey (hc : CfgI f c' c) (x : Link) : Img f g (fun a b => a = f b) (readKey c' x : M K' V' K') (readKey c x : M K V K) := by
  unfold Amt.readKey
  rw [hc.store, hc.dec]
  split
  · refine Img.bind (Img.loadKv _) fun a b e => ?_
    cases e
    cases b.1 with
    | none => exact Img.fail _
    | some k => exact Img.pure rfl
  · cases c.dec x.pmap x.tmap with
    | none => exact Img.fail _
    | some k => exact Img.pure rfl
  · cases c.dec x.pmap x.tmap with
    | none => exact Img.fail _
    | some k => exact Img.pure rfl

theorem Img.newKv (hc : CfgI f c' c) (k : K) (v : V) : Img f g Eq (newKv c' (f k) (g v) : M K' V' Ptr) (newKv c k v : M K V Ptr) := by
  unfold Amt.newKv
  rw [hc.store]
  split
  · exact Img.alloc (.kv (some k) v)
  · exact Img.alloc (.kv none v)
  · exact Img.pure rfl

/-! ### Searching -/

theorem CfgI.link (hc : CfgI f c' c) (k : K) (p : Ptr) : mkLink c' (f k) p = mkLink c k p := by unfold mkLink; rw [hc.encP, hc.encT]

theorem CfgI.put (hc : CfgI f c' c) (k : K) (p : Ptr) : putLink c' (f k) p = putLink c k p := by
  funext x
  unfold putLink
  rw [hc.store, hc.link, hc.encP, hc.encT]

theorem CfgI.start (hc : CfgI f c' c) (s : Seed) (k : K) (h : Nat) : start c' s (f k) h = start c s k h := by unfold Amt.start; rw [hc.digest]

theorem CfgI.descend (hc : CfgI f c' c) (s : Seed) (k : K) (cur : Cur) (r : Ref) : descend c' s (f k) cur r = descend c s k cur r := by
  unfold Amt.descend; simp only [hc.digest]

theorem CfgI.kept (hc : CfgI f c' c) (p : Ptr) : c'.kept p = c.kept p := by unfold Cfg.kept; rw [hc.forget]

theorem Img.search (hc : CfgI f c' c) (s : Seed) (k : K) (fuel : Nat) : ∀ cur, Img f g Eq (search c' s (f k) fuel cur : M K' V' (Cur × Bool)) (search c s k fuel cur : M K V (Cur × Bool)) := by
  induction fuel with
  | zero => intro cur; exact Img.fail _
  | succ fuel ih =>
    intro cur
    unfold Amt.search
    refine Img.seq (Img.load _) fun lk => ?_
    dsimp only
    refine Img.ite (Img.ite ?_ (Img.pure rfl)) (Img.pure rfl)
    rw [hc.descend]
    exact ih _

theorem Img.itemRef (cur : Cur) : Img f g Eq (itemRef cur : M K' V' Ref) (itemRef cur : M K V Ref) := Img.seq (Img.load _) fun lk => Img.pure rfl

theorem Img.lookup (hc : CfgI f c' c) (h fuel : Nat) (k : K) : Img f g Eq (lookup c' h fuel (f k) : M K' V' (Option Ptr)) (lookup c h fuel k : M K V (Option Ptr)) := by
  unfold Amt.lookup
  refine Img.seq (Img.getRoot h) fun r => ?_
  rw [hc.start]
  refine Img.seq (Img.search hc _ k fuel _) fun q => ?_
  obtain ⟨cur, hit⟩ := q
  refine Img.ite ?_ (Img.pure rfl)
  refine Img.seq (Img.itemRef cur) fun item => Img.seq (Img.load _) fun x => Img.bind (Img.readKey hc x) fun a b e => ?_
  rw [e, hc.eq]
  exact Img.ite (Img.pure rfl) (Img.pure rfl)

/-! ### Insertion -/

/-- What is specific to `Set`, `Mod` or `Add` corresponds. -/
structure InsI {R R' : Type} (f : K → K') (g : V → V') (Q : R' → R → Prop) (key : K) (ins' : Ins K' V' R') (ins : Ins K V R) : Prop where
  chash : ∀ s ckey d fuel, ins'.chash s (f key) (f ckey) d fuel = ins.chash s key ckey d fuel
  guard : ins'.guard = ins.guard
  hit : ∀ p, Img f g Q (ins'.hit p) (ins.hit p)
  newSplit : Img f g (fun a b => a.1 = b.1 ∧ Q a.2 b.2) ins'.newSplit ins.newSplit
  newSlot : Img f g (fun a b => a.1 = b.1 ∧ Q a.2 b.2) ins'.newSlot ins.newSlot

variable {R R' : Type} {Q : R' → R → Prop} {ins' : Ins K' V' R'} {ins : Ins K V R}

theorem Img.split (hc : CfgI f c' c) {key : K} (hi : InsI f g Q key ins' ins) (s : Seed) (h : Nat) (ckey : K) (cptr : Ptr) (fuel : Nat) : ∀ item d hd chd w cw,
    Img f g Q (split c' s h (f key) (f ckey) cptr ins' fuel item d hd chd w cw) (split c s h key ckey cptr ins fuel item d hd chd w cw) := by
  induction fuel with
  | zero => intros; exact Img.fail _
  | succ fuel ih =>
    intro item d hd chd w cw
    unfold Amt.split
    simp only [hc.digest, hc.put]
    refine Img.seq (Img.modLink _ _) fun _ => Img.ite ?_ ?_
    · refine Img.seq (Img.modLink _ _) fun _ => Img.seq (Img.newLinkArray 2) fun arr => Img.seq (Img.modLink _ _) fun _ => Img.bind hi.newSplit fun a b e => ?_
      obtain ⟨a, r'⟩ := a
      obtain ⟨b, r⟩ := b
      obtain ⟨e1, e2⟩ := e
      cases e1
      dsimp only
      refine Img.seq (Img.load _) fun y => Img.ite ?_ ?_
      · exact Img.seq (Img.modLink _ _) fun _ => Img.seq (Img.modLink _ _) fun _ => Img.seq (Img.modRoot _ _) fun _ => Img.pure e2
      · exact Img.seq (Img.modLink _ _) fun _ => Img.seq (Img.modLink _ _) fun _ => Img.seq (Img.modRoot _ _) fun _ => Img.pure e2
    · exact Img.seq (Img.newLinkArray 1) fun arr => Img.seq (Img.modLink _ _) fun _ => ih _ _ _ _ _ _

theorem Img.shiftUp (arr : Ptr) (idx n : Nat) : Img f g Eq (shiftUp arr idx n : M K' V' Unit) (shiftUp arr idx n : M K V Unit) := by
  induction n with
  | zero => exact Img.pure rfl
  | succ n ih =>
    unfold Amt.shiftUp
    exact Img.ite (Img.seq (Img.load _) fun x => Img.seq (Img.store _ _) fun _ => ih) (Img.pure rfl)

theorem Img.copyUp (dst src : Ptr) (doff soff n : Nat) : ∀ i, Img f g Eq (copyUp dst src doff soff n i : M K' V' Unit) (copyUp dst src doff soff n i : M K V Unit) := by
  induction n with
  | zero => intro i; exact Img.pure rfl
  | succ n ih =>
    intro i
    unfold Amt.copyUp
    exact Img.seq (Img.load _) fun x => Img.seq (Img.store _ _) fun _ => ih _

theorem Img.insertSlot (hc : CfgI f c' c) {key : K} (hi : InsI f g Q key ins' ins) (h : Nat) (cur : Cur) :
    Img f g Q (insertSlot c' h (f key) ins' cur) (insertSlot c h key ins cur) := by
  unfold Amt.insertSlot
  simp only [hc.link]
  refine Img.seq (Img.load _) fun lk₀ => Img.bind hi.newSlot fun a b e => ?_
  obtain ⟨a, r'⟩ := a
  obtain ⟨b, r⟩ := b
  obtain ⟨e1, e2⟩ := e
  cases e1
  dsimp only
  have fin : Img f g Q (do Amt.modLink cur.l fun x => { x with pmap := x.pmap ||| bitOf (radixOf cur.hd), tmap := x.tmap ||| bitOf (radixOf cur.hd) }
                           Amt.modRoot h fun m => { m with len := m.len + 1, dep := m.dep + BitVec.ofNat 64 cur.d }
                           Pure.pure r' : M K' V' R')
      (do Amt.modLink cur.l fun x => { x with pmap := x.pmap ||| bitOf (radixOf cur.hd), tmap := x.tmap ||| bitOf (radixOf cur.hd) }
          Amt.modRoot h fun m => { m with len := m.len + 1, dep := m.dep + BitVec.ofNat 64 cur.d }
          Pure.pure r : M K V R) := Img.seq (Img.modLink _ _) fun _ => Img.seq (Img.modRoot _ _) fun _ => Img.pure e2
  refine Img.seq (Img.load _) fun lk => Img.ite ?_ ?_
  · exact Img.seq (Img.shiftUp _ _ _) fun _ => Img.seq (Img.store _ _) fun _ => fin
  · exact Img.seq (Img.newLinkArray _) fun arr => Img.seq (Img.modLink _ _) fun _ => Img.seq (Img.copyUp _ _ _ _ _ _) fun _ => Img.seq (Img.store _ _) fun _ =>
      Img.seq (Img.copyUp _ _ _ _ _ _) fun _ => fin

theorem Img.conflict (hc : CfgI f c' c) {key : K} (hi : InsI f g Q key ins' ins) (s : Seed) (h fuel : Nat) (cur : Cur) :
    Img f g Q (conflict c' s h fuel (f key) ins' cur) (conflict c s h fuel key ins cur) := by
  unfold Amt.conflict
  refine Img.seq (Img.itemRef cur) fun item => Img.seq (Img.load _) fun x => Img.bind (Img.readKey hc x) fun a b e => ?_
  rw [e, hc.eq, hi.chash, hi.guard, hc.kept]
  refine Img.ite (hi.hit _) (Img.seq (Img.liftE _) fun q => ?_)
  obtain ⟨chd, cw⟩ := q
  refine Img.ite ?_ ?_
  · refine Img.bind hi.newSlot fun a b e => ?_
    obtain ⟨a, r'⟩ := a
    obtain ⟨b, r⟩ := b
    obtain ⟨e1, e2⟩ := e
    cases e1
    exact Img.seq (Img.modLink _ _) fun _ => Img.pure e2
  · exact Img.seq (Img.modLink _ _) fun _ => Img.seq (Img.modRoot _ _) fun _ => Img.split hc hi _ _ _ _ _ _ _ _ _ _ _

theorem Img.upsert (hc : CfgI f c' c) {key : K} (hi : InsI f g Q key ins' ins) (h fuel : Nat) : Img f g Q (upsert c' h fuel (f key) ins') (upsert c h fuel key ins) := by
  unfold Amt.upsert
  refine Img.seq (Img.getRoot h) fun r => ?_
  rw [hc.start]
  refine Img.seq (Img.search hc _ key fuel _) fun q => ?_
  obtain ⟨cur, hit⟩ := q
  exact Img.ite (Img.conflict hc hi _ _ _ _) (Img.insertSlot hc hi _ _)

/-! ### Deletion -/

theorem Img.pathAt (p : List (Nat × Option Ref)) (d : Nat) : Img f g Eq (pathAt p d : M K' V' (Nat × Ref)) (pathAt p d : M K V (Nat × Ref)) := by
  unfold Amt.pathAt
  split
  · exact Img.fail _
  · exact Img.fail _
  · exact Img.pure rfl

theorem Img.collapse (h d : Nat) : ∀ p l count, Img f g Eq (collapse h d p l count : M K' V' Unit) (collapse h d p l count : M K V Unit) := by
  induction d with
  | zero => intros; exact Img.pure rfl
  | succ d ih =>
    intro p l count
    unfold Amt.collapse
    refine Img.seq (Img.load _) fun lk => Img.ite ?_ (Img.pure rfl)
    refine Img.seq (Img.load _) fun x => Img.seq (Img.store _ _) fun _ => Img.seq (Img.modRoot _ _) fun _ => Img.seq (Img.pathAt _ _) fun q => ?_
    exact Img.seq (Img.modLink _ _) fun _ => Img.seq (Img.load _) fun _ => ih _ _ _

theorem Img.shiftBack (d : Nat) (l : Ref) (idx count : Nat) : Img f g Eq (shiftBack d l idx count : M K' V' Unit) (shiftBack d l idx count : M K V Unit) := by
  unfold Amt.shiftBack
  refine Img.seq (Img.load _) fun lk => Img.ite ?_ (Img.copyUp _ _ _ _ _ _)
  exact Img.seq (Img.newLinkArray _) fun arr => Img.seq (Img.modLink _ _) fun _ => Img.seq (Img.copyUp _ _ _ _ _ _) fun _ => Img.copyUp _ _ _ _ _ _

theorem Img.unlink (h d : Nat) : ∀ p l idx count, Img f g Eq (unlink h d p l idx count : M K' V' Unit) (unlink h d p l idx count : M K V Unit) := by
  induction d with
  | zero => intro p l idx count; exact Img.seq (Img.shiftBack _ _ _ _) fun _ => Img.collapse _ _ _ _ _
  | succ d ih =>
    intro p l idx count
    unfold Amt.unlink
    refine Img.ite ?_ (Img.seq (Img.shiftBack _ _ _ _) fun _ => Img.collapse _ _ _ _ _)
    refine Img.seq (Img.modLink _ _) fun _ => Img.seq (Img.pathAt _ _) fun q => Img.seq (Img.load _) fun lk => ?_
    exact Img.seq (Img.modLink _ _) fun _ => Img.seq (Img.load _) fun _ => ih _ _ _ _

theorem Img.delete (hc : CfgI f c' c) (h fuel : Nat) (skip : Bool → Bool) (key : K) : Img f g Eq (delete c' h fuel skip (f key) : M K' V' Unit) (delete c h fuel skip key : M K V Unit) := by
  unfold Amt.delete
  refine Img.seq (Img.getRoot h) fun r => ?_
  rw [hc.start]
  refine Img.seq (Img.search hc _ key fuel _) fun q => ?_
  obtain ⟨cur, hit⟩ := q
  refine Img.ite ?_ (Img.pure rfl)
  unfold Amt.remove
  refine Img.seq (Img.itemRef cur) fun item => Img.seq (Img.load _) fun x => Img.bind (Img.readKey hc x) fun a b e => ?_
  rw [e, hc.eq]
  refine Img.ite (Img.pure rfl) ?_
  exact Img.seq (Img.load _) fun lk => Img.seq (Img.modLink _ _) fun _ => Img.seq (Img.modRoot _ _) fun _ => Img.seq (Img.load _) fun lk' => Img.unlink _ _ _ _ _ _

/-! ### Iteration -/

variable {U U' : Type} {P : U' → U → Prop}

/-- The states of the callback correspond, and both go on or not. -/
def GoI (P : U' → U → Prop) (a : U' × Bool) (b : U × Bool) : Prop := P a.1 b.1 ∧ a.2 = b.2

theorem Img.scanItems {visit' : U' → Link → M K' V' (U' × Bool)} {visit : U → Link → M K V (U × Bool)} {rec' : U' → Ref → M K' V' (U' × Bool)} {rec : U → Ref → M K V (U × Bool)}
    (hv : ∀ u' u x, P u' u → Img f g (GoI P) (visit' u' x) (visit u x)) (hr : ∀ u' u r, P u' u → Img f g (GoI P) (rec' u' r) (rec u r)) (l : Ref) (tm : BitVec 32) (n : Nat) :
    ∀ i pm u' u, P u' u → Img f g (GoI P) (scanItems visit' rec' l tm n i pm u') (scanItems visit rec l tm n i pm u) := by
  induction n with
  | zero => intro i pm u' u hu; exact Img.pure ⟨hu, rfl⟩
  | succ n ih =>
    intro i pm u' u hu
    rw [scanItems_succ, scanItems_succ]
    refine Img.seq (Img.load _) fun lk => Img.bind (Q := GoI P) (Img.ite (Img.seq (Img.load _) fun x => hv _ _ _ hu) (hr _ _ _ hu)) fun a b e => ?_
    rw [e.2]
    exact Img.ite (ih _ _ _ _ e.1) (Img.pure ⟨e.1, rfl⟩)

theorem Img.scan {visit' : U' → Link → M K' V' (U' × Bool)} {visit : U → Link → M K V (U × Bool)} (hv : ∀ u' u x, P u' u → Img f g (GoI P) (visit' u' x) (visit u x)) (fuel : Nat) :
    ∀ u' u l, P u' u → Img f g (GoI P) (scan visit' fuel u' l) (scan visit fuel u l) := by
  induction fuel with
  | zero => intros; exact Img.fail _
  | succ fuel ih =>
    intro u' u l hu
    unfold Amt.scan
    exact Img.seq (Img.load _) fun lk => Img.scanItems hv (fun a b r h => ih a b r h) _ _ _ _ _ _ _ hu

theorem Img.visitMapM (hc : CfgI f c' c) {F' : U' → K' → Ptr → M K' V' (U' × Bool)} {F : U → K → Ptr → M K V (U × Bool)}
    (hF : ∀ u' u k p, P u' u → Img f g (GoI P) (F' u' (f k) p) (F u k p)) (u' : U') (u : U) (x : Link) (hu : P u' u) :
    Img f g (GoI P) (visitMapM c' F' u' x) (visitMapM c F u x) :=
  Img.bind (Img.readKey hc x) fun a b e => by rw [e]; exact hF _ _ _ _ hu

/-- The iteration of a map or a set, with any programs as callbacks. -/
theorem Img.iter (hc : CfgI f c' c) {F' : U' → K' → Ptr → M K' V' (U' × Bool)} {F : U → K → Ptr → M K V (U × Bool)}
    (hF : ∀ u' u k p, P u' u → Img f g (GoI P) (F' u' (f k) p) (F u k p)) (fuel : Nat) (m : Handle) {u' : U'} {u : U} (hu : P u' u) :
    Img f g P (Amt.deref m >>= fun h => Amt.scan (Amt.visitMapM c' F') fuel u' ⟨.blk h, 0⟩ >>= fun r => Pure.pure r.1)
      (Amt.deref m >>= fun h => Amt.scan (Amt.visitMapM c F) fuel u ⟨.blk h, 0⟩ >>= fun r => Pure.pure r.1) :=
  Img.seq (Img.deref m) fun h => Img.bind (Img.scan (Img.visitMapM hc hF) fuel _ _ _ hu) fun a b e => Img.pure e.1

end

end Amt
