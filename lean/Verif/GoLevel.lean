/-
An iteration of the loop of the translated `Set`, `Mod` and `Add` that pushes two keys down.  Used only in proofs.
-/
import Verif.GoSplit

set_option linter.unusedVariables false
set_option linter.unusedSectionVars false
set_option linter.unusedSimpArgs false

namespace Amt.Go
open Amt

section
variable {K V R : Type}

/-- The iteration as translated (e.g. string_map.go:169-186) once the hashes are known.  `put2` writes the two links. -/
def levelG (m : Handle) (put2 : Ptr → Ptr → Bool → M K V Unit) (new : M K V (Ptr × R)) (item : Ref) (d : BitVec 8) (hd chd : BitVec 64) : M K V (R ⊕ Ref) := do
  let kbit : BitVec 32 := 1#32 <<< ((hd &&& 15#64).setWidth 8)
  let cbit : BitVec 32 := 1#32 <<< ((chd &&& 15#64).setWidth 8)
  setPmap item (kbit ||| cbit)
  if kbit != cbit then
    setTmap item (← load item).pmap
    setPtr item (← newLinkArray 2#8)
    let kv ← new
    let pair : Ptr := (← load item).ptr
    put2 pair kv.1 (decide (kbit < cbit))
    modRoot (← deref m) fun r => { r with len := r.len + 1#64 }
    modRoot (← deref m) fun r => { r with dep := r.dep + (d.setWidth 64 * 2#64) }
    return .inl kv.2
  setPtr item (← newLinkArray 1#8)
  return .inr (elem (← load item).ptr 0)

/-- The two links of a container that keeps only pointers in them. -/
def put2P (ckv : Ptr) (pair kv : Ptr) (b : Bool) : M K V Unit := do
  if b then
    setPtr (elem pair 0) kv
    setPtr (elem pair 1) ckv
  else
    setPtr (elem pair 0) ckv
    setPtr (elem pair 1) kv

/-- The two links of a container that keeps the keys in them. -/
def put2L (c : Cfg K) (key ckey : K) (cval : Ptr) (pair val : Ptr) (b : Bool) : M K V Unit := do
  if b then
    store (elem pair 0) (mkLink c key val)
    store (elem pair 1) (mkLink c ckey cval)
  else
    store (elem pair 0) (mkLink c ckey cval)
    store (elem pair 1) (mkLink c key val)

theorem modLink_err {r : Ref} {s : St K V} {e : Fault} (h : run (load r) s = .error e) (f : Link → Link) : run (modLink r f) s = .error e := by
  unfold modLink
  rw [run_bind, h, thenE_error]

/-- What `put2` must do. -/
def Puts (c : Cfg K) (key ckey : K) (cptr : Ptr) (put2 : Ptr → Ptr → Bool → M K V Unit) : Prop := ∀ arr kv b, put2 arr kv b =
  if b then (do
    modLink ⟨arr, 0⟩ (putLink c key kv)
    modLink ⟨arr, 1⟩ (putLink c ckey cptr))
  else (do
    modLink ⟨arr, 0⟩ (putLink c ckey cptr)
    modLink ⟨arr, 1⟩ (putLink c key kv))

/-- A link that is assigned whole need not be read. -/
theorem store_modLink (r : Ref) (x : Link) : (store r x : M K V Unit) = modLink r fun _ => x := by
  funext s
  show run (store r x) s = run (modLink r fun _ => x) s
  rcases run_load r s with ⟨e, he⟩ | ⟨y, hy⟩
  · rw [modLink_err he]
    exact store_err he x
  · rw [modLink_run hy, store_run hy]

theorem puts_link {c : Cfg K} (hc : c.store ≠ .boxed) (key ckey : K) (cptr : Ptr) : Puts (V := V) c key ckey cptr (put2L c key ckey cptr) := by
  have h : ∀ k p, putLink c k p = fun _ => mkLink c k p := by
    intro k p
    funext x
    unfold putLink
    split
    · contradiction
    · rfl
  intro arr kv b
  unfold put2L elem
  simp only [store_modLink, h]

theorem puts_ptr {c : Cfg K} (hb : c.store = .boxed) (hc : ∀ k p, mkLink c k p = { ptr := p }) (key ckey : K) (cptr : Ptr) :
    Puts (V := V) c key ckey cptr (put2P cptr) := by
  have h : ∀ k p, putLink c k p = fun x => { x with ptr := p } := by
    intro k p
    have h1 : c.encP k = 0#32 := congrArg Link.pmap (hc k p)
    have h2 : c.encT k = 0#32 := congrArg Link.tmap (hc k p)
    funext x
    unfold putLink
    rw [hb, h1, h2]
    simp
  intro arr kv b
  unfold put2P setPtr elem
  simp only [h]

theorem load_fresh {s : St K V} {m i : Nat} (h : i < m) : run (load ⟨.blk s.next, i⟩) (grow s (.links (List.replicate m {}))) = .ok ({}, grow s (.links (List.replicate m {}))) := by
  unfold run load grow
  simp [h]

theorem bits_ne {a b : BitVec 32} : ((a != b) = true) = (a ≠ b) := by simp

theorem levelG_eq {c : Cfg K} {h : Nat} {key ckey : K} {cptr : Ptr} {put2 : Ptr → Ptr → Bool → M K V Unit} (hp : Puts c key ckey cptr put2)
    {new : M K V (Ptr × R)} {item : Ref} {d : Nat} (hdd : d < 256) (hd chd : BitVec 64)
    {rk : Nat → Nat} {s : St K V} (hs : Ranked rk s) (hu : Up rk s item.base cptr) :
    run (levelG (some h) put2 new item (BitVec.ofNat 8 d) hd chd) s = run (level c h key ckey cptr new item d hd chd) s := by
  unfold levelG level setPmap setTmap setPtr
  simp only [lit_bit, newLinkArray_eq (n := 2) (by decide), newLinkArray_eq (n := 1) (by decide), bits_ne]
  rcases run_load item s with ⟨e, he⟩ | ⟨x, hx⟩
  · lit [modLink_err he]
  have k1 := hs.modMaps (r := item) (f := fun x => { x with pmap := bitOf (radixOf hd) ||| bitOf (radixOf chd) }) (by intro _; rfl) (modLink_run hx _)
  have x1 := load_put hx { x with pmap := bitOf (radixOf hd) ||| bitOf (radixOf chd) }
  lit [modLink_run hx, x1, modLink_run x1, put_put hx]
  generalize bitOf (radixOf hd) = kb at *
  generalize bitOf (radixOf chd) = cb at *
  by_cases hne : kb ≠ cb
  · simp only [if_pos hne]
    have k2 := k1.rank.modMaps (r := item) (f := fun x => { x with tmap := kb ||| cb }) (by intro _; rfl) (modLink_run x1 _)
    rw [put_put hx] at k2
    have x2 := load_put hx { ptr := x.ptr, pmap := kb ||| cb, tmap := kb ||| cb }
    dsimp only at k2 x2
    generalize put s item { ptr := x.ptr, pmap := kb ||| cb, tmap := kb ||| cb } = s2 at *
    obtain ⟨m, hm, hnew⟩ := newLinkArray_ok (K := K) (V := V) 2 s2
    have x3 := load_same k2.rank (grow_keeps s2 (.links (List.replicate m {}))) x2
    obtain ⟨rk', k3, k4⟩ := k2.rank.between x2 ((hu.step k1).step k2) (modLink_run x3 fun x => { x with ptr := .blk s2.next })
    have hne' : Ptr.blk s2.next ≠ item.base := fun e => Nat.lt_irrefl _ (load_lt k2.rank x2 _ e.symm)
    have x4 := load_put x3 { ptr := .blk s2.next, pmap := kb ||| cb, tmap := kb ||| cb }
    have a0 := load_put_ne (r := item) (q := ⟨.blk s2.next, 0⟩) (Or.inl hne') (load_fresh (s := s2) (m := m) (i := 0) (by omega)) { ptr := .blk s2.next, pmap := kb ||| cb, tmap := kb ||| cb }
    have a1 := load_put_ne (r := item) (q := ⟨.blk s2.next, 1⟩) (Or.inl hne') (load_fresh (s := s2) (m := m) (i := 1) (by omega)) { ptr := .blk s2.next, pmap := kb ||| cb, tmap := kb ||| cb }
    lit [hnew, modLink_run x3]
    dsimp only at k3
    generalize put (grow s2 (.links (List.replicate m {}))) item { ptr := .blk s2.next, pmap := kb ||| cb, tmap := kb ||| cb } = s4 at *
    rcases hnw : run new s4 with e | ⟨⟨kv, res⟩, s5⟩
    · rfl
    rcases run_load item s5 with ⟨e, he⟩ | ⟨y, hy⟩
    · lit [he]
    lit [hy, hp _ kv (decide (kb < cb)), run_modRoot, rootSt_rootSt, setWidth_dep hdd, decide_eq_true_eq]
    rfl
  · simp only [if_neg hne]
    obtain ⟨m, hm, hnew⟩ := newLinkArray_ok (K := K) (V := V) 1 (put s item { ptr := x.ptr, pmap := kb ||| cb, tmap := x.tmap })
    have x3 := load_same k1.rank (grow_keeps _ (.links (List.replicate m {}))) x1
    lit [hnew, modLink_run x3, load_put x3]

end

end Amt.Go
