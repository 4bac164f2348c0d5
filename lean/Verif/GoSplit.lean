/-
The part of the translated `Set`, `Mod` and `Add` that pushes two keys down.  Used only in proofs.
-/
import Verif.GoSlot

set_option linter.unusedVariables false
set_option linter.unusedSectionVars false
set_option linter.unusedSimpArgs false

namespace Amt.Go
open Amt

section
variable {K V R : Type}

/-! ### Ranks -/

theorem Ranked.double {rk : Nat → Nat} {s : St K V} (h : Ranked rk s) : Ranked (fun a => 2 * rk a) s := by
  refine ⟨h.fits, fun a xs x hm hx b hb => ?_⟩
  obtain ⟨h1, h2⟩ := h.up a xs x hm hx b hb
  exact ⟨h1, fun hl c hc => by have := h2 hl c hc; show 2 * rk c < 2 * rk b; omega⟩

theorem Up.double {rk : Nat → Nat} {s : St K V} {p q : Ptr} (h : Up rk s p q) : Up (fun a => 2 * rk a) s p q := by
  intro b hb
  obtain ⟨h1, h2⟩ := h b hb
  exact ⟨h1, fun hl c hc => by have := h2 hl c hc; show 2 * rk c < 2 * rk b; omega⟩

/-- `item.ptr = newLinkArray(..)`: the new array comes between `item` and what `item` could point to. -/
theorem Ranked.between {rk : Nat → Nat} {s t : St K V} (h : Ranked rk s) {l : Ref} {lk : Link} (hl : run (Amt.load l) s = .ok (lk, s)) {q : Ptr}
    (hq : Up rk s l.base q) {n : Nat} {u : Unit}
    (hm : run (Amt.modLink l fun x => { x with ptr := .blk s.next }) (Go.grow s (.links (List.replicate n {}))) = .ok (u, t)) :
    ∃ rk', Ranked rk' t ∧ Up rk' t (.blk s.next) q := by
  obtain ⟨-, c, xs, hc, -⟩ := load_inv hl
  let rk' : Nat → Nat := fun a => if a = s.next then 2 * rk c + 1 else 2 * rk a
  have hrk : ∀ a, a ≠ s.next → rk' a = 2 * rk a := fun a ha => if_neg ha
  have hnew : rk' s.next = 2 * rk c + 1 := if_pos rfl
  have h1 : Ranked rk' (Go.grow s (.links (List.replicate n {})) : St K V) := h.double.grow (blank_links n) hrk
  have hlt := load_lt h hl
  have h2 : Step rk' (Go.grow s (.links (List.replicate n {}))) t := by
    refine h1.modLink (fun x hx => ?_) hm
    intro b hb
    cases hb
    refine ⟨Nat.lt_succ_self _, fun _ a ha => ?_⟩
    rw [hnew, hrk a (by have := hlt a ha; omega)]
    rw [hc] at ha
    cases ha
    omega
  refine ⟨rk', h2.rank, fun b hb => ?_⟩
  obtain ⟨h3, h4⟩ := hq b hb
  refine ⟨by rw [h2.next]; exact Nat.lt_succ_of_lt h3, fun hlb a ha => ?_⟩
  cases ha
  rw [h2.isL, grow_isL h3] at hlb
  have := h4 hlb c hc
  rw [hnew, hrk b (by omega)]
  omega

/-! ### One level -/

/-- The variables of the loop of `split`. -/
structure Spl where
  item : Ref
  d : Nat
  hd : BitVec 64
  chd : BitVec 64
  w : Nat
  cw : Nat

/-- The next level, before its item is known. -/
def Spl.next (c : Cfg K) (sd : Seed) (key ckey : K) (p : Spl) (item : Ref) : Spl :=
  let d := (p.d + 1) % 256
  { item := item
    d := d
    hd := if d % 16 ≠ 0 then p.hd >>> 4 else c.digest sd key (p.w + 1) d
    chd := if d % 16 ≠ 0 then p.chd >>> 4 else c.digest sd ckey (p.cw + 1) d
    w := if d % 16 ≠ 0 then p.w else p.w + 1
    cw := if d % 16 ≠ 0 then p.cw else p.cw + 1 }

/-- An iteration of the loop of `split` for the nibbles `hd`, `chd` at depth `d`. -/
def level (c : Cfg K) (h : Nat) (key ckey : K) (cptr : Ptr) (new : M K V (Ptr × R)) (item : Ref) (d : Nat) (hd chd : BitVec 64) : M K V (R ⊕ Ref) := do
  let kbit := bitOf (radixOf hd)
  let cbit := bitOf (radixOf chd)
  modLink item fun x => { x with pmap := kbit ||| cbit }
  if kbit ≠ cbit then
    modLink item fun x => { x with tmap := x.pmap }
    let arr ← Amt.newLinkArray 2
    modLink item fun x => { x with ptr := arr }
    let (kvp, res) ← new
    let y ← load item
    if kbit < cbit then
      modLink ⟨y.ptr, 0⟩ (putLink c key kvp)
      modLink ⟨y.ptr, 1⟩ (putLink c ckey cptr)
    else
      modLink ⟨y.ptr, 0⟩ (putLink c ckey cptr)
      modLink ⟨y.ptr, 1⟩ (putLink c key kvp)
    modRoot h fun m => { m with len := m.len + 1, dep := m.dep + BitVec.ofNat 64 d * 2 }
    pure (.inl res)
  else
    let arr ← Amt.newLinkArray 1
    modLink item fun x => { x with ptr := arr }
    pure (.inr ⟨arr, 0⟩)

/-- `split`, as a loop over `level`. -/
theorem split_succ (c : Cfg K) (sd : Seed) (h : Nat) (key ckey : K) (cptr : Ptr) (ins : Ins K V R) (n : Nat) (p : Spl) (s : St K V) :
    run (split c sd h key ckey cptr ins (n + 1) p.item p.d p.hd p.chd p.w p.cw) s =
      thenE (run (level c h key ckey cptr ins.newSplit p.item ((p.d + 1) % 256) (p.next c sd key ckey p.item).hd (p.next c sd key ckey p.item).chd) s) fun r =>
        match r.1 with
        | .inl res => .ok (res, r.2)
        | .inr item =>
          let q := p.next c sd key ckey item
          run (split c sd h key ckey cptr ins n q.item q.d q.hd q.chd q.w q.cw) r.2 := by
  rw [split]
  unfold level Spl.next
  dsimp only
  lit [thenE_ok]

/-! ### New cells -/

/-- `new` makes a cell and leaves the objects alone that there are. -/
def Makes (new : M K V (Ptr × R)) : Prop := ∀ rk s r t, Ranked rk s → run new s = .ok (r, t) →
  Ranked rk t ∧ s.next ≤ t.next ∧ (∀ b, b < s.next → t.mem b = s.mem b) ∧ ∀ p, Up rk t p r.1

theorem put_two {c : Cfg K} {j k : K} {rk : Nat → Nat} {s t u : St K V} {x y : Unit} (h : Ranked rk s) {p q : Ref} {a b : Ptr} (ha : Up rk s p.base a) (hb : Up rk s q.base b)
    (h1 : run (modLink p (putLink c j a)) s = .ok (x, t)) (h2 : run (modLink q (putLink c k b)) t = .ok (y, u)) : Step rk s u := by
  have h3 := h.modLink (fun z _ => by rw [putLink_ptr]; exact ha) h1
  exact h3.trans (h3.rank.modLink (fun z _ => by rw [putLink_ptr]; exact hb.step h3) h2)

/-- What `level` leaves. -/
def After (cptr : Ptr) (t : St K V) : R ⊕ Ref → Prop
  | .inl _ => Tidy t
  | .inr it => ∃ rk, Ranked rk t ∧ Up rk t it.base cptr

/-- Both keys go down another level. -/
theorem level_next {c : Cfg K} {h : Nat} {key ckey : K} {cptr : Ptr} {new : M K V (Ptr × R)} {item : Ref} {d : Nat} {hd chd : BitVec 64}
    {rk : Nat → Nat} {s t : St K V} (hs : Ranked rk s) (hu : Up rk s item.base cptr) {it : Ref}
    (he : run (level c h key ckey cptr new item d hd chd) s = .ok (.inr it, t)) : ∃ rk, Ranked rk t ∧ Up rk t it.base cptr := by
  unfold level at he
  dsimp only at he
  obtain ⟨_, s1, h1, he⟩ := ok_bind he
  have k1 := hs.modMaps (by intro _; rfl) h1
  rw [run_ite] at he
  split at he
  · obtain ⟨_, s2, h2, he⟩ := ok_bind he
    obtain ⟨arr, s3, h3, he⟩ := ok_bind he
    obtain ⟨_, s4, h4, he⟩ := ok_bind he
    obtain ⟨⟨kvp, res⟩, s5, h5, he⟩ := ok_bind he
    obtain ⟨_, s6, h6, he⟩ := ok_bind he
    dsimp only at he
    split at he
    · obtain ⟨_, s7, h7, he⟩ := ok_bind he
      obtain ⟨_, s8, h8, he⟩ := ok_bind he
      obtain ⟨_, s9, h9, he⟩ := ok_bind he
      cases he
    · obtain ⟨_, s7, h7, he⟩ := ok_bind he
      obtain ⟨_, s8, h8, he⟩ := ok_bind he
      obtain ⟨_, s9, h9, he⟩ := ok_bind he
      cases he
  · obtain ⟨arr, s3, h3, he⟩ := ok_bind he
    obtain ⟨rfl, m, -, rfl⟩ := newLinkArray_inv h3
    obtain ⟨_, s4, h4, he⟩ := ok_bind he
    have hx : ∃ x, run (load item) s1 = .ok (x, s1) := by
      obtain ⟨y, h5, rfl⟩ := modLink_inv h1
      exact ⟨_, load_put h5 _⟩
    obtain ⟨x, hx⟩ := hx
    cases he
    exact k1.rank.between hx (hu.step k1) h4

theorem level_tidy {c : Cfg K} {h : Nat} {key ckey : K} {cptr : Ptr} {new : M K V (Ptr × R)} (hn : Makes new) {item : Ref} {d : Nat} {hd chd : BitVec 64}
    {rk : Nat → Nat} {s t : St K V} (hs : Ranked rk s) (hu : Up rk s item.base cptr) {r : R ⊕ Ref}
    (he : run (level c h key ckey cptr new item d hd chd) s = .ok (r, t)) : After cptr t r := by
  unfold level at he
  dsimp only at he
  obtain ⟨_, s1, h1, he⟩ := ok_bind he
  have k1 := hs.modMaps (by intro _; rfl) h1
  rw [run_ite] at he
  split at he
  · obtain ⟨_, s2, h2, he⟩ := ok_bind he
    have k2 := k1.rank.modMaps (by intro _; rfl) h2
    obtain ⟨arr, s3, h3, he⟩ := ok_bind he
    obtain ⟨rfl, m, -, rfl⟩ := newLinkArray_inv h3
    obtain ⟨_, s4, h4, he⟩ := ok_bind he
    have hx : ∃ x, run (load item) s2 = .ok (x, s2) := by
      obtain ⟨y, h5, rfl⟩ := modLink_inv h2
      exact ⟨_, load_put h5 _⟩
    obtain ⟨x, hx⟩ := hx
    obtain ⟨rk', k3, k4⟩ := k2.rank.between hx ((hu.step k1).step k2) h4
    obtain ⟨⟨kvp, res⟩, s5, h5, he⟩ := ok_bind he
    obtain ⟨k5, k6, k7, k8⟩ := hn _ _ _ _ k3 h5
    have hy : run (load item) s5 = .ok ({ x with ptr := .blk s2.next }, s5) := by
      obtain ⟨z, h6, rfl⟩ := modLink_inv h4
      have h7 := load_same k2.rank (grow_keeps s2 (.links (List.replicate m {}))) hx
      rw [h7] at h6
      cases h6
      exact load_same k3 k7 (load_put h7 _)
    have k9 : Up rk' s5 (.blk s2.next) cptr := by
      intro b hb
      obtain ⟨h6, h7⟩ := k4 b hb
      exact ⟨by omega, fun hl => h7 (by obtain ⟨ys, hys⟩ := hl; exact ⟨ys, by rw [← k7 b h6]; exact hys⟩)⟩
    rw [run_bind, hy, thenE_ok] at he
    dsimp only at he
    split at he
    · obtain ⟨_, s6, h6, he⟩ := ok_bind he
      obtain ⟨_, s7, h7, he⟩ := ok_bind he
      obtain ⟨_, s8, h8, he⟩ := ok_bind he
      cases he
      have k10 := put_two k5 (k8 _) k9 h6 h7
      exact ⟨rk', (k10.rank.modRoot h8).rank⟩
    · obtain ⟨_, s6, h6, he⟩ := ok_bind he
      obtain ⟨_, s7, h7, he⟩ := ok_bind he
      obtain ⟨_, s8, h8, he⟩ := ok_bind he
      cases he
      have k10 := put_two k5 k9 (k8 _) h6 h7
      exact ⟨rk', (k10.rank.modRoot h8).rank⟩
  · obtain ⟨arr, s3, h3, he⟩ := ok_bind he
    obtain ⟨rfl, m, -, rfl⟩ := newLinkArray_inv h3
    obtain ⟨_, s4, h4, he⟩ := ok_bind he
    have hx : ∃ x, run (load item) s1 = .ok (x, s1) := by
      obtain ⟨y, h5, rfl⟩ := modLink_inv h1
      exact ⟨_, load_put h5 _⟩
    obtain ⟨x, hx⟩ := hx
    cases he
    exact k1.rank.between hx (hu.step k1) h4

/-- `split` keeps the memory tidy. -/
theorem split_tidy {c : Cfg K} {sd : Seed} {h : Nat} {key ckey : K} {cptr : Ptr} {ins : Ins K V R} (hn : Makes ins.newSplit) : ∀ n (p : Spl) {rk : Nat → Nat} {s t : St K V} {r : R},
    Ranked rk s → Up rk s p.item.base cptr → run (split c sd h key ckey cptr ins n p.item p.d p.hd p.chd p.w p.cw) s = .ok (r, t) → Tidy t := by
  intro n
  induction n with
  | zero => intro p rk s t r hs hu he; cases he
  | succ n ih =>
    intro p rk s t r hs hu he
    rw [split_succ] at he
    cases hl : run (level c h key ckey cptr ins.newSplit p.item ((p.d + 1) % 256) (p.next c sd key ckey p.item).hd (p.next c sd key ckey p.item).chd) s with
    | error e => rw [hl] at he; cases he
    | ok x =>
      obtain ⟨x, s1⟩ := x
      have h1 := level_tidy hn hs hu hl
      rw [hl, thenE_ok] at he
      cases x with
      | inl res => cases he; exact h1
      | inr it =>
        obtain ⟨rk', h2, h3⟩ := h1
        exact ih (p.next c sd key ckey it) h2 h3 he

/-! ### The loop -/

theorem level_roots {c : Cfg K} {h : Nat} {key ckey : K} {cptr : Ptr} {new : M K V (Ptr × R)} {item it : Ref} {d : Nat} {hd chd : BitVec 64}
    {s t : St K V} (he : run (level c h key ckey cptr new item d hd chd) s = .ok (.inr it, t)) : t.roots = s.roots := by
  unfold level at he
  dsimp only at he
  obtain ⟨_, s1, h1, he⟩ := ok_bind he
  obtain ⟨y, -, rfl⟩ := modLink_inv h1
  rw [run_ite] at he
  split at he
  · obtain ⟨_, s2, h2, he⟩ := ok_bind he
    obtain ⟨arr, s3, h3, he⟩ := ok_bind he
    obtain ⟨_, s4, h4, he⟩ := ok_bind he
    obtain ⟨_, s5, h5, he⟩ := ok_bind he
    obtain ⟨_, s6, h6, he⟩ := ok_bind he
    split at he
    · obtain ⟨_, s7, h7, he⟩ := ok_bind he
      obtain ⟨_, s8, h8, he⟩ := ok_bind he
      obtain ⟨_, s9, h9, he⟩ := ok_bind he
      cases he
    · obtain ⟨_, s7, h7, he⟩ := ok_bind he
      obtain ⟨_, s8, h8, he⟩ := ok_bind he
      obtain ⟨_, s9, h9, he⟩ := ok_bind he
      cases he
  · obtain ⟨arr, s3, h3, he⟩ := ok_bind he
    obtain ⟨rfl, m, -, rfl⟩ := newLinkArray_inv h3
    obtain ⟨_, s4, h4, he⟩ := ok_bind he
    obtain ⟨y, -, rfl⟩ := modLink_inv h4
    cases he
    rw [put_roots]
    exact put_roots ..

/-- A loop whose iterations are `level`. -/
theorem split_loop {τ β : Type} (ρ : Nat → Meta) (c : Cfg K) (sd : Seed) (h : Nat) (key ckey : K) (cptr : Ptr) (ins : Ins K V R) (mk : Spl → τ) (T : Spl → R → τ)
    {f : Option R × τ → M K V (ForInStep (Option R × τ))}
    (hf : ∀ p rk s, p.d < 256 → Ranked rk s → Up rk s p.item.base cptr → s.roots = ρ → run (f (none, mk p)) s =
      thenE (run (level c h key ckey cptr ins.newSplit p.item ((p.d + 1) % 256) (p.next c sd key ckey p.item).hd (p.next c sd key ckey p.item).chd) s) fun r =>
        match r.1 with
        | .inl res => .ok (.done (some res, T p res), r.2)
        | .inr item => .ok (.yield (none, mk (p.next c sd key ckey item)), r.2))
    {F : (Option R × τ) × St K V → Except Fault β} {G : R × St K V → Except Fault β} (hF : ∀ r t s, F ((some r, t), s) = G (r, s)) :
    ∀ n p rk s, p.d < 256 → Ranked rk s → Up rk s p.item.base cptr → s.roots = ρ →
      thenE (run (loop f n (none, mk p)) s) F = thenE (run (split c sd h key ckey cptr ins n p.item p.d p.hd p.chd p.w p.cw) s) G := by
  intro n
  induction n with
  | zero => intro p rk s hd hs hu hr; rfl
  | succ n ih =>
    intro p rk s hd hs hu hr
    rw [loop_succ, run_bind, hf p rk s hd hs hu hr, split_succ]
    cases hl : run (level c h key ckey cptr ins.newSplit p.item ((p.d + 1) % 256) (p.next c sd key ckey p.item).hd (p.next c sd key ckey p.item).chd) s with
    | error e => rfl
    | ok x =>
      obtain ⟨x, s1⟩ := x
      cases x with
      | inl res => lit [hF]
      | inr it =>
        obtain ⟨rk', h2, h3⟩ := level_next hs hu hl
        lit [thenE_ok]
        exact ih (p.next c sd key ckey it) rk' s1 (Nat.mod_lt _ (by decide)) h2 h3 ((level_roots hl).trans hr)

end

end Amt.Go
