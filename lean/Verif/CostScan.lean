/-
The accesses of `All`: the translated scan functions, as trees of accesses, are one function, and what it costs in a memory that holds a
trie.
-/
import Verif.PropsCost
import Verif.PropsSpace
import Verif.GoSimRead

set_option linter.unusedVariables false
set_option linter.unusedSectionVars false

namespace Amt.Par
open Amt Spec

/-! ### One scan function -/

section
variable {K V U : Type}

/-- The loop over the items of a branch (string_map.go:409-423), as accesses. -/
def itemsC (visit : U → Ref → T K V (U × Bool)) (rec : U → Ref → T K V (U × Bool)) (l : Ref) (tmap : BitVec 32) : Nat → Nat → BitVec 32 → U → T K V (U × Bool)
  | 0, _, _, u => pure (u, true)
  | n + 1, i, pm, u => load l >>= fun x =>
    (if tmap &&& bitOf (trailingZeros pm) ≠ 0#32 then visit u ⟨x.ptr, i⟩ else rec u ⟨x.ptr, i⟩) >>= fun r =>
    if (!r.2) = true then pure (r.1, false) else itemsC visit rec l tmap n (i + 1) (pm &&& ~~~bitOf (trailingZeros pm)) r.1

/-- The scan functions (string_map.go:406-424), as accesses. -/
def scanC (visit : U → Ref → T K V (U × Bool)) : Nat → U → Ref → T K V (U × Bool)
  | 0, _, _ => .fail .diverge
  | n + 1, u, l => do
    let x ← load l
    let y ← load l
    itemsC visit (scanC visit n) l y.tmap (popcount x.pmap) 0 x.pmap u

theorem bind_ite {α β : Type} {c : Prop} [Decidable c] (x y : T K V α) (f : α → T K V β) : ((if c then x else y) >>= f) = if c then x >>= f else y >>= f := by
  split <;> rfl

theorem bindc {α β : Type} {t : T K V α} {f g : α → T K V β} (h : ∀ a, f a = g a) : (t >>= f) = (t >>= g) := by rw [show f = g from funext h]

theorem pure_bind {α β : Type} (a : α) (f : α → T K V β) : (Pure.pure a >>= f) = f a := rfl

theorem scan_loop (visit : U → Ref → T K V (U × Bool)) (rec : U → Ref → T K V (U × Bool)) (l : Ref) (tmap : BitVec 32) (cnt : Nat)
    {f : Option (U × Bool) × U × BitVec 32 × BitVec 8 → T K V (ForInStep (Option (U × Bool) × U × BitVec 32 × BitVec 8))}
    {F : Option (U × Bool) × U × BitVec 32 × BitVec 8 → T K V (U × Bool)}
    (hf : ∀ u pm i, i ≤ cnt → f (none, u, pm, BitVec.ofNat 8 i) =
      if i = cnt then pure (.done (none, u, pm, BitVec.ofNat 8 i))
      else load l >>= fun x => (if tmap &&& bitOf (trailingZeros pm) ≠ 0#32 then visit u ⟨x.ptr, i⟩ else rec u ⟨x.ptr, i⟩) >>= fun r =>
        if (!r.2) = true then pure (.done (some (r.1, false), r.1, pm, BitVec.ofNat 8 i))
        else pure (.yield (none, r.1, pm &&& ~~~bitOf (trailingZeros pm), BitVec.ofNat 8 (i + 1))))
    (hr : ∀ r t, F (some r, t) = pure r) (hb : ∀ u t, F (none, u, t) = pure (u, true)) :
    ∀ n m i pm u, n + i = cnt → n < m → (loop f m (none, u, pm, BitVec.ofNat 8 i) >>= F) = itemsC visit rec l tmap n i pm u := by
  intro n
  induction n with
  | zero =>
    intro m i pm u hn hm
    obtain ⟨m, rfl⟩ : ∃ k, m = k + 1 := ⟨m - 1, by omega⟩
    rw [loop, hf _ _ _ (by omega), if_pos (by omega)]
    exact hb _ _
  | succ n ih =>
    intro m i pm u hn hm
    obtain ⟨m, rfl⟩ : ∃ k, m = k + 1 := ⟨m - 1, by omega⟩
    rw [loop, hf _ _ _ (by omega), if_neg (by omega), itemsC]
    simp only [Pays.bind_assoc]
    refine bindc fun x => bindc fun r => ?_
    by_cases h : (!r.2) = true
    · rw [if_pos h, if_pos h]; exact hr _ _
    · rw [if_neg h, if_neg h]; exact ih _ _ _ _ (by omega) (by omega)

end

/-- The item callback of the maps whose keys are in the cells (string_map.go:415-417). -/
def visitKv {K V U : Type} (do_ : U → K → Amt.Ptr → T K V (U × Bool)) (u : U) (item : Ref) : T K V (U × Bool) := do
  let x ← load item
  do_ u (← kvKey x.ptr) (← fieldAddr x.ptr)

/-- The item callback of `IntMap` (int_map.go:437-438). -/
def visitInt {V U : Type} (do_ : U → IntKey → Amt.Ptr → T IntKey V (U × Bool)) (u : U) (item : Ref) : T IntKey V (U × Bool) := do
  let x ← load item
  let y ← load item
  let z ← load item
  do_ u (y.pmap.setWidth 64 ||| (z.tmap.setWidth 64 <<< 32)) (← fieldAddr x.ptr)

/-- The item callback of the sets whose keys are in the cells (string_set.go:271-273). -/
def visitK {K V U : Type} (do_ : U → K → T K V (U × Bool)) (u : U) (item : Ref) : T K V (U × Bool) := do
  let x ← load item
  do_ u (← kvKey x.ptr)

/-- The item callback of `IntSet` (int_set.go:275). -/
def visitIntK {V U : Type} (do_ : U → IntKey → T IntKey V (U × Bool)) (u : U) (item : Ref) : T IntKey V (U × Bool) := do
  let y ← load item
  let z ← load item
  do_ u (y.pmap.setWidth 64 ||| (z.tmap.setWidth 64 <<< 32))

set_option hygiene false in
/-- A translated scan function `f` with the item callback `visit`. -/
macro "scan_tree" f:ident visit:ident : tactic => `(tactic| (
  intro n
  induction n with
  | zero => intro u l; rfl
  | succ n ih =>
    intro u l
    unfold $f scanC
    dsimp only
    refine bindc fun x => bindc fun y => ?_
    refine scan_loop ($visit do_) (scanC ($visit do_) n) l y.tmap (popcount x.pmap) ?_ ?_ ?_ (popcount x.pmap) (n + 300) 0 x.pmap u (by omega)
      (by have := Go.popcount_le x.pmap; omega)
    · intro u pm i hi
      have hn := Go.popcount_le x.pmap
      dsimp only
      rw [Go.lt_count hi hn, Go.succ_small hi hn, Go.lit_tz, Go.small_toNat hi hn]
      simp only [decide_eq_true_eq, bne_iff_ne, ih]
      split
      · rfl
      · simp only [Pays.bind_assoc, elem, bind_ite, pure_bind, $visit:ident]
    · intro r t; rfl
    · intro u t; rfl))

theorem StringMap.scan_tree {V U : Type} [Inhabited V] (do_ : U → ByteStr → Amt.Ptr → T ByteStr V (U × Bool)) :
    ∀ n u l, StringMap.stringScan do_ n u l = scanC (visitKv do_) n u l := by
  scan_tree stringScan visitKv

theorem BytesMap.scan_tree {V U : Type} [Inhabited V] (do_ : U → ByteStr → Amt.Ptr → T ByteStr V (U × Bool)) :
    ∀ n u l, BytesMap.bytesScan do_ n u l = scanC (visitKv do_) n u l := by
  scan_tree bytesScan visitKv

theorem ArrMap.scan_tree {K V U : Type} [Inhabited V] (do_ : U → K → Amt.Ptr → T K V (U × Bool)) :
    ∀ n u l, ArrMap.arrScan do_ n u l = scanC (visitKv do_) n u l := by
  scan_tree arrScan visitKv

theorem IntMap.scan_tree {V U : Type} [Inhabited V] (do_ : U → IntKey → Amt.Ptr → T IntKey V (U × Bool)) :
    ∀ n u l, IntMap.intScan do_ n u l = scanC (visitInt do_) n u l := by
  scan_tree intScan visitInt

theorem Map.scan_tree {K V U : Type} [Inhabited V] (do_ : U → K → Amt.Ptr → T K V (U × Bool)) :
    ∀ n u l, Map.mapScan do_ n u l = scanC (visitKv do_) n u l := by
  scan_tree mapScan visitKv

theorem StringSet.scan_tree {U : Type} (do_ : U → ByteStr → T ByteStr Unit (U × Bool)) :
    ∀ n u l, StringSet.stringSetScan do_ n u l = scanC (visitK do_) n u l := by
  scan_tree stringSetScan visitK

theorem BytesSet.scan_tree {U : Type} (do_ : U → ByteStr → T ByteStr Unit (U × Bool)) :
    ∀ n u l, BytesSet.bytesSetScan do_ n u l = scanC (visitK do_) n u l := by
  scan_tree bytesSetScan visitK

theorem ArrSet.scan_tree {K U : Type} (do_ : U → K → T K Unit (U × Bool)) :
    ∀ n u l, ArrSet.arrSetScan do_ n u l = scanC (visitK do_) n u l := by
  scan_tree arrSetScan visitK

theorem IntSet.scan_tree {U : Type} (do_ : U → IntKey → T IntKey Unit (U × Bool)) :
    ∀ n u l, IntSet.intSetScan do_ n u l = scanC (visitIntK do_) n u l := by
  scan_tree intSetScan visitIntK

theorem Set.scan_tree {K U : Type} (do_ : U → K → T K Unit (U × Bool)) :
    ∀ n u l, Set.setScan do_ n u l = scanC (visitK do_) n u l := by
  scan_tree setScan visitK

/-! ### What it costs -/

section
variable {K V U α β : Type}

/-- The program changes no array of links that exists. -/
def T.Keeps (t : T K V α) : Prop :=
  ∀ s a s', t.denote s = .ok (a, s') → ∀ x xs, s.mem x = some (.links xs) → s'.mem x = some (.links xs)

namespace Keeps

theorem ret (a : α) : T.Keeps (Pure.pure a : T K V α) := fun s b s' h => by cases h; exact fun _ _ h => h

theorem fail (e : Fault) : T.Keeps (.fail e : T K V α) := fun s b s' h => by cases h

theorem bind {t : T K V α} {f : α → T K V β} (h : t.Keeps) (hf : ∀ a, (f a).Keeps) : (t >>= f).Keeps := by
  intro s b s' e
  rw [T.denote_bind, bind_run] at e
  cases e1 : t.denote s with
  | error x => rw [e1] at e; cases e
  | ok r =>
    rw [e1] at e
    exact fun x xs hx => hf _ _ _ _ e x xs (h _ _ _ e1 x xs hx)

theorem ite {c : Prop} [Decidable c] {t u : T K V α} (h : t.Keeps) (h' : u.Keeps) : T.Keeps (if c then t else u) := by
  split <;> assumption

theorem load_run {r : Ref} {s s' : St K V} {x : Link} (h : Amt.load r s = .ok (x, s')) : s' = s := by
  have := Go.run_load r s
  rcases this with ⟨e, he⟩ | ⟨lk, hl⟩
  · rw [show Amt.load r s = _ from he] at h; cases h
  · rw [show Amt.load r s = _ from hl] at h; cases h; rfl

theorem loads {r : Ref} {k : Link → T K V α} (h : ∀ x, (k x).Keeps) : T.Keeps (.load r k) := by
  intro s b s' e
  rw [T.denote, bind_run] at e
  cases e1 : Amt.load r s with
  | error x => rw [e1] at e; cases e
  | ok y => rw [e1] at e; have := load_run e1; rw [← this]; exact h _ _ _ _ e

theorem load (r : Ref) : T.Keeps (Par.load r : T K V Link) := loads fun _ => loads fun _ => loads fun _ => ret _

end Keeps

theorem itemsC_keeps {visit rec : U → Ref → T K V (U × Bool)} (hv : ∀ u r, (visit u r).Keeps) (hr : ∀ u r, (rec u r).Keeps) (l : Ref) (tm : BitVec 32) :
    ∀ n i pm u, (itemsC visit rec l tm n i pm u).Keeps
  | 0, _, _, _ => Keeps.ret _
  | n + 1, i, pm, u => Keeps.bind (Keeps.load l) fun x => Keeps.bind (Keeps.ite (hv _ _) (hr _ _)) fun r =>
    Keeps.ite (Keeps.ret _) (itemsC_keeps hv hr l tm n _ _ _)

theorem scanC_keeps {visit : U → Ref → T K V (U × Bool)} (hv : ∀ u r, (visit u r).Keeps) : ∀ n u l, (scanC visit n u l).Keeps
  | 0, _, _ => Keeps.fail _
  | n + 1, u, l => Keeps.bind (Keeps.load l) fun _ => Keeps.bind (Keeps.load l) fun _ => itemsC_keeps hv (scanC_keeps hv n) _ _ _ _ _ _

theorem cost_load {b i : Nat} {xs : List Link} {lk : Link} {s : St K V} (hm : s.mem b = some (.links xs)) (hx : xs[i]? = some lk) (f : Link → T K V β) :
    (load ⟨.blk b, i⟩ >>= f).cost Price.access s = 3 + (f lk).cost Price.access s := by
  have h : Amt.load (K := K) (V := V) ⟨.blk b, i⟩ s = .ok (lk, s) := load_ok hm hx
  show (T.load _ fun x => T.load _ fun y => T.load _ fun z => f { ptr := x.ptr, pmap := y.pmap, tmap := z.tmap }).cost Price.access s = _
  simp only [T.cost, h]
  show 1 + (1 + (1 + T.cost Price.access (f lk) s)) = _
  omega

/-- The memory `m` holds the branches of the trie below the link. -/
def Lay (m : Nat → Option (Obj K V)) : Amt.T K Amt.Ptr V → Link → Prop
  | .node st ch, lk => ∃ b xs, lk.ptr = .blk b ∧ m b = some (.links xs) ∧ BitsAre lk.pmap (occ ch) ∧
      (∀ r, r < 16 → occ ch r = true → ((lk.tmap &&& bitOf r = 0#32) ↔ lf ch r = false)) ∧
      ∀ i, i < 16 → occ ch i = true → ∃ x, xs[cnt (occ ch) i]? = some x ∧ Lay m (ch i) x
  | _, _ => True

theorem Lay.of_rep {c : Cfg K} {m : Nat → Option (Obj K V)} : ∀ {t : Amt.T K Amt.Ptr V} {d : Nat} {lk : Link} {F : Nat → Prop}, Rep c m t d lk F → Lay m t lk := by
  intro t
  induction t with
  | empty => intro d lk F h; trivial
  | leaf => intro d lk F h; trivial
  | node st ch ih =>
    rintro d lk F ⟨b, xs, G, ha, ho, hr⟩
    refine ⟨b, xs, ha.ptr, ha.mem, ha.pm, fun r hr hocc => ?_, fun i hi hocc => ?_⟩
    · rw [and_bitOf_eq_zero (by omega), ha.tm.getLsbD hr hocc]
    · have h1 := cnt_lt (occ ch) hi hocc
      have h2 := le_capOf (d := d) (n := cnt (occ ch) 16) (cnt_le _ _)
      have h3 : cnt (occ ch) i < xs.length := by rw [ha.len]; omega
      refine ⟨xs[cnt (occ ch) i], List.getElem?_eq_getElem h3, ih i ?_ (d := d + 1) (F := G i)⟩
      have := hr i hi
      rwa [getD_of_getElem? (List.getElem?_eq_getElem h3)] at this

/-- Copies are laid out alike. -/
theorem Lay.copy {φ : Ren} {h k : Nat} {s s' : St K V} (hst : StR φ h k s s') : ∀ {t : Amt.T K Amt.Ptr V} {lk lk' : Link}, LinkR φ lk lk' → Lay s.mem t lk → Lay s'.mem t lk' := by
  intro t
  induction t with
  | empty => intros; trivial
  | leaf => intros; trivial
  | node st ch ih =>
    rintro lk lk' hl ⟨b, xs, h1, h2, h3, h4, h5⟩
    have hp := hl.ptr
    rw [h1] at hp
    cases hp' : lk'.ptr with
    | nil => rw [hp'] at hp; cases hp
    | blk b' =>
      rw [hp'] at hp
      cases hp with
      | blk hb =>
        obtain ⟨o, o', e1, e2, e3⟩ := hst.obj hb
        rw [h2] at e1
        cases e1
        cases e3 with
        | @links _ ys hlen hall =>
          refine ⟨b', ys, hp', e2, by rw [← hl.pmap]; exact h3, by rw [← hl.tmap]; exact h4, fun i hi hocc => ?_⟩
          obtain ⟨x, hx, hlay⟩ := h5 i hi hocc
          have hlt : cnt (occ ch) i < ys.length := by rw [← hlen]; exact (List.getElem?_eq_some_iff.1 hx).1
          exact ⟨ys[cnt (occ ch) i], List.getElem?_eq_getElem hlt, ih i (hall _ _ _ hx (List.getElem?_eq_getElem hlt)) hlay⟩

/-- A bound for the accesses of a scan, if the callback costs `q`. -/
def scost (q : Nat) : Amt.T K Amt.Ptr V → Nat
  | .empty => 0
  | .leaf _ _ _ => 3 + q
  | .node st ch => 9 + ((List.range 16).map fun i => scost q (ch i)).sum

theorem scan_cost {visit : U → Ref → T K V (U × Bool)} {q : Nat} (hv : ∀ u r s, (visit u r).cost Price.access s ≤ q) (hk : ∀ u r, (visit u r).Keeps)
    {s₀ : St K V} (t : Amt.T K Amt.Ptr V) :
    ∀ {b0 i0 : Nat} {xs0 : List Link} {lk : Link} {n : Nat} {u : U} {s : St K V}, t.isNode = true → s₀.mem b0 = some (.links xs0) → xs0[i0]? = some lk →
      Lay s₀.mem t lk → (∀ x xs, s₀.mem x = some (.links xs) → s.mem x = some (.links xs)) →
      (scanC visit n u ⟨.blk b0, i0⟩).cost Price.access s + 3 ≤ scost q t := by
  induction t with
  | empty => intro b0 i0 xs0 lk n u s h; cases h
  | leaf => intro b0 i0 xs0 lk n u s h; cases h
  | node st ch ih =>
    intro b0 i0 xs0 lk n u s _ hm0 hx0 hlay hst
    obtain ⟨b, xs, h1, h2, h3, h4, h5⟩ := hlay
    cases n with
    | zero => show 0 + 3 ≤ 9 + _; omega
    | succ n =>
      have loop : ∀ (p m : Nat), p + m = 16 → ∀ {u : U} {s : St K V} {pm : BitVec 32}, (∀ x xs, s₀.mem x = some (.links xs) → s.mem x = some (.links xs)) →
          BitsAre pm (from' (occ ch) m) →
          (itemsC visit (scanC visit n) ⟨.blk b0, i0⟩ lk.tmap (cnt (occ ch) 16 - cnt (occ ch) m) (cnt (occ ch) m) pm u).cost Price.access s
            ≤ ((List.range' m p).map fun i => scost q (ch i)).sum := by
        intro p
        induction p with
        | zero =>
          intro m hm u s pm _ _
          obtain rfl : m = 16 := by omega
          rw [Nat.sub_self]; exact Nat.zero_le _
        | succ p ihp =>
          intro m hm u s pm hst hpm
          rw [List.range'_succ, List.map_cons, List.sum_cons]
          have hm16 : m < 16 := by omega
          by_cases hocc : occ ch m = true
          · have hlt := cnt_lt (occ ch) hm16 hocc
            have htz : trailingZeros pm = m := by
              apply trailingZeros_spec (by omega)
              · rw [hpm m]; simp [hm16, from', hocc]
              · intro i hi; rw [hpm i]
                have : ¬ m ≤ i := by omega
                simp [from', this]
            obtain ⟨k, hk'⟩ : ∃ k, cnt (occ ch) 16 - cnt (occ ch) m = k + 1 := ⟨cnt (occ ch) 16 - cnt (occ ch) m - 1, by omega⟩
            rw [hk', itemsC, htz, cost_load (hst _ _ hm0) hx0, h1, T.cost_bind]
            have hitem : (if lk.tmap &&& bitOf m ≠ 0#32 then visit u ⟨.blk b, cnt (occ ch) m⟩ else scanC visit n u ⟨.blk b, cnt (occ ch) m⟩).cost Price.access s + 3
                ≤ scost q (ch m) := by
              cases hcm : ch m with
              | empty => simp [occ, hcm, Amt.T.isEmpty] at hocc
              | leaf k p v =>
                rw [if_pos]
                · have := hv u ⟨.blk b, cnt (occ ch) m⟩ s
                  show _ ≤ 3 + q
                  omega
                · rw [Ne, h4 m hm16 hocc]; simp [lf, hcm, Amt.T.isLeaf]
              | node st' ch' =>
                rw [if_neg]
                · obtain ⟨x, hx, hlx⟩ := h5 m hm16 hocc
                  have := ih m (b0 := b) (n := n) (u := u) (s := s) (by rw [hcm]; rfl) h2 hx hlx hst
                  rw [hcm] at this
                  exact this
                · rw [Ne, h4 m hm16 hocc]; simp [lf, hcm, Amt.T.isLeaf]
            have hkeep : T.Keeps (if lk.tmap &&& bitOf m ≠ 0#32 then visit u ⟨.blk b, cnt (occ ch) m⟩ else scanC visit n u ⟨.blk b, cnt (occ ch) m⟩) :=
              Keeps.ite (hk _ _) (scanC_keeps hk _ _ _)
            revert hitem hkeep
            generalize (if lk.tmap &&& bitOf m ≠ 0#32 then visit u ⟨.blk b, cnt (occ ch) m⟩ else scanC visit n u ⟨.blk b, cnt (occ ch) m⟩) = z
            intro hitem hkeep
            cases hz : z.denote s with
            | error e => dsimp only; omega
            | ok r =>
              dsimp only
              have hst1 := fun x xs hx => hkeep _ _ _ hz x xs (hst x xs hx)
              by_cases hg : (!r.1.2) = true
              · rw [if_pos hg]
                show _ + (_ + 0) ≤ _
                omega
              · rw [if_neg hg]
                have hI := ihp (m + 1) (by omega) (u := r.1.1) (s := r.2) (pm := pm &&& ~~~bitOf m) hst1 (by
                  apply hpm.andNot_bit hm16
                  · have : ¬ m + 1 ≤ m := by omega
                    simp only [from', this, decide_false, Bool.false_and]
                  · intro j hj
                    unfold from'
                    by_cases h1 : m ≤ j
                    · have : m + 1 ≤ j := by omega
                      simp [h1, this]
                    · have : ¬ m + 1 ≤ j := by omega
                      simp [h1, this])
                rw [show cnt (occ ch) (m + 1) = cnt (occ ch) m + 1 by rw [cnt_succ, hocc]; rfl] at hI
                rw [show k = cnt (occ ch) 16 - (cnt (occ ch) m + 1) by omega]
                omega
          · have hI := ihp (m + 1) (by omega) (u := u) (s := s) (pm := pm) hst (hpm.congr fun j _ => by
              unfold from'
              by_cases hj : j = m
              · subst hj
                simp [hocc]
              · by_cases h1 : m ≤ j
                · have : m + 1 ≤ j := by omega
                  simp [h1, this]
                · have : ¬ m + 1 ≤ j := by omega
                  simp [h1, this])
            rw [show cnt (occ ch) (m + 1) = cnt (occ ch) m by rw [cnt_succ, if_neg hocc]; rfl] at hI
            omega
      rw [scanC, cost_load (hst _ _ hm0) hx0, cost_load (hst _ _ hm0) hx0]
      have hL := loop 16 0 rfl (u := u) (pm := lk.pmap) hst (h3.congr fun j _ => by simp [from'])
      rw [show cnt (occ ch) 0 = 0 from rfl, Nat.sub_zero, ← h3.popcount, ← List.range_eq_range'] at hL
      show _ ≤ 9 + _
      omega

end

end Amt.Par
