/- The search loop and lookups simulate the pure trie. -/
import Verif.Rep

set_option linter.unusedVariables false

namespace Amt
open T

variable {K V : Type}

/-- The remaining digest of key `k` at depth `d`, where `H k n` is its `n`-th 64-bit digest. -/
def hdAt (H : K → Nat → BitVec 64) (k : K) (d : Nat) : BitVec 64 := H k (d / 16) >>> (4 * (d % 16))

/-- The nibble of key `k` at depth `d`. -/
def nbOf (H : K → Nat → BitVec 64) (k : K) (d : Nat) : Nat := radixOf (hdAt H k d)

theorem nbOf_lt (H : K → Nat → BitVec 64) (k : K) (d : Nat) : nbOf H k d < 16 := radixOf_lt _

/-- What the container-specific functions must satisfy. -/
structure Laws (c : Cfg K) (s : Seed) (H : K → Nat → BitVec 64) : Prop where
  eq_iff : ∀ a b, c.eq a b = true ↔ a = b
  digest : ∀ k d, d < 256 → d % 16 = 0 → c.digest s k (d / 16 + 1) d = H k (d / 16)
  dec : c.store ≠ .boxed → ∀ k, c.dec (c.encP k) (c.encT k) = some k
  keep : c.store ≠ .bare → c.forget = false

theorem hdAt_shift (H : K → Nat → BitVec 64) (k : K) {d : Nat} (h : (d + 1) % 16 ≠ 0) :
    hdAt H k (d + 1) = hdAt H k d >>> 4 := by
  unfold hdAt
  rw [← BitVec.shiftRight_add, show (d + 1) / 16 = d / 16 by omega,
    show 4 * ((d + 1) % 16) = 4 * (d % 16) + 4 by omega]

theorem hdAt_rehash (H : K → Nat → BitVec 64) (k : K) {d : Nat} (h : d % 16 = 0) :
    hdAt H k d = H k (d / 16) := by
  unfold hdAt; rw [h]; simp

/-- The variables of the search loop at depth `d`. -/
structure CurOk (H : K → Nat → BitVec 64) (key : K) (n : Nat) (cur : Cur) : Prop where
  d : cur.d = n
  hd : cur.hd = hdAt H key n
  w : cur.w = n / 16 + 1

theorem CurOk.radix {H : K → Nat → BitVec 64} {key : K} {d : Nat} {cur : Cur} (h : CurOk H key d cur) :
    radixOf cur.hd = nbOf H key d := by rw [h.hd]; rfl

theorem start_ok {c : Cfg K} {sd : Seed} {H : K → Nat → BitVec 64} (L : Laws c sd H) (key : K) (h : Nat) :
    CurOk H key 0 (start c sd key h) :=
  ⟨rfl, by rw [hdAt_rehash H key (d := 0) rfl]; exact L.digest key 0 (by omega) rfl, rfl⟩

theorem next_hd' {c : Cfg K} {sd : Seed} {H : K → Nat → BitVec 64} (key : K) {d : Nat}
    (L : (d + 1) % 16 = 0 → c.digest sd key ((d + 1) / 16 + 1) (d + 1) = H key ((d + 1) / 16)) :
    (if (d + 1) % 16 ≠ 0 then hdAt H key d >>> 4 else c.digest sd key (d / 16 + 1 + 1) (d + 1))
      = hdAt H key (d + 1) := by
  split
  · rename_i h; exact (hdAt_shift H key h).symm
  · rename_i h
    have h' : (d + 1) % 16 = 0 := by omega
    rw [hdAt_rehash H key h', show d / 16 + 1 + 1 = (d + 1) / 16 + 1 by omega]
    exact L h'

theorem next_hd {c : Cfg K} {sd : Seed} {H : K → Nat → BitVec 64} (L : Laws c sd H) (key : K) {d : Nat}
    (hd : d + 1 < 256) :
    (if (d + 1) % 16 ≠ 0 then hdAt H key d >>> 4 else c.digest sd key (d / 16 + 1 + 1) (d + 1))
      = hdAt H key (d + 1) :=
  next_hd' key (L.digest key (d + 1) hd)

theorem descend_ok {c : Cfg K} {sd : Seed} {H : K → Nat → BitVec 64} (L : Laws c sd H) {key : K} {d : Nat}
    {cur : Cur} (h : CurOk H key d cur) (hd : d + 1 < 256) (item : Ref) :
    CurOk H key (d + 1) (descend c sd key cur item) ∧ (descend c sd key cur item).l = item ∧
      (descend c sd key cur item).path = cur.path := by
  have hm : (cur.d + 1) % 256 = d + 1 := by rw [h.d]; omega
  have hn := next_hd L key hd
  unfold descend
  rw [hm]
  by_cases hc : (d + 1) % 16 ≠ 0
  · rw [if_pos hc] at hn
    simp only [if_pos hc]
    exact ⟨⟨rfl, by rw [h.hd]; exact hn, by rw [h.w]; omega⟩, trivial, trivial⟩
  · rw [if_neg hc] at hn
    simp only [if_neg hc]
    exact ⟨⟨rfl, by rw [h.w]; exact hn, by show cur.w + 1 = _; rw [h.w]; omega⟩, trivial, trivial⟩

/-- The path entry appended by the search loop. -/
def Cur.push (cur : Cur) (r : Nat) : Cur := { cur with path := cur.path ++ [(r, some cur.l)] }

section
variable {c : Cfg K} {sd : Seed} {H : K → Nat → BitVec 64}
variable {s : St K V} {b0 i0 : Nat} {xs0 : List Link} {lk : Link} {F : Nat → Prop}
variable {st : BitVec 32} {ch : Nat → T K Ptr V} {d b : Nat} {xs : List Link} {G : Nat → Nat → Prop}

theorem pm_bit (ha : Arr s.mem st ch d lk b xs) {r : Nat} (hr : r < 16) :
    (lk.pmap &&& bitOf r ≠ 0#32) ↔ occ ch r = true := by
  rw [and_bitOf_ne_zero (by omega), ha.pm r]; simp [hr]

theorem tm_bit (ha : Arr s.mem st ch d lk b xs) {r : Nat} (hr : r < 16) (hocc : occ ch r = true) :
    (lk.tmap &&& bitOf r = 0#32) ↔ lf ch r = false := by
  rw [and_bitOf_eq_zero (by omega), ha.tm.getLsbD hr hocc]

theorem search_empty (hl : Loc s b0 i0 xs0 lk F) (ha : Arr s.mem st ch d lk b xs) {key : K} {cur : Cur}
    (hc : CurOk H key d cur) (hcl : cur.l = ⟨.blk b0, i0⟩) (he : (ch (nbOf H key d)) = .empty) (fuel : Nat) :
    search c sd key (fuel + 1) cur s = .ok ((cur, false), s) := by
  rw [search, hcl, bind_ok (load_ok hl.mem hl.get)]
  simp only [hc.radix]
  rw [if_neg]
  · rfl
  · rw [pm_bit ha (nbOf_lt _ _ _)]; simp [occ, he, isEmpty]

theorem search_leaf (hl : Loc s b0 i0 xs0 lk F) (ha : Arr s.mem st ch d lk b xs) {key : K} {cur : Cur}
    (hc : CurOk H key d cur) (hcl : cur.l = ⟨.blk b0, i0⟩) {k : K} {p : Ptr} {v : V}
    (he : (ch (nbOf H key d)) = .leaf k p v) (fuel : Nat) :
    search c sd key (fuel + 1) cur s = .ok ((cur.push (nbOf H key d), true), s) := by
  rw [search, hcl, bind_ok (load_ok hl.mem hl.get)]
  simp only [hc.radix]
  rw [if_pos, if_neg]
  · simp [Cur.push, hcl]
  · rw [tm_bit ha (nbOf_lt _ _ _) (by simp [occ, he, isEmpty])]; simp [lf, he, isLeaf]
  · rw [pm_bit ha (nbOf_lt _ _ _)]; simp [occ, he, isEmpty]

theorem search_node (hl : Loc s b0 i0 xs0 lk F) (ha : Arr s.mem st ch d lk b xs) {key : K} {cur : Cur}
    (hc : CurOk H key d cur) (hcl : cur.l = ⟨.blk b0, i0⟩) {st' : BitVec 32} {ch' : Nat → T K Ptr V}
    (he : (ch (nbOf H key d)) = .node st' ch') (fuel : Nat) :
    search c sd key (fuel + 1) cur s
      = search c sd key fuel (descend c sd key (cur.push (nbOf H key d))
          ⟨.blk b, cnt (occ ch) (nbOf H key d)⟩) s := by
  rw [search, hcl, bind_ok (load_ok hl.mem hl.get)]
  simp only [hc.radix]
  rw [if_pos, if_pos]
  · rw [ha.ptr, ha.pm.rankOf (Nat.le_of_lt (nbOf_lt _ _ _))]
    simp [Cur.push, hcl]
  · rw [tm_bit ha (nbOf_lt _ _ _) (by simp [occ, he, isEmpty])]; simp [lf, he, isLeaf]
  · rw [pm_bit ha (nbOf_lt _ _ _)]; simp [occ, he, isEmpty]

theorem push_ok {key : K} {cur : Cur} (hc : CurOk H key d cur) (r : Nat) : CurOk H key d (cur.push r) :=
  ⟨hc.d, hc.hd, hc.w⟩

theorem itemRef_ok (hl : Loc s b0 i0 xs0 lk F) (ha : Arr s.mem st ch d lk b xs) {key : K} {cur : Cur}
    (hc : CurOk H key d cur) (hcl : cur.l = ⟨.blk b0, i0⟩) :
    itemRef cur s = .ok (⟨.blk b, cnt (occ ch) (nbOf H key d)⟩, s) := by
  rw [itemRef, hcl, bind_ok (load_ok hl.mem hl.get), hc.radix, ha.ptr,
    ha.pm.rankOf (Nat.le_of_lt (nbOf_lt _ _ _))]
  rfl

theorem readKey_ok (L : Laws c sd H) {m : Nat → Option (Obj K V)} {k : K} {p : Ptr} {v : V}
    (hk : KvAt c s.mem k p v) : readKey c (mkLink c k p) s = .ok (k, s) := by
  have hd := fun h => L.dec h k
  unfold readKey
  unfold KvAt at hk
  cases hs : c.store with
  | boxed =>
    rw [hs] at hk
    obtain ⟨a, rfl, h2⟩ := hk
    simp only
    rw [show (mkLink c k (.blk a)).ptr = .blk a from rfl, bind_ok (loadKv_ok h2)]
    rfl
  | inline =>
    have := hd (by rw [hs]; decide)
    simp only [mkLink, this]; rfl
  | bare =>
    have := hd (by rw [hs]; decide)
    simp only [mkLink, this]; rfl

theorem KvAt.kept (L : Laws c sd H) {m : Nat → Option (Obj K V)} {k : K} {p : Ptr} {v : V} (h : KvAt c m k p v) : KvAt c m k (c.kept p) v := by
  by_cases hb : c.store = .bare
  · unfold KvAt; rw [hb]; trivial
  · rw [Cfg.kept_eq (L.keep hb)]; exact h

end

/-! ### Lookup -/

/-- What `lookup` does after the search loop. -/
def lookupFin (c : Cfg K) (key : K) : Cur × Bool → M K V (Option Ptr)
  | (cur, hit) =>
    if hit then do
      let item ← itemRef cur
      let x ← load item
      let k ← readKey c x
      if c.eq key k then pure (some x.ptr) else pure none
    else pure none

theorem lookup_eq (c : Cfg K) (h fuel : Nat) (key : K) :
    (lookup c h fuel key : M K V (Option Ptr))
      = (do let r ← getRoot h
            let x ← search c r.seed key fuel (start c r.seed key h)
            lookupFin c key x) := rfl

variable [DecidableEq K]

theorem lookup_simQ {c : Cfg K} {sd : Seed} {H : K → Nat → BitVec 64} (L : Laws c sd H) (key : K)
    {s : St K V} {B : Nat} (hB : B < 256) (t : T K Ptr V) :
    ∀ {d b0 i0 : Nat} {xs0 : List Link} {lk : Link} {F : Nat → Prop} {cur : Cur} {fuel : Nat},
    t.isNode = true → Loc s b0 i0 xs0 lk F → Rep c s.mem t d lk F → Ht B t d → B < fuel + d →
    CurOk H key d cur → cur.l = ⟨.blk b0, i0⟩ →
    ∃ o, (search c sd key fuel cur >>= lookupFin c key) s = .ok (o, s) ∧
      o.isSome = (find (nbOf H) key t d).isSome ∧ (c.forget = false → o = (find (nbOf H) key t d).map (fun e => e.1)) := by
  induction t with
  | empty => intro d b0 i0 xs0 lk F cur fuel h; cases h
  | leaf => intro d b0 i0 xs0 lk F cur fuel h; cases h
  | node st ch ih =>
    intro d b0 i0 xs0 lk F cur fuel _ hl hr hh hf hc hcl
    obtain ⟨b, xs, G, ha, ho, hrep⟩ := hr
    have hd : d ≤ B := hh.1
    obtain ⟨fuel, rfl⟩ : ∃ f, fuel = f + 1 := ⟨fuel - 1, by omega⟩
    have hr16 := nbOf_lt H key d
    rw [find]
    cases he : ch (nbOf H key d) with
    | empty =>
      rw [bind_ok (search_empty hl ha hc hcl he fuel)]
      exact ⟨none, rfl, rfl, fun _ => rfl⟩
    | leaf k p v =>
      have hocc : occ ch (nbOf H key d) = true := by simp [occ, he, isEmpty]
      rw [bind_ok (search_leaf hl ha hc hcl he fuel)]
      simp only [lookupFin, if_true]
      have hcr := hrep _ hr16
      rw [he] at hcr
      obtain ⟨q, h1, h2, h3, hq⟩ := hcr
      rw [bind_ok (itemRef_ok hl ha (push_ok hc _) hcl),
        bind_ok (load_ok ha.mem (ha.slot hr16 hocc)), h1, bind_ok (readKey_ok L (m := s.mem) h2)]
      rw [find]
      by_cases hk : key = k
      · rw [if_pos ((L.eq_iff _ _).2 hk), if_pos hk]
        exact ⟨some q, rfl, rfl, fun hf => by rw [hq hf]; rfl⟩
      · rw [if_neg (fun h => hk ((L.eq_iff _ _).1 h)), if_neg hk]
        exact ⟨none, rfl, rfl, fun _ => rfl⟩
    | node st' ch' =>
      have hocc : occ ch (nbOf H key d) = true := by simp [occ, he, isEmpty]
      rw [bind_run, search_node hl ha hc hcl he fuel, ← bind_run]
      have hd' := descend_ok L (push_ok hc (nbOf H key d)) (by have := hh.2 _ hr16; rw [he] at this; have := this.1; omega : d + 1 < 256)
        ⟨.blk b, cnt (occ ch) (nbOf H key d)⟩
      have := ih (nbOf H key d) (d := d + 1) (fuel := fuel) (by rw [he]; rfl)
        (hl.child ha ho hr16 hocc) (hrep _ hr16) (hh.2 _ hr16) (by omega) hd'.1 hd'.2.1
      rw [he] at this
      exact this

/-- Pointers are kept: the pointer found is that of the tree. -/
theorem lookup_sim {c : Cfg K} {sd : Seed} {H : K → Nat → BitVec 64} (L : Laws c sd H) (hk : c.forget = false) (key : K)
    {s : St K V} {B : Nat} (hB : B < 256) (t : T K Ptr V)
    {d b0 i0 : Nat} {xs0 : List Link} {lk : Link} {F : Nat → Prop} {cur : Cur} {fuel : Nat}
    (h1 : t.isNode = true) (h2 : Loc s b0 i0 xs0 lk F) (h3 : Rep c s.mem t d lk F) (h4 : Ht B t d) (h5 : B < fuel + d)
    (h6 : CurOk H key d cur) (h7 : cur.l = ⟨.blk b0, i0⟩) :
    (search c sd key fuel cur >>= lookupFin c key) s
      = .ok ((find (nbOf H) key t d).map (fun e => e.1), s) := by
  obtain ⟨o, e1, _, e3⟩ := lookup_simQ L key hB t h1 h2 h3 h4 h5 h6 h7
  rw [e1, e3 hk]

end Amt
