/-
`IntSet` and `IntMap` on histories of arbitrary 64-bit keys: what is true of them although keys get lost and
phantoms appear.
-/
import Verif.PhantomSim
import Verif.PropsLoose

set_option linter.unusedVariables false
set_option linter.unusedSectionVars false

/-! ### Specification -/

namespace Spec

/-- What becomes of a sequence of calls: all return, or one of them hangs, or one of them takes an array of branches
for a value. -/
inductive Res (α : Type) where
  | returns (outs : List α)
  | hangs
  | confuses

/-- First one output, then the others. -/
def Res.cons {α : Type} (o : α) : Res α → Res α
  | .returns os => .returns (o :: os)
  | .hangs => .hangs
  | .confuses => .confuses

/-- The key that an array of branches is taken for, when it is found in place of an entry: `a` and `b` are the slots
of the two keys which the array, or the branches below it, should hold. -/
def phantomOf (a b : Nat) : BitVec 64 :=
  if a = b then BitVec.ofNat 64 (2 ^ a) else BitVec.ofNat 64 ((2 ^ a + 2 ^ b) * (2 ^ 32 + 1))

/-- The keys that may appear. -/
def Phantom (x : BitVec 64) : Prop := ∃ a b, a < 16 ∧ b < 16 ∧ x = phantomOf a b

/-- Any two different keys in `S` have different digests for iteration 15. -/
def LastApart {K : Type} (H : K → Nat → BitVec 64) (S : K → Prop) : Prop :=
  ∀ a b, S a → S b → a ≠ b → H a 15 ≠ H b 15

section
variable {V : Type} (H : BitVec 64 → Nat → BitVec 64)

/-- The new key `k` is lost together with an entry `x` that is in its way at some depth `d`, and a phantom with the
value `w` appears in their place.  The bit for nibble `d+1` of `k` is set in the upper half of `x`, which has the same
nibble there.  An entry is in reach exactly if its key agrees with `k` on the way to the place where it is. -/
def Swallowed (w : V) (E : Marked (BitVec 64) V) (k : BitVec 64) (E' : Marked (BitVec 64) V) : Prop :=
  ∃ d b x v b' R, d < 240 ∧ E.Perm ((b, x, v) :: R) ∧ k ≠ x ∧ (b = true ↔ Agree H k x (d + 1)) ∧
    nibble H k (d + 1) = nibble H x (d + 1) ∧ (upper x).getLsbD (nibble H k (d + 1)) = true ∧
    E'.Perm ((b', phantomOf (nibble H k (d + 2)) (nibble H x (d + 2)), w) :: R) ∧
    (b' = true ↔ Agree H k (phantomOf (nibble H k (d + 2)) (nibble H x (d + 2))) (d + 2))

/-- A new key is stored, or lost.  The second part of the content counts the lost keys, as the container does. -/
def Enters (w : V) (X : Marked (BitVec 64) V × Nat) (k : BitVec 64) (v : V) (X' : Marked (BitVec 64) V × Nat) : Prop :=
  (X'.1.Perm ((true, k, v) :: X.1) ∧ X'.2 = X.2) ∨ (Swallowed H w X.1 k X'.1 ∧ X'.2 = X.2 + 1)

/-- An entry that is in the way of the new key `k` at a depth of 240 or more. -/
def Stuck (E : Marked (BitVec 64) V) (k : BitVec 64) : Prop :=
  k ∉ (seen E).keys ∧ ∃ d b x v, 240 ≤ d ∧ (b, x, v) ∈ E ∧ k ≠ x ∧ (b = true ↔ Agree H k x (d + 1))

/-- Deleting a key: another key may come back in reach. -/
def Leaves (E : Marked (BitVec 64) V) (k : BitVec 64) (E' : Marked (BitVec 64) V) : Prop :=
  if k ∈ (seen E).keys then Hides (fun x => Agree H k x 1) E' (strike E k) ∧ (seen E').keys.Nodup else E' = E

/-- `SPStep H X op o X'`: on the content `X`, the call `op` may return `o` and leave the content `X'`. -/
def SPStep (X : Marked (BitVec 64) Unit × Nat) : SOp (BitVec 64) → SOut (BitVec 64) → Marked (BitVec 64) Unit × Nat → Prop
  | .has k, o, X' => o = .bool (decide (k ∈ (seen X.1).keys)) ∧ X' = X
  | .add k, o, X' => o = .unit ∧ if k ∈ (seen X.1).keys then X' = X else Enters H () X k () X'
  | .del k, o, X' => o = .unit ∧ Leaves H X.1 k X'.1 ∧ X'.2 = X.2
  | .len, o, X' => o = .num (BitVec.ofNat 64 (X.1.length + X.2)) ∧ X' = X
  | .dep, o, X' => (∃ q, o = .rat q) ∧ X' = X
  | .all f, o, X' => X' = X ∧ ∃ order, order.Perm X.1 ∧ o = .log (visitS f [] (stored order).keys)

/-- Calls that may hang. -/
def SHangs (X : Marked (BitVec 64) Unit × Nat) : SOp (BitVec 64) → Prop
  | .add k => Stuck H X.1 k
  | _ => False

/-- A sequence of calls. -/
def SPRun : Marked (BitVec 64) Unit × Nat → List (SOp (BitVec 64)) → Res (SOut (BitVec 64)) → Prop
  | _, [], r => r = .returns []
  | X, op :: ops, r => (r = .hangs ∧ SHangs H X op) ∨ ∃ o X₁ r', r = r'.cons o ∧ SPStep H X op o X₁ ∧ SPRun X₁ ops r'

end

end Spec

namespace Amt
open T Spec

/-! ### The words of the phantoms -/

theorem int_words (st : Store) (sum : Maphash) (pm tm : BitVec 32) :
    ∃ k, (intCfg st sum).encP k = pm ∧ (intCfg st sum).encT k = tm := by
  refine ⟨pm.setWidth 64 ||| (tm.setWidth 64 <<< 32), ?_, ?_⟩
  · apply BitVec.eq_of_getLsbD_eq
    intro i hi
    simp [intCfg, hi]
  · rw [int_upper]
    apply BitVec.eq_of_getLsbD_eq
    intro i hi
    simp [upper, hi]
    simp [show 32 + i < 64 by omega, show ¬ 32 + i < 32 by omega, show i < 64 by omega]

theorem phantom_words : ∀ a b : Fin 16,
    (phantomOf a b).setWidth 32 = (if a = b then bitOf a else bitOf a ||| bitOf b) ∧
    upper (phantomOf a b) = (if a = b then 0#32 else bitOf a ||| bitOf b) := by decide +kernel

theorem int_phantom {st : Store} (hst : st ≠ .boxed) {sum : Maphash} {nb : IntKey → Nat → Nat} (hnb : ∀ k d, nb k d < 16) {k x ph : IntKey} {d : Nat}
    (h : PhOf (intCfg st sum) nb k x d ph) : ph = phantomOf (nb k d) (nb x d) := by
  have hw := phantom_words ⟨nb k d, hnb k d⟩ ⟨nb x d, hnb x d⟩
  simp only [Fin.mk.injEq] at hw
  have h1 := (int_laws st sum 0).dec hst ph
  have h2 := (int_laws st sum 0).dec hst (phantomOf (nb k d) (nb x d))
  have e : (intCfg st sum).encP ph = (intCfg st sum).encP (phantomOf (nb k d) (nb x d)) ∧
      (intCfg st sum).encT ph = (intCfg st sum).encT (phantomOf (nb k d) (nb x d)) := by
    rw [int_upper st sum (phantomOf (nb k d) (nb x d)), hw.2,
      show (intCfg st sum).encP (phantomOf (nb k d) (nb x d)) = (phantomOf (nb k d) (nb x d)).setWidth 32 from rfl, hw.1]
    rw [PhOf] at h
    split at h
    · rename_i heq; rw [if_pos heq, if_pos heq]; exact h
    · rename_i heq; rw [if_neg heq, if_neg heq]; exact h
  rw [e.1, e.2, h2] at h1
  exact (Option.some.inj h1).symm

theorem phantom_of {st : Store} (hst : st ≠ .boxed) {sum : Maphash} {H : IntKey → Nat → BitVec 64} {k x ph : IntKey} {d : Nat}
    (h : PhOf (intCfg st sum) (nbOf H) k x d ph) : Phantom ph :=
  ⟨_, _, nbOf_lt H k d, nbOf_lt H x d, int_phantom hst (nbOf_lt H) h⟩

theorem sepLast_of {K : Type} [DecidableEq K] {H : K → Nat → BitVec 64} {S : K → Prop} (h : LastApart H S) : SepLast H S := by
  intro a b ha hb hab
  obtain ⟨j, h1, h2, h3⟩ := exists_nibble (h a b ha hb hab)
  exact ⟨j, by omega, by omega, h3⟩

theorem agree_iff {K : Type} {H : K → Nat → BitVec 64} {k x : K} {d : Nat} :
    (∀ j, 0 ≤ j → j < d → nbOf H x j = nbOf H k j) ↔ Agree H k x d := by
  constructor
  · intro h j hj
    rw [← nbOf_eq_nibble, ← nbOf_eq_nibble]
    exact (h j (Nat.zero_le _) hj).symm
  · intro h j _ hj
    rw [nbOf_eq_nibble, nbOf_eq_nibble]
    exact (h j hj).symm

/-! ### What the operations do to the marked entries -/

section
variable {V : Type} {st : Store} {sum : Maphash} {H : IntKey → Nat → BitVec 64} {t : T IntKey Ptr V}

theorem lev_pos {K P : Type} [DecidableEq K] {nb : K → Nat → Nat} {key : K} {t : T K P V} (hn : t.isNode = true) : 1 ≤ lev nb key t 0 := by
  cases t with
  | empty => cases hn
  | leaf => cases hn
  | node st ch => rw [lev]; exact lev_ge _ _ _ _

/-- The entries, with any values that depend on the cells. -/
def marksBy {W : Type} (H : IntKey → Nat → BitVec 64) (g : IntKey × Ptr × V → W) (t : T IntKey Ptr V) : Marked IntKey W :=
  (tags H t).map (fun x => (x.1, x.2.1, g x.2))

theorem marksBy_swallowed {W : Type} {g g' : IntKey × Ptr × V → W} (hst : st ≠ .boxed) (hn : t.isNode = true) {key ph : IntKey} {p0 : Ptr} {v0 : V} {A : Nat} {w : V}
    (hsh : Shadows (nbOf H) (intCfg st sum).encT key t 0)
    (hph : ∀ e, slot (nbOf H) key t 0 = some e → PhOf (intCfg st sum) (nbOf H) key e.1 (lev (nbOf H) key t 0 + 1) ph)
    (hlev : lev (nbOf H) key t 0 ≤ 240) (hg : ∀ x ∈ leaves t, g' x = g x) :
    Swallowed H (g' (ph, .blk A, w)) (marksBy H g t) key
      (marksBy H g' (insP (nbOf H) (intCfg st sum).encT 256 key p0 v0 id (ph, .blk A, w) t 0)) := by
  obtain ⟨X, Y, b, b', e, h1, h2, h3, h4, h5⟩ := tagged_insP_hid (n := 256) (p := p0) (v := v0) (f := id) (g := (ph, .blk A, w))
    (nbOf_lt H) (pre := fun _ => true) hsh
  obtain ⟨e', h6, hne, h7, h8⟩ := hsh
  rw [h1] at h6
  cases h6
  have hpe := int_phantom hst (nbOf_lt H) (hph e h1)
  have hpos := lev_pos (nb := nbOf H) (key := key) hn
  generalize hl : lev (nbOf H) key t 0 = l at *
  obtain ⟨d, rfl⟩ : ∃ d, l = d + 1 := ⟨l - 1, by omega⟩
  rw [nbOf_eq_nibble, nbOf_eq_nibble] at hpe h7
  rw [nbOf_eq_nibble, int_upper] at h8
  have hmem : ∀ x, x ∈ X ++ Y → g' x.2 = g x.2 := by
    intro x hx
    refine hg x.2 (mem_tagged_leaves (nb := nbOf H) (d := 0) (pre := fun _ => true) (b := x.1) ?_)
    rw [h2]
    rcases List.mem_append.1 hx with h | h
    · exact List.mem_append.2 (Or.inl h)
    · exact List.mem_append.2 (Or.inr (List.mem_cons_of_mem _ h))
  refine ⟨d, b, e.1, g e, b', (X ++ Y).map (fun x => (x.1, x.2.1, g x.2)), by omega, ?_, hne, ?_, h7, h8, ?_, ?_⟩
  · rw [marksBy, tags, h2]
    simp only [List.map_append, List.map_cons]
    exact List.perm_middle
  · rw [h4, agree_iff]; simp
  · rw [← hpe]
    have : (X ++ Y).map (fun x => (x.1, x.2.1, g x.2)) = (X ++ Y).map (fun x => (x.1, x.2.1, g' x.2)) :=
      List.map_congr_left (fun x hx => by rw [hmem x hx])
    rw [this, marksBy, tags, h3]
    simp only [List.map_append, List.map_cons]
    exact List.perm_middle
  · rw [← hpe, h5]
    simp only [true_and]
    rw [show (∀ j, 0 ≤ j → j ≤ d + 1 → nbOf H ph j = nbOf H key j) ↔ Agree H key ph (d + 2) from by
      rw [← agree_iff]
      constructor
      · intro h j h1 h2; exact h j h1 (by omega)
      · intro h j h1 h2; exact h j h1 (by omega)]

theorem marksBy_enters {W : Type} {g g' : IntKey × Ptr × V → W} {key : IntKey} {p : Ptr} {v : V} {e : IntKey × Ptr × V} {sb : IntKey → BitVec 32}
    (hS : Parts (nbOf H) 255 key t 0) (hfd : find (nbOf H) key t 0 = none) (hsh : ¬ Shadows (nbOf H) sb key t 0)
    (hg : ∀ x ∈ leaves t, g' x = g x) :
    (marksBy H g' (insP (nbOf H) sb 256 key p v id e t 0)).Perm ((true, key, g' (key, p, v)) :: marksBy H g t) := by
  have h1 := tagged_insP_new (p := p) (v := v) (f := id) (g := e) (nbOf_lt H) (by omega : 255 < 256) (pre := fun _ => true) rfl hS hfd hsh
  have h2 := h1.map (fun x => (x.1, x.2.1, g' x.2))
  rw [List.map_cons] at h2
  have : (tagged (nbOf H) t 0 fun _ => true).map (fun x => (x.1, x.2.1, g' x.2)) = marksBy H g t :=
    List.map_congr_left (fun x hx => by rw [hg x.2 (mem_tagged_leaves (b := x.1) hx)])
  rw [this] at h2
  exact h2

theorem marksBy_stuck {W : Type} {g : IntKey × Ptr × V → W} (hn : t.isNode = true) {key : IntKey} {e : IntKey × Ptr × V}
    (he : slot (nbOf H) key t 0 = some e) (hne : key ≠ e.1) (hlev : 240 < lev (nbOf H) key t 0) :
    ∃ d b x v, 240 ≤ d ∧ (b, x, v) ∈ marksBy H g t ∧ key ≠ x ∧ (b = true ↔ Agree H key x (d + 1)) := by
  obtain ⟨X, Y, b, h1, h2⟩ := tagged_slot (nbOf_lt H) (pre := fun _ => true) he
  refine ⟨lev (nbOf H) key t 0 - 1, b, e.1, g e, by omega, ?_, hne, ?_⟩
  · exact List.mem_map.2 ⟨(b, e), by rw [tags, h1]; simp, rfl⟩
  · rw [h2, show lev (nbOf H) key t 0 - 1 + 1 = lev (nbOf H) key t 0 by omega, agree_iff]; simp

end

/-! ### One call on `IntSet` -/

section
variable {sum : Maphash} {sd : Seed} {S : IntKey → Prop} {n : Nat} {s : St IntKey Unit} {h : Nat} {t : T IntKey Ptr Unit}
  {F : Nat → Prop} {fuel : Nat}

theorem addIns_new (key : IntKey) : InsNew (IntSet sum).cfg sd (byteStream sum sd intbytes) ((IntSet sum).addI key) key () ()
    (fun _ _ => True) where
  chash ckey d fuel h1 h2 := byteChash_ok sum intbytes sd key ckey d fuel h1 h2
  deep ckey d fuel h1 h2 := byteChash_diverge sum intbytes sd key ckey h1 fuel
  guard := rfl
  newSlot := ((IntSet_ok sum sd).add key).newSlot
  newSplit := ((IntSet_ok sum sd).add key).newSplit
  prop _ _ _ _ _ := trivial
  slotQ _ _ _ _ := trivial
  splitQ _ _ _ _ := trivial

theorem marksBy_marks {V : Type} (H : IntKey → Nat → BitVec 64) (t : T IntKey Ptr V) : marksBy H (fun e => e.2.2) t = marks H t := rfl

theorem int_set_step (hi : PInv (IntSet sum).cfg sd S n s h t F)
    (hS : SepLast (byteStream sum sd intbytes) S) (hph : ∀ x, Phantom x → S x) (op : SOp IntKey) (hop : ∀ k ∈ op.stores, S k) :
    (SHangs (byteStream sum sd intbytes) (marks (byteStream sum sd intbytes) t, n) op ∧
      ∀ fuel, 256 ≤ fuel → (IntSet sum).exec fuel (some h) op s = .error .diverge) ∨
    ∃ o s' n' t' F', (∀ fuel, 256 ≤ fuel → (IntSet sum).exec fuel (some h) op s = .ok (o, s')) ∧
      PInv (IntSet sum).cfg sd S n' s' h t' F' ∧ Chg s s' h F F' ∧
      SPStep (byteStream sum sd intbytes) (marks (byteStream sum sd intbytes) t, n) op o (marks (byteStream sum sd intbytes) t', n') := by
  have ok := IntSet_ok sum sd
  generalize hH : byteStream sum sd intbytes = H at *
  have hf : 256 ≤ 256 := Nat.le_refl _
  have hx : ∀ {o s'}, (IntSet sum).exec 256 (some h) op s = .ok (o, s') →
      ∀ fuel, 256 ≤ fuel → (IntSet sum).exec fuel (some h) op s = .ok (o, s') :=
    fun e fuel hf => (SetImpl.exec_ext (IntSet_mono sum) hf (some h) op).ok e
  cases op with
  | has k =>
    refine Or.inr ⟨.bool _, s, n, t, F, hx ?_, hi, Chg.refl _ _ _, ⟨rfl, rfl⟩⟩
    have : (IntSet sum).Has 256 (some h) k s = .ok (decide (k ∈ (seen (marks H t)).keys), s) := by
      obtain ⟨o, e1, e2⟩ := hi.lookup_has ok.laws hf k
      rw [SetImpl.Has, deref, pure_bind_M, bind_ok e1, e2]
      cases hfd : find (nbOf H) k t 0 with
      | none => rw [decide_eq_false (by rw [mem_seen_marks]; exact fun h => h hfd)]; rfl
      | some e => rw [decide_eq_true (by rw [mem_seen_marks, hfd]; nofun)]; rfl
    rw [SetImpl.exec, bind_ok this]; rfl
  | len =>
    refine Or.inr ⟨.num _, s, n, t, F, hx ?_, hi, Chg.refl _ _ _, ⟨rfl, rfl⟩⟩
    simp only
    rw [length_marks, ← size_eq_length t 0, ← hi.len]; rfl
  | dep =>
    obtain ⟨q, hq⟩ := Dep_run s h
    refine Or.inr ⟨.rat q, s, n, t, F, hx ?_, hi, Chg.refl _ _ _, ⟨⟨q, rfl⟩, rfl⟩⟩
    rw [SetImpl.exec, SetImpl.Dep, bind_ok hq]; rfl
  | add k =>
    have hk := hop k (by simp [SOp.stores])
    have hadd : ∀ fuel r, Amt.upsert (IntSet sum).cfg h fuel k ((IntSet sum).addI k) s = r → (IntSet sum).Add fuel (some h) k s = r := by
      intro fuel r e; rw [SetImpl.Add, deref, pure_bind_M, e]
    have hex : ∀ s', Amt.upsert (IntSet sum).cfg h 256 k ((IntSet sum).addI k) s = .ok ((), s') →
        (IntSet sum).exec 256 (some h) (.add k) s = .ok (.unit, s') := by
      intro s' e; rw [SetImpl.exec, bind_ok (hadd _ _ e)]; rfl
    cases hfd : find (nbOf H) k t 0 with
    | some e =>
      refine Or.inr ⟨.unit, s, n, t, F, hx (hex s ?_), hi, Chg.refl _ _ _, rfl, ?_⟩
      · obtain ⟨q, e1, _⟩ := hi.upsert_hitQ (ins := (IntSet sum).addI k) ok.laws hf (p := e.1) (v := e.2) hfd
        rw [e1]; rfl
      · rw [if_pos (by rw [mem_seen_marks, hfd]; nofun)]
    | none =>
      have hns : k ∉ (seen (marks H t)).keys := by rw [mem_seen_marks]; exact fun h => h hfd
      have hnew := addIns_new (sum := sum) (sd := sd) k
      rw [hH] at hnew
      rcases hi.upsert_new ok.laws hnew rfl (int_words .bare sum) hS hk hfd hf
        (fun k x d ph h => hph ph (phantom_of (st := .bare) (sum := sum) (by nofun) h)) with
        ⟨p, s', F', e1, h2, h3, _, h4, h5⟩ | ⟨ph, A, w, s', F', e1, h2, h3, _, h4, h5, h6⟩ | ⟨e, h1, h2, h3, h4⟩
      · refine Or.inr ⟨.unit, s', n, _, F', hx (hex s' e1), h4, h5, rfl, ?_⟩
        rw [if_neg hns]
        refine Or.inl ⟨?_, rfl⟩
        exact marksBy_enters (g := fun e => e.2.2) (g' := fun e => e.2.2) h3 hfd h2 (fun _ _ => rfl)
      · refine Or.inr ⟨.unit, s', n + 1, _, F', hx (hex s' e1), h5, h6, rfl, ?_⟩
        rw [if_neg hns]
        refine Or.inr ⟨?_, rfl⟩
        exact marksBy_swallowed (g := fun e => e.2.2) (g' := fun e => e.2.2) (sum := sum) (st := .bare) (by nofun) hi.node h2 h4 h3 (fun _ _ => rfl)
      · refine Or.inl ⟨⟨hns, marksBy_stuck (g := fun e => e.2.2) hi.node h1 h2 h3⟩, ?_⟩
        intro fuel hf
        rw [SetImpl.exec]
        exact bind_err (hadd _ _ (h4 fuel hf))
  | del k =>
    have hsim := hi.delete (fuel := 256) ok.laws (skip := (IntSet sum).delSkip) (fun _ => rfl) k hf
    have hex : ∀ s', Amt.delete (IntSet sum).cfg h 256 (IntSet sum).delSkip k s = .ok ((), s') →
        (IntSet sum).exec 256 (some h) (.del k) s = .ok (.unit, s') := by
      intro s' e
      have : (IntSet sum).Del 256 (some h) k s = .ok ((), s') := by rw [SetImpl.Del, deref, pure_bind_M, e]
      rw [SetImpl.exec, bind_ok this]; rfl
    cases hfd : find (nbOf H) k t 0 with
    | none =>
      rw [hfd] at hsim
      refine Or.inr ⟨_, s, n, t, F, hx (hex s hsim), hi, Chg.refl _ _ _, rfl, ?_, rfl⟩
      rw [Spec.Leaves, if_neg]
      rw [mem_seen_marks]; exact fun h => h hfd
    | some e =>
      rw [hfd] at hsim
      obtain ⟨s', F', e1, e2, e3⟩ := hsim
      refine Or.inr ⟨_, s', n, _, F', hx (hex s' e1), e2, e3, rfl, ?_, rfl⟩
      rw [Spec.Leaves, if_pos (by rw [mem_seen_marks, hfd]; nofun)]
      exact ⟨marks_del hi.node hfd, marks_seen_nodup _ _⟩
  | all f =>
    obtain ⟨s', F', e1, e2, e3⟩ := hi.scan (fuel := 256)
      (visitSet_ok (V := Unit) ok.laws (fun log k => (log ++ [k], f log k))) hf []
    have hl := scanT_leaves (fun (log : List IntKey) k (v : Unit) => (log ++ [k], v, f log k)) t []
    have hv := scanL_visitS f (leaves t) []
    have h1 := congrArg (fun x => x.1) hl
    simp only at h1
    have hve := scanT_veq (fun (log : List IntKey) k (v : Unit) => (log ++ [k], v, f log k)) t []
    have e1' : (IntSet sum).All 256 (some h) (fun log k => (log ++ [k], f log k)) [] s
        = .ok ((scanT (fun (log : List IntKey) k (v : Unit) => (log ++ [k], v, f log k)) t []).1, s') := by
      rw [SetImpl.All, deref, pure_bind_M, bind_ok e1]; rfl
    refine Or.inr ⟨_, s', n, _, F', hx ?_, e2, e3, ?_, marks H t, List.Perm.refl _, rfl⟩
    · rw [SetImpl.exec, bind_ok e1', h1, hv, stored_marks, ← absS_eq]; rfl
    · refine congrArg (·, n) (marks_ext ?_ ?_)
      · have := tagged_fst_veq (nb := nbOf H) (d := 0) (pre := fun _ => true) hve
        rw [marks, marks, List.map_map, List.map_map]
        exact this
      · have := congrArg (List.map fun e => (e.1, ())) hve.keys
        rw [List.map_map, List.map_map] at this
        rw [stored_marks, stored_marks]
        exact this

/-- What the model does, with enough fuel, where the specification says `r`. -/
def Becomes {K V α : Type} (x : Nat → Except Fault (List α × St K V)) : Res α → Prop
  | .returns os => ∃ s', ∀ fuel, 256 ≤ fuel → x fuel = .ok (os, s')
  | .hangs => ∀ fuel, 256 ≤ fuel → x fuel = .error .diverge
  | .confuses => ∀ fuel, 256 ≤ fuel → x fuel = .error .wrongType

theorem int_set_run (hS : SepLast (byteStream sum sd intbytes) S) (hph : ∀ x, Phantom x → S x) (ops : List (SOp IntKey)) :
    ∀ {n : Nat} {s : St IntKey Unit} {t : T IntKey Ptr Unit} {F : Nat → Prop},
    PInv (IntSet sum).cfg sd S n s h t F → (∀ k, SStores ops k → S k) →
    ∃ r, SPRun (byteStream sum sd intbytes) (marks (byteStream sum sd intbytes) t, n) ops r ∧
      Becomes (fun fuel => (IntSet sum).run fuel (some h) ops s) r := by
  induction ops with
  | nil =>
    intro n s t F hi _
    exact ⟨.returns [], rfl, s, fun _ _ => rfl⟩
  | cons op ops ih =>
    intro n s t F hi hks
    rcases int_set_step hi hS hph op (fun k hk => hks k ⟨op, by simp, hk⟩) with ⟨h1, h2⟩ | ⟨o, s1, n1, t1, F1, e1, i1, c1, st1⟩
    · refine ⟨.hangs, Or.inl ⟨rfl, h1⟩, fun fuel hf => ?_⟩
      dsimp only
      rw [SetImpl.run]
      exact bind_err (h2 fuel hf)
    · obtain ⟨r, h3, h4⟩ := ih i1 fun k hk => hks k (by obtain ⟨op', h1, h2⟩ := hk; exact ⟨op', by simp [h1], h2⟩)
      refine ⟨r.cons o, Or.inr ⟨o, _, r, rfl, st1, h3⟩, ?_⟩
      cases r with
      | returns os =>
        obtain ⟨s', h5⟩ := h4
        exact ⟨s', fun fuel hf => by dsimp only; rw [SetImpl.run, bind_ok (e1 fuel hf), bind_ok (h5 fuel hf)]; rfl⟩
      | hangs => exact fun fuel hf => by dsimp only; rw [SetImpl.run, bind_ok (e1 fuel hf)]; exact bind_err (h4 fuel hf)
      | confuses => exact fun fuel hf => by dsimp only; rw [SetImpl.run, bind_ok (e1 fuel hf)]; exact bind_err (h4 fuel hf)

/-- C60.  Every history of calls on an `IntSet`, whatever the keys, provided that their digests for iteration 15
differ from each other and from those of the phantoms: there is no memory fault, and the calls answer as specified, or
one of them hangs as specified. -/
theorem C60_IntSet (sum : Maphash) (sd : Seed) {ops : List (SOp IntKey)}
    (hS : LastApart (byteStream sum sd intbytes) (fun k => SStores ops k ∨ Phantom k)) (s : St IntKey Unit) :
    ∃ r, SPRun (byteStream sum sd intbytes) ([], 0) ops r ∧
      Becomes (fun fuel => ((IntSet sum).session fuel sd ops s).map (fun x => (x.1.2, x.2))) r := by
  obtain ⟨s1, e1, i1⟩ := PInv.new (IntSet sum).cfg sd (fun k => SStores ops k ∨ Phantom k) s
  obtain ⟨r, h1, h2⟩ := int_set_run (sepLast_of hS) (fun _ h => Or.inr h) ops i1 (fun _ h => Or.inl h)
  rw [marks_new] at h1
  refine ⟨r, h1, ?_⟩
  cases r with
  | returns os =>
    obtain ⟨s', h3⟩ := h2
    exact ⟨s', fun fuel hf => by dsimp only; rw [SetImpl.session, SetImpl.New, bind_ok e1, bind_ok (h3 fuel hf)]; rfl⟩
  | hangs => exact fun fuel hf => by dsimp only; rw [SetImpl.session, SetImpl.New, bind_ok e1, bind_err (h2 fuel hf)]; rfl
  | confuses => exact fun fuel hf => by dsimp only; rw [SetImpl.session, SetImpl.New, bind_ok e1, bind_err (h2 fuel hf)]; rfl

/-! ### No key comes from anywhere else -/

end

end Amt

namespace Spec

/-- What a call says about keys: those it reports are in `S`. -/
def Reports {K : Type} (S : K → Prop) : SOp K → SOut K → Prop
  | .has k, o => o = .bool true → S k
  | .all _, o => ∃ l, o = .log l ∧ ∀ k ∈ l, S k
  | _, _ => True

end Spec

namespace Amt
open T Spec

theorem spStep_keys {H : IntKey → Nat → BitVec 64} {S : IntKey → Prop} (hph : ∀ x, Phantom x → S x) {X X' : Marked IntKey Unit × Nat}
    {op : SOp IntKey} {o : SOut IntKey} (hX : ∀ e ∈ X.1, S e.2.1) (hop : ∀ k ∈ op.stores, S k) (h : SPStep H X op o X') :
    Reports S op o ∧ ∀ e ∈ X'.1, S e.2.1 := by
  cases op with
  | has k =>
    obtain ⟨rfl, h0⟩ := h
    refine ⟨fun h1 => ?_, by rw [h0]; exact hX⟩
    have h2 : k ∈ (seen X.1).keys := by simpa using h1
    simp only [seen, FMap.keys, List.mem_map, List.mem_filter] at h2
    obtain ⟨x, ⟨e, ⟨he, _⟩, rfl⟩, rfl⟩ := h2
    exact hX e he
  | add k =>
    refine ⟨trivial, ?_⟩
    have h1 := h.2
    split at h1
    · rw [h1]; exact hX
    · rcases h1 with ⟨h2, _⟩ | ⟨⟨d, b, x, v, b', R, _, h3, _, _, _, _, h4, _⟩, _⟩
      · intro e he
        have := h2.subset he
        simp only [List.mem_cons] at this
        rcases this with rfl | this
        · exact hop _ (by simp [SOp.stores])
        · exact hX e this
      · intro e he
        have := h4.subset he
        simp only [List.mem_cons] at this
        rcases this with rfl | this
        · exact hph _ ⟨_, _, by rw [← nbOf_eq_nibble]; exact nbOf_lt H k _, by rw [← nbOf_eq_nibble]; exact nbOf_lt H x _, rfl⟩
        · exact hX e (h3.symm.subset (by simp [this]))
  | del k =>
    refine ⟨trivial, ?_⟩
    have h1 := h.2.1
    rw [Leaves] at h1
    split at h1
    · have hs : ∀ e ∈ strike X.1 k, S e.2.1 := fun e he => hX e (List.mem_filter.1 he).1
      rcases h1.1 with h2 | ⟨x, v, R, h2, h3, _⟩
      · exact fun e he => hs e (h2.symm.subset he)
      · intro e he
        have := h2.subset he
        simp only [List.mem_cons] at this
        rcases this with rfl | this
        · exact hs (false, x, v) (h3.symm.subset (by simp))
        · exact hs e (h3.symm.subset (by simp [this]))
    · rw [h1]; exact hX
  | len => obtain ⟨rfl, rfl⟩ := h; exact ⟨trivial, hX⟩
  | dep => obtain ⟨_, rfl⟩ := h; exact ⟨trivial, hX⟩
  | all f =>
    obtain ⟨rfl, order, h1, rfl⟩ := h
    refine ⟨⟨_, rfl, fun k hk => ?_⟩, hX⟩
    obtain ⟨n, _, h2, _⟩ := visitS_prefix f [] (stored order).keys
    rw [h2, List.nil_append] at hk
    have := List.mem_of_mem_take hk
    simp only [stored, FMap.keys, List.mem_map] at this
    obtain ⟨_, ⟨e, he, rfl⟩, rfl⟩ := this
    exact hX e (h1.subset he)

theorem Reports.mono {K : Type} {S S' : K → Prop} (h : ∀ k, S k → S' k) {op : SOp K} {o : SOut K} (h1 : Reports S op o) : Reports S' op o := by
  cases op with
  | has k => exact fun e => h k (h1 e)
  | all f => obtain ⟨l, h2, h3⟩ := h1; exact ⟨l, h2, fun k hk => h k (h3 k hk)⟩
  | _ => trivial

theorem spRun_keys {H : IntKey → Nat → BitVec 64} {ops : List (SOp IntKey)} :
    ∀ {S : IntKey → Prop}, (∀ x, Phantom x → S x) → ∀ {X : Marked IntKey Unit × Nat} {outs : List (SOut IntKey)}, (∀ e ∈ X.1, S e.2.1) →
    SPRun H X ops (.returns outs) → ∀ (i : Nat) op o, ops[i]? = some op → outs[i]? = some o →
    Reports (fun k => SStores (ops.take i) k ∨ S k) op o := by
  induction ops with
  | nil => intro S _ X outs _ _ i op o h; simp at h
  | cons op ops ih =>
    intro S hph X outs hX h i op' o' h1 h2
    rcases h with ⟨h, _⟩ | ⟨o, X₁, r', h3, h4, h5⟩
    · cases h
    · cases r' with
      | hangs => cases h3
      | confuses => cases h3
      | returns os =>
        cases h3
        have h6 := spStep_keys (S := fun k => k ∈ op.stores ∨ S k) (fun x h => Or.inr (hph x h)) (fun e he => Or.inr (hX e he)) (fun k hk => Or.inl hk) h4
        cases i with
        | zero =>
          simp at h1 h2
          rw [← h1, ← h2]
          cases op with
          | add k => trivial
          | has k => exact fun e => ((h6.1 e).resolve_left (by simp [SOp.stores])) |> Or.inr
          | all f => obtain ⟨l, h7, h8⟩ := h6.1; exact ⟨l, h7, fun k hk => Or.inr ((h8 k hk).resolve_left (by simp [SOp.stores]))⟩
          | _ => trivial
        | succ i =>
          refine Reports.mono ?_ (ih (fun x h => Or.inr (hph x h)) h6.2 h5 i op' o' (by simpa using h1) (by simpa using h2))
          intro k hk
          rcases hk with ⟨op₁, h7, h8⟩ | h7 | h7
          · exact Or.inl ⟨op₁, by simp [h7], h8⟩
          · exact Or.inl ⟨op, by simp, h7⟩
          · exact Or.inr h7

/-- C60, keys: whatever an `IntSet` reports, be it `Has` that says yes or a key that `All` visits, was added before or
is one of the 136 phantoms. -/
theorem C60_keys (sum : Maphash) (sd : Seed) {ops : List (SOp IntKey)}
    (hS : LastApart (byteStream sum sd intbytes) (fun k => SStores ops k ∨ Phantom k)) (s : St IntKey Unit) {fuel : Nat} (hf : 256 ≤ fuel)
    {h : Option Nat} {outs : List (SOut IntKey)} {s' : St IntKey Unit} (he : (IntSet sum).session fuel sd ops s = .ok ((h, outs), s')) :
    ∀ (i : Nat) op o, ops[i]? = some op → outs[i]? = some o → Reports (fun k => SStores (ops.take i) k ∨ Phantom k) op o := by
  obtain ⟨r, h1, h2⟩ := C60_IntSet sum sd hS s
  cases r with
  | returns os =>
    obtain ⟨s1, h3⟩ := h2
    have h4 := h3 fuel hf
    dsimp only at h4
    rw [he] at h4
    cases h4
    exact spRun_keys (fun _ h => h) (by simp) h1
  | hangs => have h4 := h2 fuel hf; dsimp only at h4; rw [he] at h4; cases h4
  | confuses => have h4 := h2 fuel hf; dsimp only at h4; rw [he] at h4; cases h4

/-- The phantoms are few. -/
example (x : BitVec 64) (h : Phantom x) : x ∈ (List.range 16).flatMap fun a => (List.range 16).map fun b => phantomOf a b := by
  obtain ⟨a, b, ha, hb, rfl⟩ := h
  simp only [List.mem_flatMap, List.mem_map, List.mem_range]
  exact ⟨a, ha, b, hb, rfl⟩

/-! ### The hypothesis can be met -/

theorem toyHash_int (sd : Seed) (k : IntKey) (n : Nat) : byteStream toyHash sd intbytes k n = k := by
  have hb : ∀ m, m < 64 → (intbyte k m).toNat = if m ≤ 56 then k.toNat / 2 ^ m % 256 else (intbyte k m).toNat := by
    intro m hm
    split
    · have : (k.sshiftRight m).setWidth 8 = (k >>> m).setWidth 8 := by
        apply BitVec.eq_of_getLsbD_eq
        intro i hi
        simp [BitVec.getLsbD_sshiftRight, show i < 8 by omega, show m + i < 64 by omega]
        omega
      show ((k.sshiftRight m).setWidth 8).toNat = _
      rw [this]
      simp [Nat.shiftRight_eq_div_pow]
    · rfl
  rw [byteStream, List.replicate_succ]
  show BitVec.ofNat 64 _ = k
  have h0 := hb 0 (by omega)
  have h1 := hb 8 (by omega)
  have h2 := hb 16 (by omega)
  have h3 := hb 24 (by omega)
  have h4 := hb 32 (by omega)
  have h5 := hb 40 (by omega)
  have h6 := hb 48 (by omega)
  have h7 := hb 56 (by omega)
  rw [if_pos (by omega)] at h0 h1 h2 h3 h4 h5 h6 h7
  have hk := k.isLt
  apply BitVec.eq_of_toNat_eq
  simp only [intbytes, List.flatten_cons, List.cons_append, List.nil_append, List.take_succ_cons, List.take_zero, List.foldr_cons,
    List.foldr_nil, BitVec.toNat_ofNat, h0, h1, h2, h3, h4, h5, h6, h7]
  omega

/-- The hypothesis of C60 holds for all keys, if hashing is good enough. -/
example : LastApart (byteStream toyHash 0#64 intbytes) (fun _ => True) := by
  intro a b _ _ hab
  rw [toyHash_int, toyHash_int]
  exact hab

/-- A history that loses two keys to a phantom, as `C16_IntSet_refuted` shows: here is what C60 says of it. -/
example : ∃ r, SPRun (byteStream toyHash 0#64 intbytes) ([], 0) [.add (-1#64), .add 255#64, .len, .all fun _ _ => true] r ∧
    Becomes (fun fuel => ((IntSet toyHash).session fuel 0#64 [.add (-1#64), .add 255#64, .len, .all fun _ _ => true] St.init).map
      (fun x => (x.1.2, x.2))) r :=
  C60_IntSet toyHash 0#64 (fun a b _ _ hab => by rw [toyHash_int, toyHash_int]; exact hab) St.init

/-- The step in which the keys are lost. -/
example : Enters (byteStream toyHash 0#64 intbytes) () ([(true, -1#64, ())], 0) 255#64 () ([(false, 0x0000800100008001#64, ())], 1) := by
  refine Or.inr ⟨⟨0, true, -1#64, (), false, [], by decide, List.Perm.refl _, by decide, ?_, by decide +kernel, by decide +kernel, ?_, ?_⟩, rfl⟩
  · refine ⟨fun _ j hj => ?_, fun _ => rfl⟩
    obtain rfl : j = 0 := by omega
    decide +kernel
  · rw [show phantomOf (nibble (byteStream toyHash 0#64 intbytes) 255#64 (0 + 2)) (nibble (byteStream toyHash 0#64 intbytes) (-1#64) (0 + 2)) =
      0x0000800100008001#64 by decide +kernel]
  · refine ⟨fun h => (by cases h), fun h => absurd (h 0 (by decide)) (by decide +kernel)⟩

end Amt
