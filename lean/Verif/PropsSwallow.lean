/-
C100: two integer keys that lose each other, whatever else the hash function does.
-/
import Verif.PropsPhantomMap
import Verif.PropsLarge
import Verif.PropsLost

set_option linter.unusedVariables false
set_option linter.unusedSectionVars false

namespace Amt
open Spec T

section
variable {P V : Type} {nb : IntKey → Nat → Nat} {sb : IntKey → BitVec 32} {x k : IntKey} {p : P} {v : V}

/-- The tree of a container with the key `x` only. -/
def oneKey (nb : IntKey → Nat → Nat) (x : IntKey) (p : P) (v : V) : T IntKey P V :=
  node (0#32 &&& ~~~(1#32 <<< nb x 0)) (upd (fun _ => empty) (nb x 0) (leaf x p v))

theorem oneKey_find (hne : k ≠ x) : find nb k (oneKey nb x p v) 0 = none := by
  rw [oneKey, find]
  by_cases h : nb k 0 = nb x 0
  · rw [h]; simp [find, hne]
  · simp [upd, h, find]

theorem oneKey_slot (h : nb k 0 = nb x 0) : slot nb k (oneKey nb x p v) 0 = some (x, p, v) := by
  simp [oneKey, slot, h, upd]

theorem oneKey_lev (h : nb k 0 = nb x 0) : lev nb k (oneKey nb x p v) 0 = 1 := by
  simp [oneKey, lev, h, upd]

/-- Where the key `x` hides the branches, there is the phantom only. -/
theorem oneKey_hid (hne : k ≠ x) (h0 : nb k 0 = nb x 0) (h1 : nb k 1 = nb x 1) (hb : (sb x).getLsbD (nb k 1) = true) {q : P} {w : V} {f : V → V} {g : IntKey × P × V}
    {y : IntKey} (hy : y ≠ g.1) : find nb y (insP nb sb 256 k q w f g (oneKey nb x p v) 0) 0 = none := by
  rw [oneKey, insP, find]
  by_cases h : nb y 0 = nb k 0
  · rw [h]
    simp only [upd, if_true, h0]
    rw [insP, if_neg hne, if_pos ⟨by simpa using h1, by simpa using hb⟩, find]
    by_cases h' : nb y 1 = nb k 1
    · simp [upd, h', find, hy]
    · simp [upd, h', find]
  · simp only [upd, h, if_false]
    rw [if_neg (by rw [← h0]; exact h)]
    rfl

/-- The phantom is the only entry then. -/
theorem oneKey_size (hnb : ∀ k d, nb k d < 16) (hsh : Shadows nb sb k (oneKey nb x p v) 0) {q : P} {w : V} {f : V → V} {g : IntKey × P × V} :
    size (insP nb sb 256 k q w f g (oneKey nb x p v) 0) 0 = 1 := by
  obtain ⟨A, C, b, b', e, _, h1, h2, _⟩ := tagged_insP_hid (n := 256) (p := q) (v := w) (f := f) (g := g) hnb (pre := fun _ => true) hsh
  have h3 : (leaves (oneKey nb x p v)).length = 1 := by rw [oneKey, leaves_upd_empty _ _ (hnb x 0)]; rfl
  rw [← tagged_snd (nb := nb) _ 0 (fun _ => true), h1] at h3
  rw [size_eq_length, ← tagged_snd (nb := nb) _ 0 (fun _ => true), h2]
  simpa using h3

end

section
variable {V : Type} [Inhabited V] {sum : Maphash} {sd : Seed} {x k : IntKey}

/-- C100.  Two keys share their first two nibbles, and the bit of the upper half of `x` numbered by the second one is set.  Then both are missing after they have been
added, and `Len` counts them both. -/
theorem C100_IntSet (hS : LastApart (byteStream sum sd intbytes) (fun y => y = x ∨ y = k ∨ Phantom y)) (hne : k ≠ x) (hx : ¬ Phantom x) (hk : ¬ Phantom k)
    (h0 : nibble (byteStream sum sd intbytes) k 0 = nibble (byteStream sum sd intbytes) x 0)
    (h1 : nibble (byteStream sum sd intbytes) k 1 = nibble (byteStream sum sd intbytes) x 1)
    (hb : (upper x).getLsbD (nibble (byteStream sum sd intbytes) k 1) = true) {fuel : Nat} (hf : 256 ≤ fuel) (s : St IntKey Unit) :
    ∃ s', (IntSet sum).session fuel sd [.add x, .has x, .add k, .has x, .has k, .len] s =
      .ok ((some s.next, [.unit, .bool true, .unit, .bool false, .bool false, .num 2#64]), s') := by
  have ok := IntSet_ok sum sd
  have hnew := fun y => addIns_new (sum := sum) (sd := sd) y
  have hsep := sepLast_of hS
  generalize hH : byteStream sum sd intbytes = H at *
  rw [← nbOf_eq_nibble, ← nbOf_eq_nibble] at h0 h1
  rw [← nbOf_eq_nibble, ← int_upper .bare sum] at hb
  have hadd : ∀ h fuel y s r, Amt.upsert (IntSet sum).cfg h fuel y ((IntSet sum).addI y) s = r → (IntSet sum).Add fuel (some h) y s = r := by
    intro h fuel y s r e; rw [SetImpl.Add, deref, pure_bind_M, e]
  have hhas : ∀ {n s h t F}, PInv (IntSet sum).cfg sd (fun y => y = x ∨ y = k ∨ Phantom y) n s h t F → ∀ y,
      (IntSet sum).exec fuel (some h) (.has y) s = .ok (.bool (find (nbOf H) y t 0).isSome, s) := by
    intro n s h t F hi y
    obtain ⟨o, e1, e2⟩ := hi.lookup_has ok.laws hf y
    have : (IntSet sum).Has fuel (some h) y s = .ok ((find (nbOf H) y t 0).isSome, s) := by
      rw [SetImpl.Has, deref, pure_bind_M, bind_ok e1, e2]; rfl
    rw [SetImpl.exec, bind_ok this]; rfl
  have hph : ∀ k' x' d ph, PhOf (IntSet sum).cfg (nbOf H) k' x' d ph → ph = x ∨ ph = k ∨ Phantom ph := fun k' x' d ph h =>
    Or.inr (Or.inr (phantom_of (st := .bare) (sum := sum) (by nofun) h))
  obtain ⟨s0, e0, i0⟩ := PInv.new (IntSet sum).cfg sd (fun y => y = x ∨ y = k ∨ Phantom y) s
  rcases i0.upsert_new ok.laws (hnew x) rfl (int_words .bare sum) hsep (Or.inl rfl) rfl hf hph with
    ⟨p, s1, F1, e1, _, _, _, i1, _⟩ | ⟨_, _, _, _, _, _, ⟨e, he, _⟩, _⟩ | ⟨e, he, _⟩
  · have i1 : PInv (IntSet sum).cfg sd (fun y => y = x ∨ y = k ∨ Phantom y) 0 s1 s.next (oneKey (nbOf H) x p ()) F1 := i1
    have hsh : Shadows (nbOf H) (IntSet sum).cfg.encT k (oneKey (nbOf H) x p ()) 0 :=
      ⟨_, oneKey_slot h0, hne, by rw [oneKey_lev h0]; exact h1, by rw [oneKey_lev h0]; exact hb⟩
    rcases i1.upsert_new ok.laws (hnew k) rfl (int_words .bare sum) hsep (Or.inr (Or.inl rfl)) (oneKey_find hne) hf hph with
      ⟨_, _, _, _, g, _⟩ | ⟨ph, A, w, s2, F2, e2, _, _, _, g, i2, _⟩ | ⟨e, _, _, g, _⟩
    · exact absurd hsh g
    · have hP := phantom_of (st := .bare) (sum := sum) (by nofun) (g _ (oneKey_slot h0))
      have n1 : find (nbOf H) x (insP (nbOf H) (IntSet sum).cfg.encT 256 k Ptr.nil () id (ph, Ptr.blk A, w) (oneKey (nbOf H) x p ()) 0) 0 = none :=
        oneKey_hid hne h0 h1 hb fun e => hx (e ▸ hP)
      have n2 : find (nbOf H) k (insP (nbOf H) (IntSet sum).cfg.encT 256 k Ptr.nil () id (ph, Ptr.blk A, w) (oneKey (nbOf H) x p ()) 0) 0 = none :=
        oneKey_hid hne h0 h1 hb fun e => hk (e ▸ hP)
      have r1 := hhas i1 x
      have r2 := hhas i2 x
      have r3 := hhas i2 k
      rw [n1] at r2
      rw [n2] at r3
      rw [show find (nbOf H) x (oneKey (nbOf H) x p ()) 0 = some (p, ()) by simp [oneKey, find, upd]] at r1
      have r4 : (IntSet sum).exec fuel (some s.next) .len s2 = .ok (.num 2#64, s2) := by
        have := i2.len
        rw [oneKey_size (nbOf_lt H) hsh] at this
        exact congrArg (fun n => Except.ok (SOut.num n, s2)) this
      have a1 : (IntSet sum).exec fuel (some s.next) (.add x) s0 = .ok (.unit, s1) := by rw [SetImpl.exec, bind_ok (hadd _ _ _ _ _ e1)]; rfl
      have a2 : (IntSet sum).exec fuel (some s.next) (.add k) s1 = .ok (.unit, s2) := by rw [SetImpl.exec, bind_ok (hadd _ _ _ _ _ e2)]; rfl
      refine ⟨s2, ?_⟩
      have hc : ∀ {op ops o os} {t t' t'' : St IntKey Unit}, (IntSet sum).exec fuel (some s.next) op t = .ok (o, t') → (IntSet sum).run fuel (some s.next) ops t' = .ok (os, t'') →
          (IntSet sum).run fuel (some s.next) (op :: ops) t = .ok (o :: os, t'') := fun g1 g2 => by rw [SetImpl.run, bind_ok g1, bind_ok g2]; rfl
      rw [SetImpl.session, SetImpl.New, bind_ok e0, bind_ok (hc a1 (hc r1 (hc a2 (hc r2 (hc r3 (hc r4 rfl))))))]
      rfl
    · rw [oneKey_lev h0] at g; omega
  · simp [slot] at he
  · simp [slot] at he

/-- C100 for maps. -/
theorem C100_IntMap (hS : LastApart (byteStream sum sd intbytes) (fun y => y = x ∨ y = k ∨ Phantom y)) (hne : k ≠ x) (hx : ¬ Phantom x) (hk : ¬ Phantom k)
    (h0 : nibble (byteStream sum sd intbytes) k 0 = nibble (byteStream sum sd intbytes) x 0)
    (h1 : nibble (byteStream sum sd intbytes) k 1 = nibble (byteStream sum sd intbytes) x 1)
    (hb : (upper x).getLsbD (nibble (byteStream sum sd intbytes) k 1) = true) (u w : V) {fuel : Nat} (hf : 256 ≤ fuel) (s : St IntKey V) :
    ∃ s', (IntMap sum).session fuel sd [.set x u, .set k w, .get x, .get k, .len] s =
      .ok ((some s.next, [.unit, .unit, .pair default false, .pair default false, .num 2#64]), s') := by
  have L := int_laws .bare sum sd
  have hnew := fun (y : IntKey) (z : V) => cell_ins (sum := sum) (sd := sd) (ins := (IntMap (V := V) sum).setI y z) (rNew := ()) (key := y) (v := z) rfl rfl rfl rfl
  have hsep := sepLast_of hS
  generalize hH : byteStream sum sd intbytes = H at *
  rw [← nbOf_eq_nibble, ← nbOf_eq_nibble] at h0 h1
  rw [← nbOf_eq_nibble, ← int_upper .bare sum] at hb
  have hset : ∀ {h y z s s'}, Amt.upsert (intCfg .bare sum) h fuel y ((IntMap (V := V) sum).setI y z) s = .ok ((), s') →
      (IntMap (V := V) sum).exec fuel (some h) (.set y z) s = .ok (.unit, s') := by
    intro h y z s s' e
    have : (IntMap (V := V) sum).Set fuel (some h) y z s = .ok ((), s') := by rw [← upsert_inline] at e; exact e
    rw [MapImpl.exec, bind_ok this]; rfl
  have hget : ∀ {n s h t F}, PInv (V := V) (intCfg .bare sum) sd (fun y => y = x ∨ y = k ∨ Phantom y) n s h t F → ∀ y, find (nbOf H) y t 0 = none →
      (IntMap (V := V) sum).exec fuel (some h) (.get y) s = .ok (.pair default false, s) := by
    intro n s h t F hi y hfd
    have hp : (IntMap (V := V) sum).Ptr fuel (some h) y s = .ok (none, s) := by
      have := hi.lookup L rfl hf y
      rw [hfd, ← lookup_inline] at this
      exact this
    rw [MapImpl.exec, MapImpl.Get, bind_assoc_M, bind_ok hp]; rfl
  have hph : ∀ k' x' d ph, PhOf (intCfg .bare sum) (nbOf H) k' x' d ph → ph = x ∨ ph = k ∨ Phantom ph := fun k' x' d ph h =>
    Or.inr (Or.inr (phantom_of (st := .bare) (sum := sum) (by nofun) h))
  obtain ⟨s0, e0, i0⟩ := PInv.new (V := V) (intCfg .bare sum) sd (fun y => y = x ∨ y = k ∨ Phantom y) s
  rcases i0.upsert_new L (hnew x u) rfl (int_words .bare sum) hsep (Or.inl rfl) rfl hf hph with
    ⟨p, s1, F1, e1, _, _, _, i1, _⟩ | ⟨_, _, _, _, _, _, ⟨e, he, _⟩, _⟩ | ⟨e, he, _⟩
  · have i1 : PInv (intCfg .bare sum) sd (fun y => y = x ∨ y = k ∨ Phantom y) 0 s1 s.next (oneKey (nbOf H) x p u) F1 := i1
    have hsh : Shadows (nbOf H) (intCfg .bare sum).encT k (oneKey (nbOf H) x p u) 0 :=
      ⟨_, oneKey_slot h0, hne, by rw [oneKey_lev h0]; exact h1, by rw [oneKey_lev h0]; exact hb⟩
    rcases i1.upsert_new L (hnew k w) rfl (int_words .bare sum) hsep (Or.inr (Or.inl rfl)) (oneKey_find hne) hf hph with
      ⟨_, _, _, _, g, _⟩ | ⟨ph, A, z, s2, F2, e2, _, _, _, g, i2, _⟩ | ⟨e, _, _, g, _⟩
    · exact absurd hsh g
    · have hP := phantom_of (st := .bare) (sum := sum) (by nofun) (g _ (oneKey_slot h0))
      have r2 := hget i2 x (oneKey_hid hne h0 h1 hb fun e => hx (e ▸ hP))
      have r3 := hget i2 k (oneKey_hid hne h0 h1 hb fun e => hk (e ▸ hP))
      have r4 : (IntMap (V := V) sum).exec fuel (some s.next) .len s2 = .ok (.num 2#64, s2) := by
        have := i2.len
        rw [oneKey_size (nbOf_lt H) hsh] at this
        exact congrArg (fun n => Except.ok (MOut.num n, s2)) this
      refine ⟨s2, ?_⟩
      have hc : ∀ {op ops o os} {t t' t'' : St IntKey V}, (IntMap sum).exec fuel (some s.next) op t = .ok (o, t') → (IntMap sum).run fuel (some s.next) ops t' = .ok (os, t'') →
          (IntMap sum).run fuel (some s.next) (op :: ops) t = .ok (o :: os, t'') := fun g1 g2 => by rw [MapImpl.run, bind_ok g1, bind_ok g2]; rfl
      rw [MapImpl.session, MapImpl.New, bind_ok e0, bind_ok (hc (hset e1) (hc (hset e2) (hc r2 (hc r3 (hc r4 rfl)))))]
      rfl
    · rw [oneKey_lev h0] at g; omega
  · simp [slot] at he
  · simp [slot] at he

end

/-! ### After other calls -/

section
variable {P V : Type} {nb : IntKey → Nat → Nat} {sb : IntKey → BitVec 32} {x k : IntKey} {p : P} {v : V} {st : BitVec 32} {ch : Nat → T IntKey P V}

/-- The tree after the key `x` has been put in a free place of the root. -/
def addKey (nb : IntKey → Nat → Nat) (st : BitVec 32) (ch : Nat → T IntKey P V) (x : IntKey) (p : P) (v : V) : T IntKey P V :=
  node (st &&& ~~~(1#32 <<< nb x 0)) (upd ch (nb x 0) (leaf x p v))

theorem addKey_find (hne : k ≠ x) (h : nb k 0 = nb x 0) : find nb k (addKey nb st ch x p v) 0 = none := by
  rw [addKey, find, h]; simp [find, hne]

theorem addKey_slot (h : nb k 0 = nb x 0) : slot nb k (addKey nb st ch x p v) 0 = some (x, p, v) := by
  simp [addKey, slot, h, upd]

theorem addKey_lev (h : nb k 0 = nb x 0) : lev nb k (addKey nb st ch x p v) 0 = 1 := by
  simp [addKey, lev, h, upd]

theorem addKey_hid (hne : k ≠ x) (h0 : nb k 0 = nb x 0) (h1 : nb k 1 = nb x 1) (hb : (sb x).getLsbD (nb k 1) = true) {q : P} {w : V} {f : V → V} {g : IntKey × P × V}
    {y : IntKey} (hy : y ≠ g.1) :
    find nb y (insP nb sb 256 k q w f g (addKey nb st ch x p v) 0) 0 = if nb y 0 = nb k 0 then none else find nb y (node st ch) 0 := by
  rw [addKey, insP, find]
  by_cases h : nb y 0 = nb k 0
  · rw [if_pos h, h]
    simp only [upd, if_true, h0]
    rw [insP, if_neg hne, if_pos ⟨by simpa using h1, by simpa using hb⟩, find]
    by_cases h' : nb y 1 = nb k 1
    · simp [upd, h', find, hy]
    · simp [upd, h', find]
  · rw [if_neg h, find]
    simp only [upd, h, if_false]
    rw [if_neg (by rw [← h0]; exact h)]

theorem addKey_size (hnb : ∀ k d, nb k d < 16) (hch : ch (nb x 0) = empty) (hsh : Shadows nb sb k (addKey nb st ch x p v) 0) {q : P} {w : V} {f : V → V}
    {g : IntKey × P × V} : size (insP nb sb 256 k q w f g (addKey nb st ch x p v) 0) 0 = (leaves (node st ch)).length + 1 := by
  obtain ⟨A, C, b, b', e, _, h1, h2, _⟩ := tagged_insP_hid (n := 256) (p := q) (v := w) (f := f) (g := g) hnb (pre := fun _ => true) hsh
  have h3 : (leaves (addKey nb st ch x p v)).length = (leaves (node st ch)).length + 1 := by
    obtain ⟨A, B, h⟩ := leaves_upd ch (hnb x 0)
    have h4 := h st empty
    rw [← hch, upd_self] at h4
    rw [addKey, h, h4, hch]
    simp [leaves]; omega
  rw [← tagged_snd (nb := nb) _ 0 (fun _ => true), h1] at h3
  rw [size_eq_length, ← tagged_snd (nb := nb) _ 0 (fun _ => true), h2]
  simpa using h3

/-- Where no key has the first nibble of `x`, the root has a free place. -/
theorem free_place (hnb : ∀ k d, nb k d < 16) (hw : WF nb (node st ch) 0) (hc : CanonRoot (node st ch)) (hfr : ∀ e ∈ leaves (node st ch), nb e.1 0 ≠ nb x 0) :
    ch (nb x 0) = empty := by
  have hi := hnb x 0
  have h1 := (hw.2 _ hi).1
  have h2 := hc.2 _ hi
  have h3 : ∀ e, e ∉ leaves (ch (nb x 0)) := fun e he => hfr e (mem_leaves_node.2 ⟨_, hi, he⟩) (h1 e he)
  generalize ch (nb x 0) = u at *
  cases u with
  | empty => rfl
  | leaf a b c => exact absurd (by simp [leaves]) (h3 (a, b, c))
  | node st' ch' =>
    have h4 := h2.1.2
    rw [List.eq_nil_iff_forall_not_mem.2 h3] at h4
    simp at h4

end

section
variable {sum : Maphash} {sd : Seed} {x k : IntKey}

/-- C100 after any history of an `IntSet` with keys from 0 to `2^32 - 1`, if none of the elements has the first nibble of `x`: of the elements and the two keys, `x` and `k`
are missing, and all others are found, but for phantoms. -/
theorem C100_IntSet_after {ops : List (SOp IntKey)} (hn : SEachNew (byteStream sum sd intbytes) false (IntSmall (byteStream sum sd intbytes)) [] ops)
    (hS : LastApart (byteStream sum sd intbytes) (fun y => y ∈ elemsAfterX (byteStream sum sd intbytes) false [] ops ∨ y = x ∨ y = k ∨ Phantom y))
    (hfr : ∀ y ∈ elemsAfterX (byteStream sum sd intbytes) false [] ops, nibble (byteStream sum sd intbytes) y 0 ≠ nibble (byteStream sum sd intbytes) x 0)
    (hne : k ≠ x) (hx : ¬ Phantom x) (hk : ¬ Phantom k)
    (h0 : nibble (byteStream sum sd intbytes) k 0 = nibble (byteStream sum sd intbytes) x 0)
    (h1 : nibble (byteStream sum sd intbytes) k 1 = nibble (byteStream sum sd intbytes) x 1)
    (hb : (upper x).getLsbD (nibble (byteStream sum sd intbytes) k 1) = true) {fuel : Nat} (hf : 256 ≤ fuel) (s : St IntKey Unit) :
    ∃ os s₁ m s₂ s₃, (IntSet sum).session fuel sd ops s = .ok ((some s.next, os), s₁) ∧ SRun [] ops os m ∧
      (IntSet sum).exec fuel (some s.next) (.add x) s₁ = .ok (.unit, s₂) ∧ (IntSet sum).exec fuel (some s.next) (.add k) s₂ = .ok (.unit, s₃) ∧
      (∀ y, ¬ Phantom y → (IntSet sum).exec fuel (some s.next) (.has y) s₃ = .ok (.bool (decide (y ∈ m)), s₃)) ∧ x ∉ m ∧ k ∉ m ∧
      (IntSet sum).exec fuel (some s.next) .len s₃ = .ok (.num (BitVec.ofNat 64 (m.length + 2)), s₃) := by
  have ok := IntSet_ok32 sum sd
  have hnew := fun y => addIns_new (sum := sum) (sd := sd) y
  have hsep := sepLast_of hS
  obtain ⟨os, s1, t, F, e0, hi, m, hr, hm⟩ := set_session ok hf ops s hn
  have hks : ∀ y, y ∈ elemsAfterX (byteStream sum sd intbytes) false [] ops ↔ y ∈ m := fun y => (hr.elemsAfterX y).symm
  generalize hE : elemsAfterX (byteStream sum sd intbytes) false [] ops = E at *
  generalize hH : byteStream sum sd intbytes = H at *
  have hxm : x ∉ m := fun h => hfr x ((hks x).2 h) rfl
  have hkm : k ∉ m := fun h => hfr k ((hks k).2 h) h0
  rw [← nbOf_eq_nibble, ← nbOf_eq_nibble] at h0 h1
  rw [← nbOf_eq_nibble, ← int_upper .bare sum] at hb
  have hlm : ∀ e ∈ leaves t, e.1 ∈ E := fun e he => (hks _).2 (hm.mem_iff.2 (List.mem_map.2 ⟨e, he, rfl⟩))
  have hfm : ∀ y, (find (nbOf H) y t 0).isSome = decide (y ∈ m) := by
    intro y
    have := find_none_iff hi y
    rw [← absS_eq, ← hm.mem_iff] at this
    cases hfd : find (nbOf H) y t 0 with
    | none => simp [this.1 hfd]
    | some e =>
      have : y ∈ m := Classical.byContradiction fun h => by rw [this.2 h] at hfd; cases hfd
      simp [this]
  have hlen : (leaves t).length = m.length := by rw [hm.length_eq, absS, List.length_map]
  have hadd : ∀ {h y s s'}, Amt.upsert (IntSet sum).cfg h fuel y ((IntSet sum).addI y) s = .ok ((), s') → (IntSet sum).exec fuel (some h) (.add y) s = .ok (.unit, s') := by
    intro h y s s' e
    have : (IntSet sum).Add fuel (some h) y s = .ok ((), s') := by rw [SetImpl.Add, deref, pure_bind_M, e]
    rw [SetImpl.exec, bind_ok this]; rfl
  have hph : ∀ k' x' d ph, PhOf (IntSet sum).cfg (nbOf H) k' x' d ph → ph ∈ E ∨ ph = x ∨ ph = k ∨ Phantom ph := fun k' x' d ph h =>
    Or.inr (Or.inr (Or.inr (phantom_of (st := .bare) (sum := sum) (by nofun) h)))
  have i0 : PInv (IntSet sum).cfg sd (fun y => y ∈ E ∨ y = x ∨ y = k ∨ Phantom y) 0 s1 s.next t F :=
    ⟨hi.rep, hi.seed, hi.node, hi.ht, fun e he => Or.inl (hlm e he), hi.len⟩
  have hfx : find (nbOf H) x t 0 = none := (find_none_iff hi x).2 (by rw [← absS_eq, ← hm.mem_iff]; exact hxm)
  have hwf := hi.wf
  have hcn := hi.canon trivial
  cases t with
  | empty => exact hcn.elim
  | leaf => exact hcn.elim
  | node st ch =>
    have hemp : ch (nbOf H x 0) = empty := free_place (nbOf_lt H) hwf hcn fun e he => by rw [nbOf_eq_nibble, nbOf_eq_nibble]; exact hfr _ (hlm e he)
    have hsl : slot (nbOf H) x (node st ch) 0 = none := by rw [slot, hemp]; rfl
    rcases i0.upsert_new ok.laws (hnew x) rfl (int_words .bare sum) hsep (Or.inr (Or.inl rfl)) hfx hf hph with
      ⟨p, s2, F1, e1, _, _, _, i1, _⟩ | ⟨_, _, _, _, _, _, ⟨e, he, _⟩, _⟩ | ⟨e, he, _⟩
    · rw [insP, hemp] at i1
      have i1 : PInv (IntSet sum).cfg sd (fun y => y ∈ E ∨ y = x ∨ y = k ∨ Phantom y) 0 s2 s.next (addKey (nbOf H) st ch x p ()) F1 := i1
      have hsh : Shadows (nbOf H) (IntSet sum).cfg.encT k (addKey (nbOf H) st ch x p ()) 0 :=
        ⟨_, addKey_slot h0, hne, by rw [addKey_lev h0]; exact h1, by rw [addKey_lev h0]; exact hb⟩
      rcases i1.upsert_new ok.laws (hnew k) rfl (int_words .bare sum) hsep (Or.inr (Or.inr (Or.inl rfl))) (addKey_find hne h0) hf hph with
        ⟨_, _, _, _, g, _⟩ | ⟨ph, A, w, s3, F2, e2, _, _, _, g, i2, _⟩ | ⟨e, _, _, g, _⟩
      · exact absurd hsh g
      · have hP := phantom_of (st := .bare) (sum := sum) (by nofun) (g _ (addKey_slot h0))
        refine ⟨os, s1, m, s2, s3, e0, hr.mono (fun _ _ _ _ => SStepX.toStep), hadd e1, hadd e2, fun y hy => ?_, hxm, hkm, ?_⟩
        · obtain ⟨o, a1, a2⟩ := i2.lookup_has ok.laws hf y
          rw [addKey_hid (sb := (IntSet sum).cfg.encT) (g := (ph, Ptr.blk A, w)) (y := y) hne h0 h1 hb (fun e => hy (e ▸ hP))] at a2
          have : (IntSet sum).Has fuel (some s.next) y s3 = .ok (decide (y ∈ m), s3) := by
            rw [SetImpl.Has, deref, pure_bind_M, bind_ok a1, a2, ← hfm y]
            split
            · rename_i hyk
              rw [hfm y, decide_eq_false fun hym => hfr y ((hks y).2 hym) (by rw [← nbOf_eq_nibble, ← nbOf_eq_nibble, hyk, h0])]
              rfl
            · rfl
          rw [SetImpl.exec, bind_ok this]; rfl
        · have := i2.len
          rw [addKey_size (nbOf_lt H) hemp hsh, hlen] at this
          exact congrArg (fun n => Except.ok (SOut.num n, s3)) this
      · rw [addKey_lev h0] at g; omega
    · rw [hsl] at he; cases he
    · rw [hsl] at he; cases he

end

/-! ### The share of the hash functions -/

/-- The two digests agree in their first two nibbles. -/
def twoShared (v : List (BitVec 64)) : Bool := decide ((v.getD 0 0#64).toNat % 256 = (v.getD 1 0#64).toNat % 256)

theorem countP_digests_256 (x : BitVec 64) : digests.countP (fun y => decide (x.toNat % 256 = y.toNat % 256)) = 2 ^ 56 := by
  rw [digests, List.countP_map, ← countP_mod (Nat.mod_lt x.toNat (show 0 < 256 by decide)) (2 ^ 56)]
  rw [show 256 * 2 ^ 56 = 2 ^ 64 from rfl]
  apply List.countP_congr
  intro i hi
  have hi := List.mem_range.1 hi
  simp only [Function.comp, BitVec.toNat_ofNat, Nat.mod_eq_of_lt hi, decide_eq_true_eq]
  exact eq_comm

theorem twoShared_count : 256 * (vecs digests 2).countP twoShared = (vecs digests 2).length := by
  have h : (vecs digests 2).countP twoShared = (digests.map fun x => digests.countP fun y => decide (x.toNat % 256 = y.toNat % 256)).sum :=
    countP_pairs digests 0#64 (fun x y => decide (x.toNat % 256 = y.toNat % 256))
  have h2 : (digests.map fun x => digests.countP fun y => decide (x.toNat % 256 = y.toNat % 256)) = digests.map fun _ => 2 ^ 56 :=
    List.map_congr_left fun x _ => countP_digests_256 x
  rw [h, h2, sum_const, length_digests, length_vecs, length_digests]

/-- The hash function with the digests `v` of the keys `ks` for iteration 0, and the key itself for the others. -/
def onceHash (ks : List IntKey) (v : List (BitVec 64)) : Maphash := fun sd bs => if bs.length = 8 then tableHash (ks.map intbytes) v sd bs else toyHash sd bs

section
variable {sd : Seed} {x k : IntKey} {v : List (BitVec 64)}

theorem onceHash_first (ks : List IntKey) (y : IntKey) : byteStream (onceHash ks v) sd intbytes y 0 = v.getD ((ks.map intbytes).idxOf (intbytes y)) 0#64 := by
  simp [byteStream, onceHash, tableHash, intbytes]

theorem onceHash_last (ks : List IntKey) (y : IntKey) : byteStream (onceHash ks v) sd intbytes y 15 = y := by
  have h : byteStream (onceHash ks v) sd intbytes y 15 = byteStream toyHash sd intbytes y 15 := by
    simp [byteStream, onceHash, intbytes, List.replicate]
  rw [h, toyHash_int]

theorem not_phantom_upper (hup : upper x = -1#32) : ¬ Phantom x := by
  rintro ⟨a, b, ha, hb, rfl⟩
  have : ∀ a b : Fin 16, upper (phantomOf a b) ≠ -1#32 := by decide +kernel
  exact this ⟨a, ha⟩ ⟨b, hb⟩ hup

/-- C100 for random hash functions: `x` is one of the integers from `-2^32` to `-1`.  For just one in 256 of the functions from the two keys to 64-bit digests both keys
are missing after they have been added, and for the others both are found; `Len` is 2 in any case. -/
theorem C100_random (hne : k ≠ x) (hup : upper x = -1#32) (hk : ¬ Phantom k) :
    ∃ lost : List (BitVec 64) → Bool, 256 * (allHashes ([x, k].map intbytes)).countP lost = (allHashes ([x, k].map intbytes)).length ∧
      ∀ v ∈ allHashes ([x, k].map intbytes), ∀ fuel, 256 ≤ fuel → ∀ s : St IntKey Unit,
        ∃ s', (IntSet (onceHash [x, k] v)).session fuel sd [.add x, .has x, .add k, .has x, .has k, .len] s =
          .ok ((some s.next, [.unit, .bool true, .unit, .bool (!lost v), .bool (!lost v), .num 2#64]), s') := by
  refine ⟨twoShared, twoShared_count, fun v _ fuel hf s => ?_⟩
  have hx : ¬ Phantom x := not_phantom_upper hup
  have hkx : intbytes k ≠ intbytes x := fun e => hne (C28_injective e)
  have ex : byteStream (onceHash [x, k] v) sd intbytes x 0 = v.getD 0 0#64 := by rw [onceHash_first]; simp
  have ek : byteStream (onceHash [x, k] v) sd intbytes k 0 = v.getD 1 0#64 := by
    rw [onceHash_first, List.map_cons, List.idxOf_cons, beq_false_of_ne (Ne.symm hkx)]; simp
  have n0 : ∀ y, nibble (byteStream (onceHash [x, k] v) sd intbytes) y 0 = (byteStream (onceHash [x, k] v) sd intbytes y 0).toNat % 16 := fun y => by simp [nibble]
  have n1 : ∀ y, nibble (byteStream (onceHash [x, k] v) sd intbytes) y 1 = (byteStream (onceHash [x, k] v) sd intbytes y 0).toNat / 16 % 16 := fun y => by simp [nibble]
  cases hl : twoShared v with
  | true =>
    have hl := of_decide_eq_true hl
    obtain ⟨s', e⟩ := C100_IntSet (sum := onceHash [x, k] v) (sd := sd) (x := x) (k := k) (fun a b _ _ hab => by rw [onceHash_last, onceHash_last]; exact hab) hne hx hk
      (by rw [n0, n0, ex, ek]; omega) (by rw [n1, n1, ex, ek]; omega) (by
        rw [hup, n1]
        generalize (byteStream (onceHash [x, k] v) sd intbytes k 0).toNat / 16 = q
        have hq : q % 16 < 16 := Nat.mod_lt _ (by decide)
        generalize q % 16 = r at hq ⊢
        have : ∀ r : Fin 16, (-1#32).getLsbD r = true := by decide
        exact this ⟨r, hq⟩) hf s
    exact ⟨s', e⟩
  | false =>
    have hl : ¬ _ := of_decide_eq_false hl
    have hcl : clash (byteStream (onceHash [x, k] v) sd intbytes) 2 [x, k] = false := by
      simp only [clash, List.any_cons, List.any_nil, Bool.or_false, Bool.and_eq_false_iff, decide_eq_false_iff_not]
      refine Or.inr fun h => hl ?_
      have a := h 0 (by decide)
      have b := h 1 (by decide)
      rw [n0, n0, ex, ek] at a
      rw [n1, n1, ex, ek] at b
      omega
    obtain ⟨os, s', m, e, hr⟩ := C09_IntSet_partial (onceHash [x, k] v) sd [.add x, .has x, .add k, .has x, .has k, .len]
      (SEachNew.of_pairs (S := fun y => y ∈ [x, k]) (fun ks' y h1 h2 h3 => intSafe_of_clash hcl h1 h2 h3) (by simp) (by
        rintro y ⟨op, h1, h2⟩
        simp only [List.mem_cons, List.not_mem_nil, or_false] at h1
        rcases h1 with rfl | rfl | rfl | rfl | rfl | rfl <;> simp [SOp.stores] at h2 <;> simp [h2])) hf s
    refine ⟨s', e.trans ?_⟩
    have : os = [.unit, .bool true, .unit, .bool true, .bool true, .num 2#64] := by
      obtain ⟨_, _, _, rfl, ⟨rfl, rfl⟩, _, _, _, rfl, ⟨rfl, rfl⟩, _, _, _, rfl, ⟨rfl, rfl⟩, _, _, _, rfl, ⟨rfl, rfl⟩, _, _, _, rfl, ⟨rfl, rfl⟩, _, _, _, rfl, ⟨rfl, rfl⟩, rfl, rfl⟩ := hr
      simp [hne, Ne.symm hne]
    rw [this]; rfl

end

/-! ### Instances -/

theorem not_phantom_255 : ¬ Phantom 255#64 := by
  rintro ⟨a, b, ha, hb, e⟩
  have : ∀ a b : Fin 16, 255#64 ≠ phantomOf a b := by decide +kernel
  exact this ⟨a, ha⟩ ⟨b, hb⟩ e

example := C100_IntSet (sum := toyHash) (sd := 0#64) (x := -1#64) (k := 255#64) (fun a b _ _ hab => by rw [toyHash_int, toyHash_int]; exact hab) (by decide)
  (not_phantom_upper (by decide)) not_phantom_255 (by decide +kernel) (by decide +kernel) (by decide +kernel) (Nat.le_refl 256) St.init

example := C100_IntMap (V := Nat) (sum := toyHash) (sd := 0#64) (x := -1#64) (k := 255#64) (fun a b _ _ hab => by rw [toyHash_int, toyHash_int]; exact hab) (by decide)
  (not_phantom_upper (by decide)) not_phantom_255 (by decide +kernel) (by decide +kernel) (by decide +kernel) 7 8 (Nat.le_refl 256) St.init

theorem swallow_elems : elemsAfterX (byteStream toyHash 0#64 intbytes) false [] (exOpsS intKey) = [0x11#64, 0x21#64, 0x02#64, 0x01#64] := by
  decide +kernel

example := C100_IntSet_after (sum := toyHash) (sd := 0#64) (x := -1#64) (k := 255#64) exOpsS_int32 (fun a b _ _ hab => by rw [toyHash_int, toyHash_int]; exact hab)
  (by rw [swallow_elems]; simp only [List.forall_mem_cons, nibble, toyHash_int]; simp) (by decide)
  (not_phantom_upper (by decide)) not_phantom_255 (by decide +kernel) (by decide +kernel) (by decide +kernel) (Nat.le_refl 256) St.init

example := C100_random (sd := 0#64) (x := -1#64) (k := 255#64) (by decide) (by decide) not_phantom_255

end Amt
