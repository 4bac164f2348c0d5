/-
Callbacks of `All` on a set that use another set: C44 and C45 for sets.
-/
import Verif.PropsCallback

set_option linter.unusedVariables false

namespace Amt
open T Spec

section
variable {K U : Type} [DecidableEq K]

/-- A new set and the calls on it leave everything else alone. -/
theorem set_session_apart {I : SetImpl K} {sd : Seed} {H : K → Nat → BitVec 64} {P : List K → K → Prop} {cl : Prop}
    {inv : Bool} {okA : K → K → Nat → Prop} {fuel : Nat} (ok : SetOk I sd H P cl inv okA) (hf : 256 ≤ fuel)
    (ops : List (SOp K)) (s : St K Unit) (hm : SEachNew H inv P [] ops) :
    ∃ os s' t F, I.session fuel sd ops s = .ok ((some s.next, os), s') ∧ Inv I.cfg sd H cl s' s.next t F ∧
      (∃ m', SRunBy (SStepX H cl inv) [] ops os m' ∧ m'.Perm (absS t)) ∧
      (∀ a, a < s.next → s'.mem a = s.mem a ∧ s'.roots a = s.roots a) ∧ s.next ≤ s'.next ∧ (∀ a, F a → s.next < a) := by
  obtain ⟨s1, e1, i1, f1, n1, r1⟩ := Inv.new I.cfg sd H cl s
  obtain ⟨os, s2, t2, F2, e2, i2, c2, st⟩ := set_run ok hf ops (ks := []) i1 (by rw [absS_new]; simp) hm
  rw [absS_new] at st
  refine ⟨os, s2, t2, F2, ?_, i2, st, fun a ha => ?_, by have := c2.next; omega, fun a ha => ?_⟩
  · rw [SetImpl.session, SetImpl.New, bind_ok e1, bind_ok e2]
    rfl
  · rw [c2.frame a (by omega) (by omega) (by omega), c2.roots a (by omega), f1 a ha, r1 a (by omega)]
    exact ⟨rfl, rfl⟩
  · rcases c2.foot a ha with h | h <;> omega

/-- A callback program that calls the set and another one. -/
abbrev _root_.Spec.SDuoBody (K R : Type) := Body (SOp K) (SOut K) (SOp K) (SOut K) R

variable {I I' : SetImpl K} {sd sd' : Seed} {H H' : K → Nat → BitVec 64} {P P' : List K → K → Prop}
  {inv inv' : Bool} {ex ex' : Prop} {fuel : Nat}

/-- A loop over the elements of `m`, with calls on it and on another set with the elements `n`. -/
abbrev _root_.Spec.SDuoLoop (H H' : K → Nat → BitVec 64) (ex ex' : Prop) (inv inv' : Bool)
    (body : U → K → SDuoBody K (U × Bool)) (u : U) (m n : List K) (u' : U) (m' n' : List K) : Prop :=
  SRunLoop (SStepUp H ex inv) (SStepUp H' ex' inv') body m u m n u' m' n'

/-- No call in the loop adds an element to or removes one from the set that is being iterated over; those added to the
other one satisfy `P'`. -/
abbrev _root_.Spec.SDuoSafe (H H' : K → Nat → BitVec 64) (ex ex' : Prop) (inv inv' : Bool) (P' : List K → K → Prop)
    (body : U → K → SDuoBody K (U × Bool)) (u : U) (m n : List K) : Prop :=
  SSafeLoop (SStepUp H ex inv) (SStepUp H' ex' inv') (SOp.KeepsElems H inv)
    (fun n op => ∀ k ∈ op.stores, k ∉ n → P' n k) body m u m n

/-- C44, sets: after any covered histories of two sets, `All` on the first with a callback that calls both, the second
one in every way, calls it once for every element of the first in order of nibbles until it returns false; in each call,
and afterwards, both sets have the elements that the calls so far have left. -/
theorem C44_set (hc : SetContainer I sd H P inv ex) (hc' : SetContainer I' sd' H' P' inv' ex') {ops ops' : List (SOp K)}
    (h : SEachNew H inv P [] ops) (h' : SEachNew H' inv' P' [] ops') (hf : 256 ≤ fuel) (s : St K Unit) :
    ∃ hd hd' os os' s₁ s₂ m n, I.session fuel sd ops s = .ok ((hd, os), s₁) ∧ I'.session fuel sd' ops' s₁ = .ok ((hd', os'), s₂) ∧
      SRunBy (SStepX H ex inv) [] ops os m ∧ SRunBy (SStepX H' ex' inv') [] ops' os' n ∧
      ∀ (body : U → K → SDuoBody K (U × Bool)) (u : U),
        (∀ order order', order.Perm m → order'.Perm n → SDuoSafe H H' ex ex' inv inv' P' body u order order') →
        ∃ u' s₃ order order' m' n', I.AllWith fuel hd (I.callback fuel hd (I'.exec fuel hd') body) u s₂ = .ok (u', s₃) ∧
          order.Perm m ∧ order'.Perm n ∧ order.Pairwise (Before H) ∧
          SDuoLoop H H' ex ex' inv inv' body u order order' u' m' n' ∧
          ∀ next next', SEachNew H inv P m' next → SEachNew H' inv' P' n' next' → ∃ out s₄ out' s₅ m'' n'',
            I.run fuel hd next s₃ = .ok (out, s₄) ∧ I'.run fuel hd' next' s₄ = .ok (out', s₅) ∧
            SRunBy (SStepX H ex inv) m' next out m'' ∧ SRunBy (SStepX H' ex' inv') n' next' out' n'' := by
  obtain ⟨os, s₁, t, F, m, e1, hi, e3, e4⟩ := hc.session h hf s
  obtain ⟨okA, ok⟩ := hc.ok
  obtain ⟨okA', ok'⟩ := hc'.ok
  obtain ⟨os', s₂, t', F', g1, gi, ⟨n, g3, g4⟩, gf, gn, gF⟩ := set_session_apart ok' hf ops' s₁ h'
  have hi2 : Inv I.cfg sd H ex s₂ s.next t F := hi.frame (gf _ hi.bound.1).1 (fun a ha => (gf a (hi.bound.2.2 a ha)).1)
    (gf _ hi.bound.1).2 gn
  refine ⟨_, _, os, os', s₁, s₂, m, n, e1, g1, e3, g3, fun body u hs => ?_⟩
  obtain ⟨u', s₃, t₃, F₃, n', G', q1, q2, ⟨t₃', F₃', q3, q4, q5⟩, q6, q7⟩ := set_AllWith ok hf (Side.set ok' hf s₁.next) body
    (G := fun a => a = s₁.next ∨ F' a) (b := absS t') u hi2 ⟨t', F', gi, rfl, fun _ => Iff.rfl⟩ (fun a ha => by
      rcases ha with rfl | ha
      · exact ⟨fun e => absurd hi.bound.1 (by omega), fun hF => absurd (hi.bound.2.2 _ hF) (by omega)⟩
      · have := gF a ha
        exact ⟨fun e => absurd hi.bound.1 (by omega), fun hF => absurd (hi.bound.2.2 _ hF) (by omega)⟩)
    (hs _ _ e4.symm g4.symm)
  refine ⟨u', s₃, absS t, absS t', absS t₃, n', q1, e4.symm, g4.symm, List.pairwise_map.2 (leaves_before hi.wf), q7,
    fun next next' hn hn' => ?_⟩
  subst q4
  obtain ⟨out, s₄, t₄, F₄, r1, _, r3, ⟨m'', r4, _⟩⟩ := set_run ok hf next (ks := absS t₃) q2 (fun _ => Iff.rfl) hn
  have hG : ∀ a, a = s₁.next ∨ F₃' a → s₄.mem a = s₃.mem a ∧ s₄.roots a = s₃.roots a := fun a ha => by
    have hx := q6 a ((q5 a).2 ha)
    have hb : a < s₃.next := by
      rcases ha with rfl | ha
      · exact q3.bound.1
      · exact q3.bound.2.2 a ha
    exact ⟨r3.frame a hb hx.1 hx.2, r3.roots a hx.1⟩
  have q3' := q3.frame (hG _ (Or.inl rfl)).1 (fun a ha => (hG a (Or.inr ha)).1) (hG _ (Or.inl rfl)).2 r3.next
  obtain ⟨out', s₅, t₅, F₅, w1, _, _, ⟨n'', w4, _⟩⟩ := set_run ok' hf next' (ks := absS t₃') q3' (fun _ => Iff.rfl) hn'
  exact ⟨out, s₄, out', s₅, m'', n'', r1, w1, r4, w4⟩

/-- `func(key K) bool { dst.Add(key); return true }`. -/
def _root_.Spec.addBody (_ : Unit) (k : K) : SDuoBody K (Unit × Bool) := .other (.add k) fun _ => .ret ((), true)

theorem add_safe (hP : ∀ ks ks' k, (∀ x, x ∈ ks ↔ x ∈ ks') → P' ks k → P' ks' k) (m L : List K) :
    ∀ {ks n : List K}, (∀ x, x ∈ ks ↔ x ∈ n) → SEachNew H' inv' P' ks (L.map .add) →
    SSafeLoop (SStepUp H ex inv) (SStepUp H' ex' inv') (SOp.KeepsElems H inv)
      (fun n op => ∀ k ∈ op.stores, k ∉ n → P' n k) addBody L () m n := by
  induction L with
  | nil => intro ks n _ _; trivial
  | cons e L ih =>
    intro ks n hks hn
    refine ⟨fun k hk hk' => hP _ _ _ hks (hn.1 k hk (fun h => hk' ((hks k).1 h))), fun y n₁ hy => fun _ => ?_⟩
    obtain ⟨n₂, h2, hp⟩ := hy
    refine ih (fun x => ?_) hn.2
    obtain ⟨_, rfl⟩ := h2
    rw [← hp.mem_iff]
    have := hks e
    have := hks x
    simp only [SOp.afterX, SOp.after]
    split <;> split <;> simp_all

theorem add_run (m L : List K) :
    ∀ {n : List K} {u' : Unit} {m' n' : List K}, n.Nodup →
    SRunLoop (SStepUp H ex inv) (SStepUp H' ex' inv') addBody L () m n u' m' n' → m' = m ∧ n'.Nodup ∧ ∀ x, x ∈ n' ↔ x ∈ L ∨ x ∈ n := by
  induction L with
  | nil =>
    rintro n u' m' n' hn ⟨_, rfl, rfl⟩
    exact ⟨rfl, hn, fun x => by simp⟩
  | cons e L ih =>
    rintro n u' m' n' hn ⟨r, m₁, b₁, hr, hi⟩
    obtain ⟨y, n₁, ⟨n₂, h2, hp⟩, rfl, rfl, rfl⟩ := hr
    obtain ⟨_, rfl⟩ := h2
    have hn2 : (if e ∈ n then n else e :: n).Nodup := by
      split
      · exact hn
      · rename_i hx; exact List.nodup_cons.2 ⟨hx, hn⟩
    obtain ⟨g1, g2, g3⟩ := ih (hp.nodup_iff.1 hn2) hi
    refine ⟨g1, g2, fun x => ?_⟩
    rw [g3, ← hp.mem_iff]
    split
    · rename_i hx
      simp only [List.mem_cons]
      exact ⟨fun h => h.elim (fun h => .inl (.inr h)) .inr, fun h => h.elim (fun h => h.elim (fun h => .inr (h ▸ hx)) .inl) .inr⟩
    · simp only [List.mem_cons]
      exact ⟨fun h => h.elim (fun h => .inl (.inr h)) (fun h => h.elim (fun h => .inl (.inl h)) .inr),
        fun h => h.elim (fun h => h.elim (fun h => .inr (.inl h)) .inl) (fun h => .inr (.inr h))⟩

/-- C45, sets: `src.All(func(key K) bool { dst.Add(key); return true })` adds the elements of `src` to `dst`,
and leaves `src` as it is - if `dst` is covered for them in every order. -/
theorem C45_union (hc : SetContainer I sd H P inv ex) (hc' : SetContainer I' sd' H' P' inv' ex')
    {ops ops' : List (SOp K)} (h : SEachNew H inv P [] ops) (h' : SEachNew H' inv' P' [] ops') (hf : 256 ≤ fuel) (s : St K Unit) :
    ∃ hd hd' os os' s₁ s₂ m n, I.session fuel sd ops s = .ok ((hd, os), s₁) ∧ I'.session fuel sd' ops' s₁ = .ok ((hd', os'), s₂) ∧
      SRunBy (SStepX H ex inv) [] ops os m ∧ SRunBy (SStepX H' ex' inv') [] ops' os' n ∧
      ((∀ order : List K, order.Perm m → SEachNew H' inv' P' n (order.map .add)) →
        ∃ s₃ m' n', I.AllWith fuel hd (I.callback fuel hd (I'.exec fuel hd') addBody) () s₂ = .ok ((), s₃) ∧
          m'.Perm m ∧ n'.Nodup ∧ (∀ x, x ∈ n' ↔ x ∈ m ∨ x ∈ n) ∧
          ∀ next next', SEachNew H inv P m' next → SEachNew H' inv' P' n' next' → ∃ out s₄ out' s₅ m'' n'',
            I.run fuel hd next s₃ = .ok (out, s₄) ∧ I'.run fuel hd' next' s₄ = .ok (out', s₅) ∧
            SRunBy (SStepX H ex inv) m' next out m'' ∧ SRunBy (SStepX H' ex' inv') n' next' out' n'') := by
  obtain ⟨hd, hd', os, os', s₁, s₂, m, n, e1, e2, e3, e4, e5⟩ := C44_set (U := Unit) hc hc' h h' hf s
  refine ⟨hd, hd', os, os', s₁, s₂, m, n, e1, e2, e3, e4, fun hs => ?_⟩
  obtain ⟨okA', ok'⟩ := hc'.ok
  have hn : n.Nodup := e4.nodup (by simp)
  obtain ⟨u', s₃, order, order', m', n', g1, g2, g3, g4, g5, g6⟩ := e5 addBody () (fun order order' ho ho' =>
    add_safe ok'.congr order order (fun x => (ho'.mem_iff (a := x)).symm) (hs order ho))
  obtain ⟨q1, q2, q3⟩ := add_run order order (g3.nodup_iff.2 hn) g5
  subst q1
  exact ⟨s₃, m', n', g1, g2, q2, fun x => by rw [q3, g3.mem_iff, g2.mem_iff], g6⟩

/-- C45, sets, for a destination that hashes bytes: it is enough that all the keys are told apart by their first 241 nibbles. -/
theorem C45_union_bytes (hc : SetContainer I sd H P inv ex) (hc' : SetContainer I' sd' H' (ByteFits H') inv' ex')
    {ops ops' : List (SOp K)} (h : SEachNew H inv P [] ops) (hsep : Separated H' (fun k => SStores ops k ∨ SStores ops' k))
    (hf : 256 ≤ fuel) (s : St K Unit) :
    ∃ hd hd' os os' s₁ s₂ m n, I.session fuel sd ops s = .ok ((hd, os), s₁) ∧ I'.session fuel sd' ops' s₁ = .ok ((hd', os'), s₂) ∧
      SRunBy (SStepX H ex inv) [] ops os m ∧ SRunBy (SStepX H' ex' inv') [] ops' os' n ∧
      ∃ s₃ m' n', I.AllWith fuel hd (I.callback fuel hd (I'.exec fuel hd') addBody) () s₂ = .ok ((), s₃) ∧
        m'.Perm m ∧ n'.Nodup ∧ (∀ x, x ∈ n' ↔ x ∈ m ∨ x ∈ n) ∧
        ∀ next next', SEachNew H inv P m' next → SEachNew H' inv' (ByteFits H') n' next' → ∃ out s₄ out' s₅ m'' n'',
          I.run fuel hd next s₃ = .ok (out, s₄) ∧ I'.run fuel hd' next' s₄ = .ok (out', s₅) ∧
          SRunBy (SStepX H ex inv) m' next out m'' ∧ SRunBy (SStepX H' ex' inv') n' next' out' n'' := by
  have h' : SEachNew H' inv' (ByteFits H') [] ops' := Separated.seachNew fun a b ha hb => hsep a b (Or.inr ha) (Or.inr hb)
  obtain ⟨hd, hd', os, os', s₁, s₂, m, n, e1, e2, e3, e4, e5⟩ := C45_union hc hc' h h' hf s
  have key : ∀ {H : K → Nat → BitVec 64} {inv : Bool} {l : List (SOp K)} {k}, k ∈ elemsAfterX H inv [] l → SStores l k := by
    intro H inv l k
    suffices ∀ ks : List K, k ∈ elemsAfterX H inv ks l → k ∈ ks ∨ SStores l k from fun h => (this [] h).resolve_left (by simp)
    induction l with
    | nil => exact fun ks h => Or.inl h
    | cons op l ih =>
      intro ks h
      rcases ih (op.afterX H inv ks) h with h | ⟨o, h1, h2⟩
      · rcases mem_safterX_stores h with h | h
        · exact Or.inl h
        · exact Or.inr ⟨op, by simp, h⟩
      · exact Or.inr ⟨o, by simp [h1], h2⟩
  refine ⟨hd, hd', os, os', s₁, s₂, m, n, e1, e2, e3, e4, e5 fun order ho => ?_⟩
  refine SEachNew.of_pairs (S := fun k => SStores ops k ∨ SStores ops' k) (fun ks k h1 h2 h3 => ByteFits.of_near fun k' hk' =>
    hsep k k' h2 (h1 k' hk') fun e => h3 (e ▸ hk')) (fun k hk => Or.inr (key ((e4.elemsAfterX k).1 hk))) ?_
  rintro k ⟨op, h1, h2⟩
  obtain ⟨e, he, rfl⟩ := List.mem_map.1 h1
  rw [SOp.stores, List.mem_singleton] at h2
  subst h2
  exact Or.inl (key ((e3.elemsAfterX k).1 (ho.mem_iff.1 he)))

end

/-! ### Examples -/

example := C44_set (U := Nat) (SetContainer.string toyHash 0#64) (SetContainer.bytes toyHash 5#64) exOpsS_str
  (ops' := [.add (strKey 0x33)]) ⟨by decide +kernel, trivial⟩ (Nat.le_refl 256) St.init

/-- Adding the elements of a string set to a byte set that has an element of its own, and one in common. -/
example := C45_union_bytes (SetContainer.string toyHash 0#64) (SetContainer.bytes toyHash 0#64)
  exOpsS_str (ops' := [.add (strKey 0x33), .add (strKey 0x01)]) (by
    have hf : ∀ k, SStores (exOpsS strKey) k ∨ SStores [.add (strKey 0x33), .add (strKey 0x01)] k →
        k ∈ [strKey 0x01, strKey 0x11, strKey 0x02, strKey 0x21, strKey 0x33] := by
      rintro k (⟨op, h1, h2⟩ | ⟨op, h1, h2⟩)
      · revert h2; revert op; simp only [exOpsS, List.forall_mem_cons]; simp +contextual [SOp.stores]
      · revert h2; revert op; simp only [List.forall_mem_cons]; simp +contextual [SOp.stores]
    have hd : ∀ a ∈ [strKey 0x01, strKey 0x11, strKey 0x02, strKey 0x21, strKey 0x33], ∀ b ∈ [strKey 0x01, strKey 0x11,
        strKey 0x02, strKey 0x21, strKey 0x33], a ≠ b → nibble (byteStream toyHash 0#64 id) a 0 ≠ nibble (byteStream toyHash 0#64 id) b 0 ∨
        nibble (byteStream toyHash 0#64 id) a 1 ≠ nibble (byteStream toyHash 0#64 id) b 1 := by decide +kernel
    intro a b ha hb hab
    rcases hd a (hf a ha) b (hf b hb) hab with h | h
    · exact ⟨0, by omega, h⟩
    · exact ⟨1, by omega, h⟩) (Nat.le_refl 256) St.init

end Amt
