/-
Callbacks that call the container they are iterating over, and other containers (C43 - C45).
-/
import Verif.Callback

set_option linter.unusedVariables false
set_option linter.unusedSectionVars false

namespace Spec

/-! ### Callback programs -/

/-- What a callback may do when it is called: calls on the container that is being iterated over, calls on something
else, and, in the end, returning `r`.  Each step may depend on everything returned so far. -/
inductive Body (Op Out X Y R : Type) where
  | ret (r : R)
  | call (op : Op) (k : Out → Body Op Out X Y R)
  | other (x : X) (k : Y → Body Op Out X Y R)

section
variable {Op Out X Y R A B : Type}

/-- Run a callback: `step` says what a call on the container may return and leave, `xstep` what a call on something
else may return and leave. -/
def RunBody (step : A → Op → Out → A → Prop) (xstep : B → X → Y → B → Prop) :
    Body Op Out X Y R → A → B → R → A → B → Prop
  | .ret r', a, b, r, a', b' => r = r' ∧ a' = a ∧ b' = b
  | .call op k, a, b, r, a', b' => ∃ o a₁, step a op o a₁ ∧ RunBody step xstep (k o) a₁ b r a' b'
  | .other x k, a, b, r, a', b' => ∃ y b₁, xstep b x y b₁ ∧ RunBody step xstep (k y) a b₁ r a' b'

/-- Every call on the container is allowed by `may` and every call on something else by `xmay`, when it is made;
and whatever the callback may return and leave satisfies `post`. -/
def SafeBody (step : A → Op → Out → A → Prop) (xstep : B → X → Y → B → Prop) (may : A → Op → Prop) (xmay : B → X → Prop)
    (post : R → A → B → Prop) : Body Op Out X Y R → A → B → Prop
  | .ret r, a, b => post r a b
  | .call op k, a, b => may a op ∧ ∀ o a₁, step a op o a₁ → SafeBody step xstep may xmay post (k o) a₁ b
  | .other x k, a, b => xmay b x ∧ ∀ y b₁, xstep b x y b₁ → SafeBody step xstep may xmay post (k y) a b₁

end

section
variable {K V U X Y B : Type} [DecidableEq K]

/-- The map after the callback assigned `w`, if anything, to the value of `k`, in any order of the entries. -/
def Assigned (m : FMap K V) (k : K) (w : Option V) (m' : FMap K V) : Prop :=
  match w with
  | none => m' = m
  | some v => (m.set k v).Perm m'

/-- A loop over the keys `ks`: for each, the callback is called with the value that the key has by then; what it
returns is its new state, what it assigns to the value in the end, and whether to go on. -/
def RunLoop (step : FMap K V → MOp K V → MOut K V → FMap K V → Prop) (xstep : B → X → Y → B → Prop)
    (body : U → K → V → Body (MOp K V) (MOut K V) X Y (U × Option V × Bool)) :
    List K → U → FMap K V → B → U → FMap K V → B → Prop
  | [], u, m, b, u', m', b' => u' = u ∧ m' = m ∧ b' = b
  | k :: ks, u, m, b, u', m', b' => ∃ v r m₁ b₁ m₂, m.get k = some v ∧ RunBody step xstep (body u k v) m b r m₁ b₁ ∧
      Assigned m₁ k r.2.1 m₂ ∧
      if r.2.2 = true then RunLoop step xstep body ks r.1 m₂ b₁ u' m' b' else u' = r.1 ∧ m' = m₂ ∧ b' = b₁

/-- Every call made in such a loop is allowed. -/
def SafeLoop (step : FMap K V → MOp K V → MOut K V → FMap K V → Prop) (xstep : B → X → Y → B → Prop)
    (may : FMap K V → MOp K V → Prop) (xmay : B → X → Prop)
    (body : U → K → V → Body (MOp K V) (MOut K V) X Y (U × Option V × Bool)) : List K → U → FMap K V → B → Prop
  | [], _, _, _ => True
  | k :: ks, u, m, b => ∀ v, m.get k = some v → SafeBody step xstep may xmay
      (fun r m₁ b₁ => r.2.2 = true → ∀ m₂, Assigned m₁ k r.2.1 m₂ → SafeLoop step xstep may xmay body ks r.1 m₂ b₁)
      (body u k v) m b

/-- The same for a set. -/
def SRunLoop (step : List K → SOp K → SOut K → List K → Prop) (xstep : B → X → Y → B → Prop)
    (body : U → K → Body (SOp K) (SOut K) X Y (U × Bool)) : List K → U → List K → B → U → List K → B → Prop
  | [], u, m, b, u', m', b' => u' = u ∧ m' = m ∧ b' = b
  | k :: ks, u, m, b, u', m', b' => ∃ r m₁ b₁, RunBody step xstep (body u k) m b r m₁ b₁ ∧
      if r.2 = true then SRunLoop step xstep body ks r.1 m₁ b₁ u' m' b' else u' = r.1 ∧ m' = m₁ ∧ b' = b₁

def SSafeLoop (step : List K → SOp K → SOut K → List K → Prop) (xstep : B → X → Y → B → Prop)
    (may : List K → SOp K → Prop) (xmay : B → X → Prop)
    (body : U → K → Body (SOp K) (SOut K) X Y (U × Bool)) : List K → U → List K → B → Prop
  | [], _, _, _ => True
  | k :: ks, u, m, b => SafeBody step xstep may xmay
      (fun r m₁ b₁ => r.2 = true → SSafeLoop step xstep may xmay body ks r.1 m₁ b₁) (body u k) m b

/-- A call on a map that neither adds nor removes a key. -/
def MOp.KeepsKeys (m : FMap K V) (op : MOp K V) : Prop := ∀ x, x ∈ op.after m.keys ↔ x ∈ m.keys

/-- A call on a set that neither adds nor removes an element. -/
def SOp.KeepsElems (H : K → Nat → BitVec 64) (inv : Bool) (m : List K) (op : SOp K) : Prop :=
  ∀ x, x ∈ op.afterX H inv m ↔ x ∈ m

end

end Spec

namespace Amt
open T Spec

/-! ### Calls that only change values -/

section
variable {K V α β : Type}

/-- Every link array and every stored key stays as it is. -/
def Soft (x : M K V α) : Prop := ∀ s a s', x s = .ok (a, s') → ∀ b, SameKey (s.mem b) (s'.mem b)

theorem Quiet.soft {x : M K V α} (h : Quiet x) : Soft x := fun s a s' e b => by rw [h s a s' e]; exact SameKey.refl _

theorem Soft.bind {x : M K V α} {f : α → M K V β} (h1 : Soft x) (h2 : ∀ a, Soft (f a)) : Soft (x >>= f) := by
  intro s b s' h
  rw [bind_run] at h
  cases hx : x s with
  | error e => rw [hx] at h; cases h
  | ok r =>
    rw [hx] at h
    exact fun a => (h1 s r.1 r.2 hx a).trans (h2 r.1 r.2 b s' h a)

theorem Soft.ite {p : Prop} [Decidable p] {x y : M K V α} (h1 : Soft x) (h2 : Soft y) : Soft (if p then x else y) := by
  split
  · exact h1
  · exact h2

theorem Soft.storeVal (p : Ptr) (v : V) : Soft (storeVal p v : M K V Unit) := by
  intro s a s' h b
  unfold Amt.storeVal at h
  split at h
  · cases h
  · rename_i c
    split at h
    · cases h
    · cases h
    · rename_i k v0 hm
      cases h
      show SameKey (s.mem b) (if b = c then _ else s.mem b)
      split
      · rename_i hb; rw [hb, hm]; exact Or.inr ⟨_, _, _, rfl, rfl⟩
      · exact SameKey.refl _

theorem Soft.scanItems {U : Type} {visit : U → Link → M K V (U × Bool)} {rec : U → Ref → M K V (U × Bool)}
    (h1 : ∀ u x, Soft (visit u x)) (h2 : ∀ u r, Soft (rec u r)) (l : Ref) (tm : BitVec 32) (n i : Nat) (pm : BitVec 32) (u : U) :
    Soft (scanItems visit rec l tm n i pm u) := by
  induction n generalizing i pm u with
  | zero => exact (Quiet.pure _).soft
  | succ n ih =>
    rw [Amt.scanItems]
    exact Soft.bind (Quiet.load _).soft fun lk => Soft.ite
      (Soft.bind (Quiet.load _).soft fun x => Soft.bind (h1 _ _) fun r => Soft.ite (ih _ _ _) (Quiet.pure _).soft)
      (Soft.bind (h2 _ _) fun r => Soft.ite (ih _ _ _) (Quiet.pure _).soft)

theorem Soft.scan {U : Type} {visit : U → Link → M K V (U × Bool)} (h1 : ∀ u x, Soft (visit u x)) (fuel : Nat) (u : U) (l : Ref) :
    Soft (scan visit fuel u l) := by
  induction fuel generalizing u l with
  | zero => exact (Quiet.fail _).soft
  | succ fuel ih =>
    rw [Amt.scan]
    exact Soft.bind (Quiet.load _).soft fun lk => Soft.scanItems h1 ih _ _ _ _ _ _

theorem Soft.visitMap {U : Type} (c : Cfg K) (f : U → K → V → U × V × Bool) (u : U) (x : Link) :
    Soft (visitMap c f u x : M K V (U × Bool)) :=
  Soft.bind (Quiet.readKey _ _).soft fun _ => Soft.bind (Quiet.loadKv _).soft fun _ => Soft.bind (Soft.storeVal _ _) fun _ =>
    (Quiet.pure _).soft

variable [DecidableEq K]

theorem CellSet.same {c : Cfg K} {s s' : St K V} {k : K} {p : Ptr} {v w : V} (hk : KvAt c s.mem k p v)
    (hc : CellSet c s s' k p w) (a : Nat) : SameKey (s.mem a) (s'.mem a) := by
  by_cases hp : p = .blk a
  · have h1 := hk
    have h2 := hc.kv
    unfold KvAt at h1 h2
    split at h1
    · rename_i hs
      rw [hs] at h2
      obtain ⟨b, hb, h1⟩ := h1
      obtain ⟨b', hb', h2⟩ := h2
      rw [hp] at hb hb'
      cases hb; cases hb'
      exact Or.inr ⟨_, _, _, h1, h2⟩
    · rename_i hs
      rw [hs] at h2
      obtain ⟨b, hb, h1⟩ := h1
      obtain ⟨b', hb', h2⟩ := h2
      rw [hp] at hb hb'
      cases hb; cases hb'
      exact Or.inr ⟨_, _, _, h1, h2⟩
    · rename_i hb; rw [hc.bare hb]; exact Or.inl rfl
  · exact Or.inl (hc.frame a hp)

end

section
variable {K V : Type} [DecidableEq K] [Inhabited V] {I : MapImpl K V} {sd : Seed} {H : K → Nat → BitVec 64}
  {P : Bool → List K → K → Prop} {cl : Prop} {lossy : V → V} {okS okM : K → K → Nat → Prop} {s : St K V} {h fuel : Nat}
  {t : T K Ptr V} {F : Nat → Prop}

/-- A call that keeps the keys only changes values. -/
theorem map_keeps (ok : MapOk I sd H P cl lossy okS okM) (hi : Inv I.cfg sd H cl s h t F) (hf : 256 ≤ fuel) {op : MOp K V}
    (hk : op.KeepsKeys (absT t)) {o : MOut K V} {s' : St K V} (he : I.exec fuel (some h) op s = .ok (o, s')) (a : Nat) :
    SameKey (s.mem a) (s'.mem a) := by
  have hptr : ∀ k, Quiet (I.Ptr fuel (some h) k) := fun k => Quiet.bind (Quiet.deref _) fun h => Quiet.lookup _ _ _ _
  have hpres : ∀ {k : K}, k ∈ (absT t).keys → ∃ p v, find (nbOf H) k t 0 = some (p, v) ∧ KvAt I.cfg s.mem k p v := by
    intro k hk
    cases hfd : find (nbOf H) k t 0 with
    | none => exact absurd hk ((find_none_iff hi k).1 hfd)
    | some e => exact ⟨e.1, e.2, rfl, hi.cell ok.laws ((find_eq_some (nbOf_lt H) hi.wf).1 hfd)⟩
  cases op with
  | get k => rw [C30_map I fuel _ (op := .get k) trivial s he]; exact SameKey.refl _
  | val k => rw [C30_map I fuel _ (op := .val k) trivial s he]; exact SameKey.refl _
  | ptr k => rw [C30_map I fuel _ (op := .ptr k) trivial s he]; exact SameKey.refl _
  | len => rw [C30_map I fuel _ (op := .len) trivial s he]; exact SameKey.refl _
  | dep => rw [C30_map I fuel _ (op := .dep) trivial s he]; exact SameKey.refl _
  | set k v =>
    have hk' : k ∈ (absT t).keys := (hk k).1 (by simp only [MOp.after]; split <;> simp [*])
    obtain ⟨p, v0, h1, h2⟩ := hpres hk'
    obtain ⟨s1, e1, c1⟩ := (ok.set k v).hit s p v0 h2
    have : I.Set fuel (some h) k v s = .ok ((), s1) := by
      rw [MapImpl.Set, deref, pure_bind_M, hi.upsert_hit ok.laws (ok.laws.keep ok.store) hf h1]; exact e1
    rw [MapImpl.exec, bind_ok this] at he
    cases he
    exact c1.same h2 a
  | mod k f =>
    have hk' : k ∈ (absT t).keys := (hk k).1 (by simp only [MOp.after]; split <;> simp [*])
    obtain ⟨p, v0, h1, h2⟩ := hpres hk'
    obtain ⟨s1, e1, c1⟩ := (ok.mod k f).hit s p v0 h2
    have : I.Mod fuel (some h) k f s = .ok ([(v0, true)], s1) := by
      rw [MapImpl.Mod, deref, pure_bind_M, hi.upsert_hit ok.laws (ok.laws.keep ok.store) hf h1]; exact e1
    rw [MapImpl.exec, bind_ok this] at he
    cases he
    exact c1.same h2 a
  | del k =>
    have hk' : k ∉ (absT t).keys := fun hm => by
      have := (hk k).2 hm
      simp [MOp.after] at this
    have hfd := (find_none_iff hi k).2 hk'
    have hsim := hi.delete (fuel := fuel) ok.laws I.delSkip k hf
    have hd : Amt.delete I.cfg h fuel I.delSkip k s = .ok ((), s) := by
      rw [find_slot] at hfd
      cases hsl : slot (nbOf H) k t 0 with
      | none => rw [hsl] at hsim; exact hsim
      | some e =>
        rw [hsl] at hsim hfd
        simp only [Option.bind_some] at hfd
        by_cases hke : k = e.1
        · rw [if_pos hke] at hfd; cases hfd
        · simp only [ok.skip, hke, decide_false, Bool.not_false, if_true] at hsim
          exact hsim
    have : I.Del fuel (some h) k s = .ok ((), s) := by rw [MapImpl.Del, deref, pure_bind_M, hd]
    rw [MapImpl.exec, bind_ok this] at he
    cases he
    exact SameKey.refl _
  | write k v =>
    have : Soft (I.exec fuel (some h) (.write k v)) := by
      refine Soft.bind (hptr k).soft fun p => ?_
      split
      · exact (Quiet.pure _).soft
      · exact Soft.bind (Soft.storeVal _ _) fun _ => (Quiet.pure _).soft
    exact this s o s' he a
  | all f =>
    have : Soft (I.exec fuel (some h) (.all f)) :=
      Soft.bind (Soft.bind (Quiet.deref _).soft fun h => Soft.bind (Soft.scan (fun u x => Soft.visitMap _ _ _ _) _ _ _) fun _ =>
        (Quiet.pure _).soft) fun _ => (Quiet.pure _).soft
    exact this s o s' he a

end

section
variable {K : Type} [DecidableEq K] {I : SetImpl K} {sd : Seed} {H : K → Nat → BitVec 64}
  {P : List K → K → Prop} {cl : Prop} {inv : Bool} {okA : K → K → Nat → Prop} {s : St K Unit} {h fuel : Nat}
  {t : T K Ptr Unit} {F : Nat → Prop}

theorem set_keeps (ok : SetOk I sd H P cl inv okA) (hi : Inv I.cfg sd H cl s h t F) (hf : 256 ≤ fuel) {op : SOp K}
    (hk : op.KeepsElems H inv (absS t)) {o : SOut K} {s' : St K Unit} (he : I.exec fuel (some h) op s = .ok (o, s')) (a : Nat) :
    SameKey (s.mem a) (s'.mem a) := by
  cases op with
  | has k => rw [C30_set I fuel _ (op := .has k) trivial s he]; exact SameKey.refl _
  | len => rw [C30_set I fuel _ (op := .len) trivial s he]; exact SameKey.refl _
  | dep => rw [C30_set I fuel _ (op := .dep) trivial s he]; exact SameKey.refl _
  | all f => rw [C30_set I fuel _ (op := .all f) trivial s he]; exact SameKey.refl _
  | add k =>
    have hk' : k ∈ absS t := (hk k).1 (by simp only [SOp.afterX, SOp.after]; split <;> simp [*])
    cases hfd : find (nbOf H) k t 0 with
    | none => exact absurd hk' ((absS_find_none hi k).1 hfd)
    | some e =>
      have h2 := hi.cell ok.laws ((find_eq_some (nbOf_lt H) hi.wf).1 hfd)
      obtain ⟨q, hq, hqp⟩ := hi.upsert_hitQ (ins := I.addI k) (p := e.1) (v := e.2) ok.laws hf hfd
      have h2 : KvAt I.cfg s.mem k q e.2 := by
        by_cases hb : I.cfg.store = .bare
        · unfold KvAt; rw [hb]; trivial
        · rw [hqp (ok.laws.keep hb)]; exact h2
      obtain ⟨s1, e1, c1⟩ := (ok.add k).hit s q e.2 h2
      have : I.Add fuel (some h) k s = .ok ((), s1) := by
        rw [SetImpl.Add, deref, pure_bind_M, hq]; exact e1
      rw [SetImpl.exec, bind_ok this] at he
      cases he
      exact c1.same h2 a
  | del k =>
    have hsim := hi.delete (fuel := fuel) ok.laws I.delSkip k hf
    have hd : Amt.delete I.cfg h fuel I.delSkip k s = .ok ((), s) := by
      cases hsl : slot (nbOf H) k t 0 with
      | none => rw [hsl] at hsim; exact hsim
      | some e =>
        rw [hsl] at hsim
        simp only at hsim
        by_cases hsk : I.delSkip (decide (k = e.1)) = true
        · rw [if_pos hsk] at hsim; exact hsim
        · exfalso
          have hme : e.1 ∈ absS t := List.mem_map_of_mem (f := fun e : K × Ptr × Unit => e.1) (slot_mem (nbOf_lt H) hsl)
          have hke := (hk e.1).2 hme
          rw [ok.skip] at hsk
          cases inv with
          | false =>
            have : k = e.1 := by simpa using hsk
            rw [SOp.afterX_false] at hke
            subst this
            simp [SOp.after] at hke
          | true =>
            have hne : ¬ k = e.1 := by simpa using hsk
            have hkn : k ∉ absS t := (absS_find_none hi k).1 (by rw [find_slot, hsl, Option.bind_some, if_neg hne])
            simp only [SOp.afterX, if_true, if_neg hkn, List.mem_filter, decide_eq_true_eq] at hke
            apply hke.2
            rw [absS_eq]; exact hi.slot_with hsl
    have : I.Del fuel (some h) k s = .ok ((), s) := by rw [SetImpl.Del, deref, pure_bind_M, hd]
    rw [SetImpl.exec, bind_ok this] at he
    cases he
    exact SameKey.refl _

end

/-! ### Running callback programs -/

section
variable {K V Op Out X Y R : Type}

/-- Run a callback program on the model. -/
def runBody (exec : Op → M K V Out) (xexec : X → M K V Y) : Body Op Out X Y R → M K V R
  | .ret r => pure r
  | .call op k => exec op >>= fun o => runBody exec xexec (k o)
  | .other x k => xexec x >>= fun y => runBody exec xexec (k y)

/-- The other things that a callback may call: they own `G`, and have nothing to do with the container. -/
structure Side (K V X Y B : Type) where
  exec : X → M K V Y
  step : B → X → Y → B → Prop
  may : B → X → Prop
  R : St K V → B → (Nat → Prop) → Prop
  step_ok : ∀ {s b G x}, R s b G → may b x → ∃ y s' b' G', exec x s = .ok (y, s') ∧ R s' b' G' ∧ step b x y b' ∧
    (∀ a, a < s.next → ¬ G a → s'.mem a = s.mem a ∧ s'.roots a = s.roots a) ∧ s.next ≤ s'.next ∧
    ∀ a, G' a → G a ∨ (s.next ≤ a ∧ a < s'.next)
  frame : ∀ {s s' b G}, R s b G → (∀ a, G a → s'.mem a = s.mem a ∧ s'.roots a = s.roots a) → s.next ≤ s'.next → R s' b G
  bound : ∀ {s b G}, R s b G → ∀ a, G a → a < s.next

/-- Nothing else to call. -/
def Side.none (K V : Type) : Side K V Empty Empty Unit where
  exec x := x.elim
  step _ _ _ _ := False
  may _ _ := False
  R _ _ G := ∀ a, ¬ G a
  step_ok _ h := h.elim
  frame h _ _ := h
  bound h a ha := (h a ha).elim

variable [DecidableEq K]

/-- The container, what it owned when the iteration began, and the other things. -/
structure Apart3 (s : St K V) (h : Nat) (F F₀ G : Nat → Prop) : Prop where
  root : ¬ G h
  own : ∀ a, G a → ¬ F a
  own₀ : ∀ a, G a → ¬ F₀ a
  lt : ∀ a, F₀ a → a < s.next

theorem body_ok {A B : Type} {c : Cfg K} {sd : Seed} {H : K → Nat → BitVec 64} {cl : Prop} {h : Nat}
    (exec : Op → M K V Out) (ab : T K Ptr V → A) (step : A → Op → Out → A → Prop) (may : A → Op → Prop)
    (S : Side K V X Y B) (keep : T K Ptr V → T K Ptr V → Prop) (hrefl : ∀ t, keep t t)
    (htrans : ∀ {t t' t''}, keep t t' → keep t' t'' → keep t t'')
    (hstep : ∀ {s t F op}, Inv c sd H cl s h t F → may (ab t) op → ∃ o s' t' F', exec op s = .ok (o, s') ∧
      Inv c sd H cl s' h t' F' ∧ Chg s s' h F F' ∧ step (ab t) op o (ab t') ∧ (∀ a, SameKey (s.mem a) (s'.mem a)) ∧
      keep t t')
    {post : R → A → B → Prop} (bd : Body Op Out X Y R) :
    ∀ {s : St K V} {t : T K Ptr V} {F F₀ G : Nat → Prop} {b : B}, Inv c sd H cl s h t F → S.R s b G → Apart3 s h F F₀ G →
    SafeBody step S.step may S.may post bd (ab t) b →
    ∃ r s' t' F' b' G', runBody exec S.exec bd s = .ok (r, s') ∧ Inv c sd H cl s' h t' F' ∧ S.R s' b' G' ∧ Apart3 s' h F' F₀ G' ∧
      Still h F₀ s s' ∧ keep t t' ∧ RunBody step S.step bd (ab t) b r (ab t') b' ∧ post r (ab t') b' := by
  induction bd with
  | ret r =>
    intro s t F F₀ G b hi hR hap hs
    exact ⟨r, s, t, F, b, G, rfl, hi, hR, hap, Still.refl _ _ _, hrefl t, ⟨rfl, rfl, rfl⟩, hs⟩
  | call op k ih =>
    intro s t F F₀ G b hi hR hap hs
    obtain ⟨o, s1, t1, F1, e1, i1, c1, st1, sm1, k1⟩ := hstep hi hs.1
    have hb := S.bound hR
    have hR1 : S.R s1 b G := S.frame hR (fun a ha => ⟨c1.frame a (hb a ha) (fun e => hap.root (e ▸ ha)) (hap.own a ha),
      c1.roots a (fun e => hap.root (e ▸ ha))⟩) c1.next
    have hap1 : Apart3 s1 h F1 F₀ G := ⟨hap.root, fun a ha hf => by
      rcases c1.foot a hf with h' | h'
      · exact hap.own a ha h'
      · have := hb a ha; omega, hap.own₀, fun a ha => Nat.lt_of_lt_of_le (hap.lt a ha) c1.next⟩
    obtain ⟨r, s2, t2, F2, b2, G2, e2, i2, R2, a2, st2, k2, run2, p2⟩ := ih o i1 hR1 hap1 (hs.2 o _ st1)
    exact ⟨r, s2, t2, F2, b2, G2, by rw [runBody, bind_ok e1, e2], i2, R2, a2, Still.trans (fun a _ => sm1 a) st2, htrans k1 k2,
      ⟨o, _, st1, run2⟩, p2⟩
  | other x k ih =>
    intro s t F F₀ G b hi hR hap hs
    obtain ⟨y, s1, b1, G1, e1, R1, st1, fr1, n1, g1⟩ := S.step_ok hR hs.1
    have hbd := hi.bound
    have i1 : Inv c sd H cl s1 h t F := hi.frame (fr1 h hbd.1 hap.root).1
      (fun a ha => (fr1 a (hbd.2.2 a ha) (fun hg => hap.own a hg ha)).1) (fr1 h hbd.1 hap.root).2 n1
    have hap1 : Apart3 s1 h F F₀ G1 := by
      refine ⟨fun hg => ?_, fun a hg hf => ?_, fun a hg hf => ?_, fun a ha => Nat.lt_of_lt_of_le (hap.lt a ha) n1⟩
      · rcases g1 h hg with h' | h'
        · exact hap.root h'
        · omega
      · rcases g1 a hg with h' | h'
        · exact hap.own a h' hf
        · have := hbd.2.2 a hf; omega
      · rcases g1 a hg with h' | h'
        · exact hap.own₀ a h' hf
        · have := hap.lt a hf; omega
    obtain ⟨r, s2, t2, F2, b2, G2, e2, i2, R2, a2, st2, k2, run2, p2⟩ := ih y i1 R1 hap1 (hs.2 y _ st1)
    refine ⟨r, s2, t2, F2, b2, G2, by rw [runBody, bind_ok e1, e2], i2, R2, a2, Still.trans (fun a ha => ?_) st2, k2,
      ⟨y, _, st1, run2⟩, p2⟩
    rcases ha with rfl | ha
    · exact Or.inl (fr1 a hbd.1 hap.root).1
    · exact Or.inl (fr1 a (hap.lt a ha) (fun hg => hap.own₀ a hg ha)).1

end

/-! ### Maps -/

/-- A step on a map, in any order of the resulting entries. -/
def _root_.Spec.MStepUp {K V : Type} [DecidableEq K] [Inhabited V] (H : K → Nat → BitVec 64) (ex : Prop) (lossy : V → V)
    (m : FMap K V) (op : MOp K V) (o : MOut K V) (m' : FMap K V) : Prop :=
  ∃ m₁, MStepX H ex lossy m op o m₁ ∧ m₁.Perm m'

section
variable {K V U X Y B : Type} [DecidableEq K] [Inhabited V] {I : MapImpl K V} {sd : Seed} {H : K → Nat → BitVec 64}
  {P : Bool → List K → K → Prop} {cl : Prop} {lossy : V → V} {okS okM : K → K → Nat → Prop} {h fuel : Nat}

/-- The callback that, when called with a key and the address of its value, reads the value, runs the program `body`,
assigns the value if the program says so, and returns. -/
def MapImpl.callback (I : MapImpl K V) (fuel : Nat) (m : Handle) (xexec : X → M K V Y)
    (body : U → K → V → Body (MOp K V) (MOut K V) X Y (U × Option V × Bool)) (u : U) (k : K) (p : Amt.Ptr) :
    M K V (U × Bool) := do
  let kv ← loadKv p
  let r ← runBody (I.exec fuel m) xexec (body u k kv.2)
  match r.2.1 with
  | none => pure (r.1, r.2.2)
  | some v => do
    storeVal p v
    pure (r.1, r.2.2)

theorem map_stepUp (ok : MapOk I sd H P cl lossy okS okM) (hf : 256 ≤ fuel) {s : St K V} {t : T K Ptr V} {F : Nat → Prop}
    {op : MOp K V} (hi : Inv I.cfg sd H cl s h t F) (hk : op.KeepsKeys (absT t)) :
    ∃ o s' t' F', I.exec fuel (some h) op s = .ok (o, s') ∧ Inv I.cfg sd H cl s' h t' F' ∧ Chg s s' h F F' ∧
      MStepUp H cl lossy (absT t) op o (absT t') ∧ (∀ a, SameKey (s.mem a) (s'.mem a)) ∧ Keep t t' fun _ => False := by
  obtain ⟨o, s', t', F', e1, e2, e3, ⟨m', e4, e5⟩, e6⟩ := map_step ok hi hf op (fun k hk' hn => by
    exfalso
    cases op with
    | set k' v => obtain rfl := List.mem_singleton.1 hk'; exact hn ((hk k).1 (by simp only [MOp.after]; split; exact ‹_›; simp))
    | mod k' v => obtain rfl := List.mem_singleton.1 hk'; exact hn ((hk k).1 (by simp only [MOp.after]; split; exact ‹_›; simp))
    | _ => cases hk')
  refine ⟨o, s', t', F', e1, e2, e3, ⟨m', e4, e5⟩, map_keeps ok hi hf hk e1, fun e he _ => e6 e he ?_⟩
  rintro ⟨k', rfl, hk'⟩
  have := (hk e.1).2 (leaf_keys he)
  simp [MOp.after, hk'] at this

theorem map_loop (ok : MapOk I sd H P cl lossy okS okM) (hf : 256 ≤ fuel) (S : Side K V X Y B)
    (body : U → K → V → Body (MOp K V) (MOut K V) X Y (U × Option V × Bool)) {s₀ : St K V} {F₀ : Nat → Prop}
    (es : List (K × Ptr × V)) :
    ∀ {s : St K V} {t : T K Ptr V} {F G : Nat → Prop} {b : B} {u : U}, Inv I.cfg sd H cl s h t F → S.R s b G →
    Apart3 s h F F₀ G → Still h F₀ s₀ s → (∀ e ∈ es, ∃ v, (e.1, e.2.1, v) ∈ leaves t) →
    SafeLoop (MStepUp H cl lossy) S.step MOp.KeepsKeys S.may body (es.map fun e => e.1) u (absT t) b →
    ∃ r s' t' F' b' G', callAll (I.callback fuel (some h) S.exec body) es u s = .ok (r, s') ∧ Inv I.cfg sd H cl s' h t' F' ∧
      S.R s' b' G' ∧ Apart3 s' h F' F₀ G' ∧ Along h F₀ s₀ (I.callback fuel (some h) S.exec body) es u s ∧
      RunLoop (MStepUp H cl lossy) S.step body (es.map fun e => e.1) u (absT t) b r.1 (absT t') b' := by
  induction es with
  | nil =>
    intro s t F G b u hi hR hap hst _ _
    exact ⟨(u, true), s, t, F, b, G, rfl, hi, hR, hap, trivial, rfl, rfl, rfl⟩
  | cons e es ih =>
    intro s t F G b u hi hR hap hst hes hsafe
    obtain ⟨k, p, w⟩ := e
    obtain ⟨v, hv⟩ := hes _ (List.mem_cons_self ..)
    have hfd := (find_eq_some (nbOf_lt H) hi.wf (key := k)).2 hv
    have hget : (absT t).get k = some v := by rw [← find_absT hi.wf, hfd]; rfl
    obtain ⟨ko, hload⟩ := (hi.cell ok.laws hv).load ok.store
    rw [List.map_cons, SafeLoop] at hsafe
    obtain ⟨r, s1, t1, F1, b1, G1, e1, i1, R1, a1, st1, k1, run1, post1⟩ := body_ok (I.exec fuel (some h)) absT
      (MStepUp H cl lossy) MOp.KeepsKeys S (fun t t' => Keep t t' fun _ => False) (fun t => Keep.refl t _)
      (fun h h' => Keep.trans h h') (fun hi hk => map_stepUp ok hf hi hk) (body u k v) (F₀ := F₀) hi hR hap (hsafe v hget)
    -- the assignment in the end
    obtain ⟨v1, hv1⟩ := k1 _ hv id
    have hfd1 := (find_eq_some (nbOf_lt H) i1.wf (key := k)).2 hv1
    have hassign : ∃ s2 t2 F2 G2, I.callback fuel (some h) S.exec body u k p s = .ok ((r.1, r.2.2), s2) ∧
        Inv I.cfg sd H cl s2 h t2 F2 ∧ S.R s2 b1 G2 ∧ Apart3 s2 h F2 F₀ G2 ∧ Still h F₀ s1 s2 ∧ Keep t1 t2 (fun _ => False) ∧
        Assigned (absT t1) k r.2.1 (absT t2) := by
      rw [MapImpl.callback, bind_ok hload, bind_ok e1]
      cases hw : r.2.1 with
      | none => exact ⟨s1, t1, F1, G1, rfl, i1, R1, a1, Still.refl _ _ _, Keep.refl _ _, rfl⟩
      | some w =>
        obtain ⟨s2, t2, F2, g1, g2, g3, g4, g5⟩ := write_run ok i1 hf hfd1 w
        have hb := S.bound R1
        refine ⟨s2, t2, F2, G1, ?_, g2, S.frame R1 (fun a ha => ⟨g3.frame a (hb a ha) (fun e => a1.root (e ▸ ha)) (a1.own a ha),
          g3.roots a (fun e => a1.root (e ▸ ha))⟩) g3.next, ⟨a1.root, fun a ha hf => ?_, a1.own₀,
          fun a ha => Nat.lt_of_lt_of_le (a1.lt a ha) g3.next⟩, fun a _ => Soft.storeVal p w s1 () s2 g1 a, g5, g4⟩
        · simp only
          rw [bind_ok g1]; rfl
        · rcases g3.foot a hf with h' | h'
          · exact a1.own a ha h'
          · have := hb a ha; omega
    obtain ⟨s2, t2, F2, G2, e2, i2, R2, a2, st2, k2, as2⟩ := hassign
    have hst2 : Still h F₀ s₀ s2 := hst.trans (st1.trans st2)
    by_cases hg : r.2.2 = true
    · obtain ⟨r', s3, t3, F3, b3, G3, e3, i3, R3, a3, al3, run3⟩ := ih (u := r.1) i2 R2 a2 hst2 (fun e he => by
          obtain ⟨x, hx⟩ := hes e (List.mem_cons_of_mem _ he)
          exact (k1.trans k2) (e.1, e.2.1, x) hx id) (post1 hg _ as2)
      refine ⟨r', s3, t3, F3, b3, G3, ?_, i3, R3, a3, ?_, v, r, _, b1, _, hget, run1, as2, ?_⟩
      · rw [callAll, bind_ok e2]
        simp only [hg, if_true]
        exact e3
      · intro q sq hq
        rw [e2] at hq
        cases hq
        exact ⟨hst2, fun _ => al3⟩
      · rw [if_pos hg]; exact run3
    · refine ⟨(r.1, false), s2, t2, F2, b1, G2, ?_, i2, R2, a2, ?_, v, r, _, b1, _, hget, run1, as2, ?_⟩
      · rw [callAll, bind_ok e2]
        simp only [hg]
        rfl
      · intro q sq hq
        rw [e2] at hq
        cases hq
        exact ⟨hst2, fun h => absurd h hg⟩
      · rw [if_neg hg]; exact ⟨rfl, rfl, rfl⟩

/-- `All` with such a callback is the loop over the entries. -/
theorem map_AllWith (ok : MapOk I sd H P cl lossy okS okM) (hf : 256 ≤ fuel) (S : Side K V X Y B)
    (body : U → K → V → Body (MOp K V) (MOut K V) X Y (U × Option V × Bool)) {s : St K V} {t : T K Ptr V} {F G : Nat → Prop}
    {b : B} (u : U) (hi : Inv I.cfg sd H cl s h t F) (hR : S.R s b G) (hG : ∀ a, G a → a ≠ h ∧ ¬ F a)
    (hs : SafeLoop (MStepUp H cl lossy) S.step MOp.KeepsKeys S.may body (absT t).keys u (absT t) b) :
    ∃ u' s' t' F' b' G', I.AllWith fuel (some h) (I.callback fuel (some h) S.exec body) u s = .ok (u', s') ∧
      Inv I.cfg sd H cl s' h t' F' ∧ S.R s' b' G' ∧ (∀ a, G' a → a ≠ h ∧ ¬ F' a) ∧
      RunLoop (MStepUp H cl lossy) S.step body (absT t).keys u (absT t) b u' (absT t') b' := by
  rw [absT_keys] at hs ⊢
  obtain ⟨lk, hl, hr⟩ := hi.rep
  obtain ⟨r, s', t', F', b', G', e1, e2, e3, e4, e5, e6⟩ := map_loop ok hf S body (s₀ := s) (F₀ := F) (leaves t) hi hR
    ⟨fun hg => (hG h hg).1 rfl, fun a ha => (hG a ha).2, fun a ha => (hG a ha).2, hi.bound.2.2⟩ (Still.refl _ _ _)
    (fun e he => ⟨e.2.2, he⟩) hs
  refine ⟨r.1, s', t', F', b', G', ?_, e2, e3, fun a ha => ⟨fun e => e4.root (e ▸ ha), e4.own a ha⟩, e6⟩
  have := scan_calls ok.laws (B := 255) (h := h) (F₀ := F) (s₀ := s) (I.callback fuel (some h) S.exec body) (Or.inl (ok.laws.keep ok.store)) t (fuel := fuel) (u := u)
    (s := s) hi.node hl hr hi.ht (by omega) (Or.inl rfl) (fun _ h => h) (Still.refl _ _ _) e5
  rw [MapImpl.AllWith, deref, pure_bind_M, bind_run, this, e1]
  rfl

end

/-! ### Sets -/

/-- A step on a set, in any order of the resulting elements. -/
def _root_.Spec.SStepUp {K : Type} [DecidableEq K] (H : K → Nat → BitVec 64) (ex : Prop) (inv : Bool)
    (m : List K) (op : SOp K) (o : SOut K) (m' : List K) : Prop :=
  ∃ m₁, SStepX H ex inv m op o m₁ ∧ m₁.Perm m'

section
variable {K U X Y B : Type} [DecidableEq K] {I : SetImpl K} {sd : Seed} {H : K → Nat → BitVec 64}
  {P : List K → K → Prop} {cl : Prop} {inv : Bool} {okA : K → K → Nat → Prop} {h fuel : Nat}

/-- The callback that runs the program `body` when it is called with an element. -/
def SetImpl.callback (I : SetImpl K) (fuel : Nat) (m : Handle) (xexec : X → M K Unit Y)
    (body : U → K → Body (SOp K) (SOut K) X Y (U × Bool)) (u : U) (k : K) : M K Unit (U × Bool) :=
  runBody (I.exec fuel m) xexec (body u k)

theorem set_stepUp (ok : SetOk I sd H P cl inv okA) (hf : 256 ≤ fuel) {s : St K Unit} {t : T K Ptr Unit} {F : Nat → Prop}
    {op : SOp K} (hi : Inv I.cfg sd H cl s h t F) (hk : op.KeepsElems H inv (absS t)) :
    ∃ o s' t' F', I.exec fuel (some h) op s = .ok (o, s') ∧ Inv I.cfg sd H cl s' h t' F' ∧ Chg s s' h F F' ∧
      SStepUp H cl inv (absS t) op o (absS t') ∧ (∀ a, SameKey (s.mem a) (s'.mem a)) ∧ True := by
  obtain ⟨o, s', t', F', e1, e2, e3, ⟨m', e4, e5⟩⟩ := set_step ok hi hf op (fun k hk' hn => by
    exfalso
    cases op with
    | add k' => obtain rfl := List.mem_singleton.1 hk'; exact hn ((hk k).1 (by simp only [SOp.afterX, SOp.after]; split; exact ‹_›; simp))
    | _ => cases hk')
  exact ⟨o, s', t', F', e1, e2, e3, ⟨m', e4, e5⟩, set_keeps ok hi hf hk e1, trivial⟩

theorem set_loop (ok : SetOk I sd H P cl inv okA) (hf : 256 ≤ fuel) (S : Side K Unit X Y B)
    (body : U → K → Body (SOp K) (SOut K) X Y (U × Bool)) {s₀ : St K Unit} {F₀ : Nat → Prop}
    (es : List (K × Ptr × Unit)) :
    ∀ {s : St K Unit} {t : T K Ptr Unit} {F G : Nat → Prop} {b : B} {u : U}, Inv I.cfg sd H cl s h t F → S.R s b G →
    Apart3 s h F F₀ G → Still h F₀ s₀ s →
    SSafeLoop (SStepUp H cl inv) S.step (SOp.KeepsElems H inv) S.may body (es.map fun e => e.1) u (absS t) b →
    ∃ r s' t' F' b' G', callAll (fun u k _ => I.callback fuel (some h) S.exec body u k) es u s = .ok (r, s') ∧
      Inv I.cfg sd H cl s' h t' F' ∧
      S.R s' b' G' ∧ Apart3 s' h F' F₀ G' ∧ Along h F₀ s₀ (fun u k _ => I.callback fuel (some h) S.exec body u k) es u s ∧
      SRunLoop (SStepUp H cl inv) S.step body (es.map fun e => e.1) u (absS t) b r.1 (absS t') b' := by
  induction es with
  | nil =>
    intro s t F G b u hi hR hap hst _
    exact ⟨(u, true), s, t, F, b, G, rfl, hi, hR, hap, trivial, rfl, rfl, rfl⟩
  | cons e es ih =>
    intro s t F G b u hi hR hap hst hsafe
    obtain ⟨k, p, w⟩ := e
    rw [List.map_cons, SSafeLoop] at hsafe
    obtain ⟨r, s1, t1, F1, b1, G1, e1, i1, R1, a1, st1, _, run1, post1⟩ := body_ok (I.exec fuel (some h)) absS
      (SStepUp H cl inv) (SOp.KeepsElems H inv) S (fun _ _ => True) (fun _ => trivial)
      (fun _ _ => trivial) (fun hi hk => set_stepUp ok hf hi hk) (body u k) (F₀ := F₀) hi hR hap hsafe
    have hst1 : Still h F₀ s₀ s1 := hst.trans st1
    have e1 : I.callback fuel (some h) S.exec body u k s = .ok (r, s1) := e1
    by_cases hg : r.2 = true
    · obtain ⟨r', s3, t3, F3, b3, G3, e3, i3, R3, a3, al3, run3⟩ := ih (u := r.1) i1 R1 a1 hst1 (post1 hg)
      refine ⟨r', s3, t3, F3, b3, G3, ?_, i3, R3, a3, ?_, r, _, b1, run1, ?_⟩
      · rw [callAll, bind_ok e1]
        simp only [hg, if_true]
        exact e3
      · intro q sq hq
        rw [show (fun u k _ => I.callback fuel (some h) S.exec body u k) u (k, p, w).1 (k, p, w).2.1 s = .ok (r, s1) from e1] at hq
        cases hq
        exact ⟨hst1, fun _ => al3⟩
      · rw [if_pos hg]; exact run3
    · refine ⟨(r.1, false), s1, t1, F1, b1, G1, ?_, i1, R1, a1, ?_, r, _, b1, run1, ?_⟩
      · rw [callAll, bind_ok e1]
        simp only [hg]
        rfl
      · intro q sq hq
        rw [show (fun u k _ => I.callback fuel (some h) S.exec body u k) u (k, p, w).1 (k, p, w).2.1 s = .ok (r, s1) from e1] at hq
        cases hq
        exact ⟨hst1, fun h => absurd h hg⟩
      · rw [if_neg hg]; exact ⟨rfl, rfl, rfl⟩

theorem set_AllWith (ok : SetOk I sd H P cl inv okA) (hf : 256 ≤ fuel) (S : Side K Unit X Y B)
    (body : U → K → Body (SOp K) (SOut K) X Y (U × Bool)) {s : St K Unit} {t : T K Ptr Unit} {F G : Nat → Prop}
    {b : B} (u : U) (hi : Inv I.cfg sd H cl s h t F) (hR : S.R s b G) (hG : ∀ a, G a → a ≠ h ∧ ¬ F a)
    (hs : SSafeLoop (SStepUp H cl inv) S.step (SOp.KeepsElems H inv) S.may body (absS t) u (absS t) b) :
    ∃ u' s' t' F' b' G', I.AllWith fuel (some h) (I.callback fuel (some h) S.exec body) u s = .ok (u', s') ∧
      Inv I.cfg sd H cl s' h t' F' ∧ S.R s' b' G' ∧ (∀ a, G' a → a ≠ h ∧ ¬ F' a) ∧
      SRunLoop (SStepUp H cl inv) S.step body (absS t) u (absS t) b u' (absS t') b' := by
  obtain ⟨lk, hl, hr⟩ := hi.rep
  obtain ⟨r, s', t', F', b', G', e1, e2, e3, e4, e5, e6⟩ := set_loop ok hf S body (s₀ := s) (F₀ := F) (leaves t) hi hR
    ⟨fun hg => (hG h hg).1 rfl, fun a ha => (hG a ha).2, fun a ha => (hG a ha).2, hi.bound.2.2⟩ (Still.refl _ _ _) hs
  refine ⟨r.1, s', t', F', b', G', ?_, e2, e3, fun a ha => ⟨fun e => e4.root (e ▸ ha), e4.own a ha⟩, e6⟩
  have := scan_calls ok.laws (B := 255) (h := h) (F₀ := F) (s₀ := s) (fun u k _ => I.callback fuel (some h) S.exec body u k) (Or.inr fun _ _ _ _ => rfl) t
    (fuel := fuel) (u := u) (s := s) hi.node hl hr hi.ht (by omega) (Or.inl rfl) (fun _ h => h) (Still.refl _ _ _) e5
  rw [SetImpl.AllWith, deref, pure_bind_M, bind_run, this, e1]
  rfl

end

/-! ### Other containers -/

section
variable {K V : Type} [DecidableEq K] [Inhabited V]

/-- Another map, for the callback to call. -/
def Side.map {I : MapImpl K V} {sd : Seed} {H : K → Nat → BitVec 64} {P : Bool → List K → K → Prop} {cl : Prop}
    {lossy : V → V} {okS okM : K → K → Nat → Prop} (ok : MapOk I sd H P cl lossy okS okM) {fuel : Nat} (hf : 256 ≤ fuel)
    (h : Nat) : Side K V (MOp K V) (MOut K V) (FMap K V) where
  exec := I.exec fuel (some h)
  step := MStepUp H cl lossy
  may m op := ∀ k ∈ op.stores, k ∉ m.keys → P op.isMod m.keys k
  R s m G := ∃ t F, Inv I.cfg sd H cl s h t F ∧ m = absT t ∧ ∀ a, G a ↔ a = h ∨ F a
  step_ok := by
    rintro s m G op ⟨t, F, hi, rfl, hG⟩ hop
    obtain ⟨o, s', t', F', e1, e2, e3, e4, _⟩ := map_step ok hi hf op hop
    refine ⟨o, s', _, fun a => a = h ∨ F' a, e1, ⟨t', F', e2, rfl, fun _ => Iff.rfl⟩, e4, fun a ha hg => ?_, e3.next, fun a ha => ?_⟩
    · rw [hG, not_or] at hg
      exact ⟨e3.frame a ha hg.1 hg.2, e3.roots a hg.1⟩
    · rw [hG]
      rcases ha with ha | ha
      · exact Or.inl (Or.inl ha)
      · rcases e3.foot a ha with h' | h'
        · exact Or.inl (Or.inr h')
        · exact Or.inr h'
  frame := by
    rintro s s' m G ⟨t, F, hi, rfl, hG⟩ hs hn
    exact ⟨t, F, hi.frame (hs h ((hG h).2 (Or.inl rfl))).1 (fun x hx => (hs x ((hG x).2 (Or.inr hx))).1)
      (hs h ((hG h).2 (Or.inl rfl))).2 hn, rfl, hG⟩
  bound := by
    rintro s m G ⟨t, F, hi, rfl, hG⟩ a ha
    rcases (hG a).1 ha with rfl | h'
    · exact hi.bound.1
    · exact hi.bound.2.2 a h'

/-- Another set, for the callback to call. -/
def Side.set {I : SetImpl K} {sd : Seed} {H : K → Nat → BitVec 64} {P : List K → K → Prop} {cl : Prop}
    {inv : Bool} {okA : K → K → Nat → Prop} (ok : SetOk I sd H P cl inv okA) {fuel : Nat} (hf : 256 ≤ fuel)
    (h : Nat) : Side K Unit (SOp K) (SOut K) (List K) where
  exec := I.exec fuel (some h)
  step := SStepUp H cl inv
  may m op := ∀ k ∈ op.stores, k ∉ m → P m k
  R s m G := ∃ t F, Inv I.cfg sd H cl s h t F ∧ m = absS t ∧ ∀ a, G a ↔ a = h ∨ F a
  step_ok := by
    rintro s m G op ⟨t, F, hi, rfl, hG⟩ hop
    obtain ⟨o, s', t', F', e1, e2, e3, e4⟩ := set_step ok hi hf op hop
    refine ⟨o, s', _, fun a => a = h ∨ F' a, e1, ⟨t', F', e2, rfl, fun _ => Iff.rfl⟩, e4, fun a ha hg => ?_, e3.next, fun a ha => ?_⟩
    · rw [hG, not_or] at hg
      exact ⟨e3.frame a ha hg.1 hg.2, e3.roots a hg.1⟩
    · rw [hG]
      rcases ha with ha | ha
      · exact Or.inl (Or.inl ha)
      · rcases e3.foot a ha with h' | h'
        · exact Or.inl (Or.inr h')
        · exact Or.inr h'
  frame := by
    rintro s s' m G ⟨t, F, hi, rfl, hG⟩ hs hn
    exact ⟨t, F, hi.frame (hs h ((hG h).2 (Or.inl rfl))).1 (fun x hx => (hs x ((hG x).2 (Or.inr hx))).1)
      (hs h ((hG h).2 (Or.inl rfl))).2 hn, rfl, hG⟩
  bound := by
    rintro s m G ⟨t, F, hi, rfl, hG⟩ a ha
    rcases (hG a).1 ha with rfl | h'
    · exact hi.bound.1
    · exact hi.bound.2.2 a h'

end

/-! ### C43: callbacks that call the container itself -/

section
variable {K V U : Type} [DecidableEq K] [Inhabited V] {I : MapImpl K V} {sd : Seed} {H : K → Nat → BitVec 64}
  {P : Bool → List K → K → Prop} {lossy : V → V} {ex : Prop} {fuel : Nat}

/-- A callback program that calls nothing but the container. -/
abbrev _root_.Spec.OwnBody (Op Out R : Type) := Body Op Out Empty Empty R

/-- Such a loop, over the keys of `m` in the order in which they are listed there. -/
abbrev _root_.Spec.OwnLoop (H : K → Nat → BitVec 64) (ex : Prop) (lossy : V → V)
    (body : U → K → V → OwnBody (MOp K V) (MOut K V) (U × Option V × Bool)) (u : U) (m : FMap K V) (u' : U) (m' : FMap K V) : Prop :=
  RunLoop (MStepUp H ex lossy) (fun _ _ _ _ => False) body m.keys u m () u' m' ()

/-- No call in the loop adds or removes a key. -/
abbrev _root_.Spec.OwnSafe (H : K → Nat → BitVec 64) (ex : Prop) (lossy : V → V)
    (body : U → K → V → OwnBody (MOp K V) (MOut K V) (U × Option V × Bool)) (u : U) (m : FMap K V) : Prop :=
  SafeLoop (MStepUp H ex lossy) (fun _ _ _ _ => False) MOp.KeepsKeys (fun _ _ => False) body m.keys u m ()

/-- C43, maps: after any covered history, `All` with a callback that itself calls the map, but neither adds nor
removes keys, calls it once for every entry in order of nibbles until it returns false; in each call, and afterwards,
the map has the contents that the calls so far have left. -/
theorem C43_map (hc : MapContainer I sd H P lossy ex) {ops : List (MOp K V)} (h : EachNew P [] ops) (hf : 256 ≤ fuel) (s : St K V) :
    ∃ hd os s₁ m, I.session fuel sd ops s = .ok ((hd, os), s₁) ∧ RunBy (MStepX H ex lossy) [] ops os m ∧
      ∀ (body : U → K → V → OwnBody (MOp K V) (MOut K V) (U × Option V × Bool)) (u : U),
        (∀ order, order.Perm m → OwnSafe H ex lossy body u order) →
        ∃ u' s₂ order m', I.AllWith fuel hd (I.callback fuel hd (fun x : Empty => x.elim) body) u s₁ = .ok (u', s₂) ∧
          order.Perm m ∧ order.Pairwise (fun a b => Before H a.1 b.1) ∧ OwnLoop H ex lossy body u order u' m' ∧
          ∀ ops', EachNew P m'.keys ops' → ∃ os' s₃ m'', I.run fuel hd ops' s₂ = .ok (os', s₃) ∧
            RunBy (MStepX H ex lossy) m' ops' os' m'' := by
  obtain ⟨os, s₁, t, F, m, e1, hi, e3, e4⟩ := hc.session h hf s
  obtain ⟨okS, okM, ok⟩ := hc.ok
  refine ⟨_, os, s₁, m, e1, e3, fun body u hs => ?_⟩
  obtain ⟨u', s₂, t', F', b', G', g1, g2, _, _, g3⟩ := map_AllWith ok hf (Side.none K V) body (G := fun _ => False) (b := ()) u hi
    (fun _ h => h) (fun a h => h.elim) (hs _ e4.symm)
  refine ⟨u', s₂, absT t, absT t', g1, e4.symm, List.pairwise_map.2 (leaves_before hi.wf), g3, fun ops' h' => ?_⟩
  obtain ⟨os', s₃, t₃, F₃, q1, _, _, ⟨m'', q2, _⟩, _⟩ := map_run ok hf ops' (ks := (absT t').keys) g2 (fun _ => Iff.rfl) h'
  exact ⟨os', s₃, m'', q1, q2⟩

end

section
variable {K U : Type} [DecidableEq K] {I : SetImpl K} {sd : Seed} {H : K → Nat → BitVec 64}
  {P : List K → K → Prop} {inv : Bool} {ex : Prop} {fuel : Nat}

/-- A loop over the elements of `m` in the order in which they are listed there. -/
abbrev _root_.Spec.SOwnLoop (H : K → Nat → BitVec 64) (ex : Prop) (inv : Bool)
    (body : U → K → OwnBody (SOp K) (SOut K) (U × Bool)) (u : U) (m : List K) (u' : U) (m' : List K) : Prop :=
  SRunLoop (SStepUp H ex inv) (fun _ _ _ _ => False) body m u m () u' m' ()

/-- No call in the loop adds or removes an element. -/
abbrev _root_.Spec.SOwnSafe (H : K → Nat → BitVec 64) (ex : Prop) (inv : Bool)
    (body : U → K → OwnBody (SOp K) (SOut K) (U × Bool)) (u : U) (m : List K) : Prop :=
  SSafeLoop (SStepUp H ex inv) (fun _ _ _ _ => False) (SOp.KeepsElems H inv) (fun _ _ => False) body m u m ()

/-- C43, sets. -/
theorem C43_set (hc : SetContainer I sd H P inv ex) {ops : List (SOp K)} (h : SEachNew H inv P [] ops) (hf : 256 ≤ fuel)
    (s : St K Unit) :
    ∃ hd os s₁ m, I.session fuel sd ops s = .ok ((hd, os), s₁) ∧ SRunBy (SStepX H ex inv) [] ops os m ∧
      ∀ (body : U → K → OwnBody (SOp K) (SOut K) (U × Bool)) (u : U),
        (∀ order, order.Perm m → SOwnSafe H ex inv body u order) →
        ∃ u' s₂ order m', I.AllWith fuel hd (I.callback fuel hd (fun x : Empty => x.elim) body) u s₁ = .ok (u', s₂) ∧
          order.Perm m ∧ order.Pairwise (Before H) ∧ SOwnLoop H ex inv body u order u' m' ∧
          ∀ ops', SEachNew H inv P m' ops' → ∃ os' s₃ m'', I.run fuel hd ops' s₂ = .ok (os', s₃) ∧
            SRunBy (SStepX H ex inv) m' ops' os' m'' := by
  obtain ⟨os, s₁, t, F, m, e1, hi, e3, e4⟩ := hc.session h hf s
  obtain ⟨okA, ok⟩ := hc.ok
  refine ⟨_, os, s₁, m, e1, e3, fun body u hs => ?_⟩
  obtain ⟨u', s₂, t', F', b', G', g1, g2, _, _, g3⟩ := set_AllWith ok hf (Side.none K Unit) body (G := fun _ => False) (b := ()) u hi
    (fun _ h => h) (fun a h => h.elim) (hs _ e4.symm)
  refine ⟨u', s₂, absS t, absS t', g1, e4.symm, List.pairwise_map.2 (leaves_before hi.wf), g3, fun ops' h' => ?_⟩
  obtain ⟨os', s₃, t₃, F₃, q1, _, _, ⟨m'', q2, _⟩⟩ := set_run ok hf ops' (ks := absS t') g2 (fun _ => Iff.rfl) h'
  exact ⟨os', s₃, m'', q1, q2⟩

end

/-! ### C44: callbacks that also call another container -/

section
variable {K V U : Type} [DecidableEq K] [Inhabited V]

/-- A new container and the calls on it leave everything else alone. -/
theorem map_session_apart {I : MapImpl K V} {sd : Seed} {H : K → Nat → BitVec 64} {P : Bool → List K → K → Prop} {cl : Prop}
    {lossy : V → V} {okS okM : K → K → Nat → Prop} {fuel : Nat} (ok : MapOk I sd H P cl lossy okS okM) (hf : 256 ≤ fuel)
    (ops : List (MOp K V)) (s : St K V) (hm : EachNew P [] ops) :
    ∃ os s' t F, I.session fuel sd ops s = .ok ((some s.next, os), s') ∧ Inv I.cfg sd H cl s' s.next t F ∧
      (∃ m', RunBy (MStepX H cl lossy) [] ops os m' ∧ m'.Perm (absT t)) ∧
      (∀ a, a < s.next → s'.mem a = s.mem a ∧ s'.roots a = s.roots a) ∧ s.next ≤ s'.next ∧ (∀ a, F a → s.next < a) := by
  obtain ⟨s1, e1, i1, f1, n1, r1⟩ := Inv.new I.cfg sd H cl s
  obtain ⟨os, s2, t2, F2, e2, i2, c2, st, _⟩ := map_run ok hf ops (ks := []) i1
    (by rw [absT_new]; simp [FMap.keys]) hm
  rw [absT_new] at st
  refine ⟨os, s2, t2, F2, ?_, i2, st, fun a ha => ?_, by have := c2.next; omega, fun a ha => ?_⟩
  · rw [MapImpl.session, MapImpl.New, bind_ok e1, bind_ok e2]
    rfl
  · rw [c2.frame a (by omega) (by omega) (by omega), c2.roots a (by omega), f1 a ha, r1 a (by omega)]
    exact ⟨rfl, rfl⟩
  · rcases c2.foot a ha with h | h <;> omega

/-- A callback program that calls the container and another map. -/
abbrev _root_.Spec.DuoBody (K V R : Type) := Body (MOp K V) (MOut K V) (MOp K V) (MOut K V) R

variable {I I' : MapImpl K V} {sd sd' : Seed} {H H' : K → Nat → BitVec 64} {P P' : Bool → List K → K → Prop}
  {lossy lossy' : V → V} {ex ex' : Prop} {fuel : Nat}

/-- A loop over the entries of `m`, with calls on it and on another map with the contents `n`. -/
abbrev _root_.Spec.DuoLoop (H H' : K → Nat → BitVec 64) (ex ex' : Prop) (lossy lossy' : V → V)
    (body : U → K → V → DuoBody K V (U × Option V × Bool)) (u : U) (m n : FMap K V) (u' : U) (m' n' : FMap K V) : Prop :=
  RunLoop (MStepUp H ex lossy) (MStepUp H' ex' lossy') body m.keys u m n u' m' n'

/-- No call in the loop adds a key to or removes one from the map that is being iterated over; those added to the
other one satisfy `P'`. -/
abbrev _root_.Spec.DuoSafe (H H' : K → Nat → BitVec 64) (ex ex' : Prop) (lossy lossy' : V → V) (P' : Bool → List K → K → Prop)
    (body : U → K → V → DuoBody K V (U × Option V × Bool)) (u : U) (m n : FMap K V) : Prop :=
  SafeLoop (MStepUp H ex lossy) (MStepUp H' ex' lossy') MOp.KeepsKeys
    (fun n op => ∀ k ∈ op.stores, k ∉ n.keys → P' op.isMod n.keys k) body m.keys u m n

/-- C44: after any covered histories of two maps, `All` on the first with a callback that calls both, the second
one in every way, calls it once for every entry of the first in order of nibbles until it returns false; in each call,
and afterwards, both maps have the contents that the calls so far have left. -/
theorem C44_map (hc : MapContainer I sd H P lossy ex) (hc' : MapContainer I' sd' H' P' lossy' ex') {ops ops' : List (MOp K V)}
    (h : EachNew P [] ops) (h' : EachNew P' [] ops') (hf : 256 ≤ fuel) (s : St K V) :
    ∃ hd hd' os os' s₁ s₂ m n, I.session fuel sd ops s = .ok ((hd, os), s₁) ∧ I'.session fuel sd' ops' s₁ = .ok ((hd', os'), s₂) ∧
      RunBy (MStepX H ex lossy) [] ops os m ∧ RunBy (MStepX H' ex' lossy') [] ops' os' n ∧
      ∀ (body : U → K → V → DuoBody K V (U × Option V × Bool)) (u : U),
        (∀ order order', order.Perm m → order'.Perm n → DuoSafe H H' ex ex' lossy lossy' P' body u order order') →
        ∃ u' s₃ order order' m' n', I.AllWith fuel hd (I.callback fuel hd (I'.exec fuel hd') body) u s₂ = .ok (u', s₃) ∧
          order.Perm m ∧ order'.Perm n ∧ order.Pairwise (fun a b => Before H a.1 b.1) ∧
          DuoLoop H H' ex ex' lossy lossy' body u order order' u' m' n' ∧
          ∀ next next', EachNew P m'.keys next → EachNew P' n'.keys next' → ∃ out s₄ out' s₅ m'' n'',
            I.run fuel hd next s₃ = .ok (out, s₄) ∧ I'.run fuel hd' next' s₄ = .ok (out', s₅) ∧
            RunBy (MStepX H ex lossy) m' next out m'' ∧ RunBy (MStepX H' ex' lossy') n' next' out' n'' := by
  obtain ⟨os, s₁, t, F, m, e1, hi, e3, e4⟩ := hc.session h hf s
  obtain ⟨okS, okM, ok⟩ := hc.ok
  obtain ⟨okS', okM', ok'⟩ := hc'.ok
  obtain ⟨os', s₂, t', F', g1, gi, ⟨n, g3, g4⟩, gf, gn, gF⟩ := map_session_apart ok' hf ops' s₁ h'
  have hi2 : Inv I.cfg sd H ex s₂ s.next t F := hi.frame (gf _ hi.bound.1).1 (fun a ha => (gf a (hi.bound.2.2 a ha)).1)
    (gf _ hi.bound.1).2 gn
  refine ⟨_, _, os, os', s₁, s₂, m, n, e1, g1, e3, g3, fun body u hs => ?_⟩
  obtain ⟨u', s₃, t₃, F₃, n', G', q1, q2, ⟨t₃', F₃', q3, q4, q5⟩, q6, q7⟩ := map_AllWith ok hf (Side.map ok' hf s₁.next) body
    (G := fun a => a = s₁.next ∨ F' a) (b := absT t') u hi2 ⟨t', F', gi, rfl, fun _ => Iff.rfl⟩ (fun a ha => by
      rcases ha with rfl | ha
      · exact ⟨fun e => absurd hi.bound.1 (by omega), fun hF => absurd (hi.bound.2.2 _ hF) (by omega)⟩
      · have := gF a ha
        exact ⟨fun e => absurd hi.bound.1 (by omega), fun hF => absurd (hi.bound.2.2 _ hF) (by omega)⟩)
    (hs _ _ e4.symm g4.symm)
  refine ⟨u', s₃, absT t, absT t', absT t₃, n', q1, e4.symm, g4.symm, List.pairwise_map.2 (leaves_before hi.wf), q7,
    fun next next' hn hn' => ?_⟩
  subst q4
  obtain ⟨out, s₄, t₄, F₄, r1, _, r3, ⟨m'', r4, _⟩, _⟩ := map_run ok hf next (ks := (absT t₃).keys) q2 (fun _ => Iff.rfl) hn
  have hG : ∀ a, a = s₁.next ∨ F₃' a → s₄.mem a = s₃.mem a ∧ s₄.roots a = s₃.roots a := fun a ha => by
    have hx := q6 a ((q5 a).2 ha)
    have hb : a < s₃.next := by
      rcases ha with rfl | ha
      · exact q3.bound.1
      · exact q3.bound.2.2 a ha
    exact ⟨r3.frame a hb hx.1 hx.2, r3.roots a hx.1⟩
  have q3' := q3.frame (hG _ (Or.inl rfl)).1 (fun a ha => (hG a (Or.inr ha)).1) (hG _ (Or.inl rfl)).2 r3.next
  obtain ⟨out', s₅, t₅, F₅, w1, _, _, ⟨n'', w4, _⟩, _⟩ := map_run ok' hf next' (ks := (absT t₃').keys) q3' (fun _ => Iff.rfl) hn'
  exact ⟨out, s₄, out', s₅, m'', n'', r1, w1, r4, w4⟩

end

/-! ### C45: copying a map -/

section
variable {K V : Type} [DecidableEq K] [Inhabited V]

/-- The callback `func(key K, val *V) bool { dst.Set(key, *val); return true }`. -/
def _root_.Spec.copyBody (_ : Unit) (k : K) (v : V) : DuoBody K V (Unit × Option V × Bool) :=
  .other (.set k v) fun _ => .ret ((), none, true)

variable {I I' : MapImpl K V} {sd sd' : Seed} {H H' : K → Nat → BitVec 64} {P P' : Bool → List K → K → Prop}
  {lossy lossy' : V → V} {ex ex' : Prop} {fuel : Nat}

theorem copy_safe (hP : ∀ b ks ks' k, (∀ x, x ∈ ks ↔ x ∈ ks') → P' b ks k → P' b ks' k) (m : FMap K V) (L : FMap K V) :
    ∀ {ks : List K} {n : FMap K V}, (∀ e ∈ L, m.get e.1 = some e.2) → (∀ x, x ∈ ks ↔ x ∈ n.keys) →
    EachNew P' ks (L.map fun e => .set e.1 e.2) →
    SafeLoop (MStepUp H ex lossy) (MStepUp H' ex' lossy') MOp.KeepsKeys
      (fun n op => ∀ k ∈ op.stores, k ∉ n.keys → P' op.isMod n.keys k) copyBody L.keys () m n := by
  induction L with
  | nil => intro ks n _ _ _; trivial
  | cons e L ih =>
    intro ks n hL hks hn v hv
    rw [hL e (List.mem_cons_self ..)] at hv
    cases hv
    refine ⟨fun k hk hk' => hP _ _ _ _ hks (hn.1 k hk (fun h => hk' ((hks k).1 h))), fun y n₁ hy => fun _ m₂ hm₂ => ?_⟩
    cases hm₂
    obtain ⟨n₂, h2, hp⟩ := hy
    refine ih (fun e he => hL e (List.mem_cons_of_mem _ he)) (fun x => ?_) hn.2
    rw [← (FMap.keys_perm hp).mem_iff, h2.after_keys]
    simp only [MOp.after]
    have := hks e.1
    split <;> split <;> simp_all

theorem copy_run (hl : ∀ v, lossy' v = v) (m : FMap K V) (L : FMap K V) :
    ∀ {n : FMap K V} {u' : Unit} {m' n' : FMap K V}, (∀ e ∈ L, m.get e.1 = some e.2) → L.keys.Nodup → n.keys.Nodup →
    RunLoop (MStepUp H ex lossy) (MStepUp H' ex' lossy') copyBody L.keys () m n u' m' n' →
    m' = m ∧ n'.keys.Nodup ∧ ∀ x, n'.get x = (L.get x).or (n.get x) := by
  induction L with
  | nil =>
    rintro n u' m' n' _ _ hn ⟨_, rfl, rfl⟩
    exact ⟨rfl, hn, fun x => rfl⟩
  | cons e L ih =>
    rintro n u' m' n' hL hd hn ⟨v, r, m₁, b₁, m₂, hv, hr, ha, hi⟩
    rw [hL e (List.mem_cons_self ..)] at hv
    cases hv
    obtain ⟨y, n₁, ⟨n₂, h2, hp⟩, rfl, rfl, rfl⟩ := hr
    cases ha
    have hd' : e.1 ∉ FMap.keys L ∧ (FMap.keys L).Nodup := List.nodup_cons.1 hd
    obtain ⟨_, rfl⟩ := MStepX.toStep hl h2
    have hn2 := FMap.nodup_set hn e.1 e.2
    obtain ⟨g1, g2, g3⟩ := ih (fun e he => hL e (List.mem_cons_of_mem _ he)) hd'.2 ((FMap.keys_perm hp).nodup_iff.1 hn2) hi
    refine ⟨g1, g2, fun x => ?_⟩
    rw [g3, ← FMap.get_perm hp hn2]
    by_cases hx : x = e.1
    · subst hx
      rw [FMap.get_eq_none.2 hd'.1, FMap.get_set_same]
      simp [FMap.get]
    · rw [FMap.get_set_other _ _ hx]
      simp [FMap.get, hx]

/-- C45: `src.All(func(key K, val *V) bool { dst.Set(key, *val); return true })` makes `dst` hold the entries of `src`
over its old ones, and leaves `src` as it is - if `dst` is covered for them in every order. -/
theorem C45_copy (hc : MapContainer I sd H P lossy ex) (hc' : MapContainer I' sd' H' P' lossy' ex') (hl : ∀ v, lossy' v = v)
    {ops ops' : List (MOp K V)} (h : EachNew P [] ops) (h' : EachNew P' [] ops') (hf : 256 ≤ fuel) (s : St K V) :
    ∃ hd hd' os os' s₁ s₂ m n, I.session fuel sd ops s = .ok ((hd, os), s₁) ∧ I'.session fuel sd' ops' s₁ = .ok ((hd', os'), s₂) ∧
      RunBy (MStepX H ex lossy) [] ops os m ∧ RunBy (MStepX H' ex' lossy') [] ops' os' n ∧
      ((∀ order : FMap K V, order.Perm m → EachNew P' n.keys (order.map fun e => .set e.1 e.2)) →
        ∃ s₃ m' n', I.AllWith fuel hd (I.callback fuel hd (I'.exec fuel hd') copyBody) () s₂ = .ok ((), s₃) ∧
          m'.Perm m ∧ n'.keys.Nodup ∧ (∀ x, n'.get x = (m.get x).or (n.get x)) ∧
          ∀ next next', EachNew P m'.keys next → EachNew P' n'.keys next' → ∃ out s₄ out' s₅ m'' n'',
            I.run fuel hd next s₃ = .ok (out, s₄) ∧ I'.run fuel hd' next' s₄ = .ok (out', s₅) ∧
            RunBy (MStepX H ex lossy) m' next out m'' ∧ RunBy (MStepX H' ex' lossy') n' next' out' n'') := by
  obtain ⟨hd, hd', os, os', s₁, s₂, m, n, e1, e2, e3, e4, e5⟩ := C44_map (U := Unit) hc hc' h h' hf s
  refine ⟨hd, hd', os, os', s₁, s₂, m, n, e1, e2, e3, e4, fun hs => ?_⟩
  obtain ⟨okS', okM', ok'⟩ := hc'.ok
  have hm : m.keys.Nodup := e3.nodup (by simp [FMap.keys])
  have hn : n.keys.Nodup := e4.nodup (by simp [FMap.keys])
  have hself : ∀ order : FMap K V, order.Perm m → ∀ e ∈ order, order.get e.1 = some e.2 := fun order ho e he =>
    (FMap.get_eq_some ((FMap.keys_perm ho).nodup_iff.2 hm)).2 he
  obtain ⟨u', s₃, order, order', m', n', g1, g2, g3, g4, g5, g6⟩ := e5 copyBody () (fun order order' ho ho' =>
    copy_safe ok'.congr order order (hself order ho) (fun x => ((FMap.keys_perm ho').mem_iff (a := x)).symm) (hs order ho))
  obtain ⟨q1, q2, q3⟩ := copy_run hl order order (hself order g2) ((FMap.keys_perm g2).nodup_iff.2 hm)
    ((FMap.keys_perm g3).nodup_iff.2 hn) g5
  subst q1
  refine ⟨s₃, m', n', g1, g2, q2, fun x => ?_, g6⟩
  rw [q3, FMap.get_perm g3.symm hn, FMap.get_perm g2.symm hm]

/-- C45 for a destination that hashes bytes: it is enough that all the keys are told apart by their first 241 nibbles. -/
theorem C45_copy_bytes (hc : MapContainer I sd H P lossy ex) (hc' : MapContainer I' sd' H' (fun _ => ByteFits H') lossy' ex')
    (hl : ∀ v, lossy' v = v) {ops ops' : List (MOp K V)} (h : EachNew P [] ops)
    (hsep : Separated H' (fun k => Stores ops k ∨ Stores ops' k)) (hf : 256 ≤ fuel) (s : St K V) :
    ∃ hd hd' os os' s₁ s₂ m n, I.session fuel sd ops s = .ok ((hd, os), s₁) ∧ I'.session fuel sd' ops' s₁ = .ok ((hd', os'), s₂) ∧
      RunBy (MStepX H ex lossy) [] ops os m ∧ RunBy (MStepX H' ex' lossy') [] ops' os' n ∧
      ∃ s₃ m' n', I.AllWith fuel hd (I.callback fuel hd (I'.exec fuel hd') copyBody) () s₂ = .ok ((), s₃) ∧
        m'.Perm m ∧ n'.keys.Nodup ∧ (∀ x, n'.get x = (m.get x).or (n.get x)) ∧
        ∀ next next', EachNew P m'.keys next → EachNew (fun _ => ByteFits H') n'.keys next' → ∃ out s₄ out' s₅ m'' n'',
          I.run fuel hd next s₃ = .ok (out, s₄) ∧ I'.run fuel hd' next' s₄ = .ok (out', s₅) ∧
          RunBy (MStepX H ex lossy) m' next out m'' ∧ RunBy (MStepX H' ex' lossy') n' next' out' n'' := by
  have h' : EachNew (fun _ => ByteFits H') [] ops' :=
    Separated.eachNew fun a b ha hb => hsep a b (Or.inr ha) (Or.inr hb)
  obtain ⟨hd, hd', os, os', s₁, s₂, m, n, e1, e2, e3, e4, e5⟩ := C45_copy hc hc' hl h h' hf s
  have key : ∀ {l : List (MOp K V)} {k}, k ∈ keysAfter [] l → Stores l k := by
    intro l k
    suffices ∀ ks : List K, k ∈ keysAfter ks l → k ∈ ks ∨ Stores l k from fun h => (this [] h).resolve_left (by simp)
    induction l with
    | nil => exact fun ks h => Or.inl h
    | cons op l ih =>
      intro ks h
      rcases ih (op.after ks) h with h | ⟨o, h1, h2⟩
      · rcases mem_after_stores h with h | h
        · exact Or.inl h
        · exact Or.inr ⟨op, by simp, h⟩
      · exact Or.inr ⟨o, by simp [h1], h2⟩
  refine ⟨hd, hd', os, os', s₁, s₂, m, n, e1, e2, e3, e4, e5 fun order ho => ?_⟩
  refine EachNew.of_pairs (S := fun k => Stores ops k ∨ Stores ops' k) (fun _ ks k h1 h2 h3 => ByteFits.of_near fun k' hk' =>
    hsep k k' h2 (h1 k' hk') fun e => h3 (e ▸ hk')) (fun k hk => Or.inr (key ((e4.keysAfter k).1 hk))) ?_
  rintro k ⟨op, h1, h2⟩
  obtain ⟨e, he, rfl⟩ := List.mem_map.1 h1
  rw [MOp.stores, List.mem_singleton] at h2
  subst h2
  exact Or.inl (key ((e3.keysAfter _).1 (FMap.mem_keys.2 ⟨e.2, ho.mem_iff.1 he⟩)))

end

/-! ### Examples -/

/-- A callback that reads the value of the key once more, stores its successor, reads the length of the map, and stops
when the sum of the values has reached 1000. -/
def exBody {K : Type} (u : Nat) (k : K) (v : Nat) : OwnBody (MOp K Nat) (MOut K Nat) (Nat × Option Nat × Bool) :=
  .call (.get k) fun _ => .call (.set k (v + 1)) fun _ => .call .len fun _ => .ret (u + v, none, decide (u + v < 1000))

theorem exBody_safe {K : Type} [DecidableEq K] {H : K → Nat → BitVec 64} {ex : Prop} {lossy : Nat → Nat} (ks : List K) :
    ∀ (u : Nat) (m : FMap K Nat), SafeLoop (B := Unit) (MStepUp H ex lossy) (fun _ _ _ _ => False) MOp.KeepsKeys (fun _ _ => False)
      exBody ks u m () := by
  induction ks with
  | nil => intro u m; trivial
  | cons k ks ih =>
    intro u m v hv
    have hk : k ∈ m.keys := Classical.byContradiction fun h => by rw [FMap.get_eq_none.2 h] at hv; cases hv
    refine ⟨fun x => Iff.rfl, fun o₁ m₁ h₁ => ⟨fun x => ?_, fun o₂ m₂ h₂ => ⟨fun x => Iff.rfl, fun o₃ m₃ h₃ => fun _ m₄ h₄ => ih _ _⟩⟩⟩
    obtain ⟨m', h1, hp⟩ := h₁
    have : k ∈ m₁.keys := by rw [← (FMap.keys_perm hp).mem_iff, h1.after_keys]; exact hk
    simp only [MOp.after, if_pos this]

example := C43_map (U := Nat) (MapContainer.string (V := Nat) toyHash 0#64) exOps_str (Nat.le_refl 256) St.init
example {K : Type} [DecidableEq K] {H : K → Nat → BitVec 64} {lossy : Nat → Nat} (order : FMap K Nat) :
    OwnSafe H True lossy exBody 0 order := exBody_safe _ _ _

/-- A callback that looks for the element, and reads the length and the elements of the set. -/
def exBodyS {K : Type} (u : Nat) (k : K) : OwnBody (SOp K) (SOut K) (Nat × Bool) :=
  .call (.has k) fun o => .call .len fun o' => .call (.all fun _ _ => true) fun _ =>
    .ret (u + 1, match o, o' with | .bool b, .num n => b && decide (u < n) | _, _ => true)

theorem exBodyS_safe {K : Type} [DecidableEq K] {H : K → Nat → BitVec 64} {ex : Prop} {inv : Bool} (ks : List K) :
    ∀ (u : Nat) (m : List K), SSafeLoop (B := Unit) (SStepUp H ex inv) (fun _ _ _ _ => False) (SOp.KeepsElems H inv) (fun _ _ => False)
      exBodyS ks u m () := by
  induction ks with
  | nil => intro u m; trivial
  | cons k ks ih =>
    intro u m
    exact ⟨fun x => Iff.rfl, fun _ _ _ => ⟨fun x => Iff.rfl, fun _ _ _ => ⟨fun x => Iff.rfl, fun _ _ _ => fun _ => ih _ _⟩⟩⟩

example := C43_set (U := Nat) (SetContainer.bytes toyHash 0#64) exOpsS_bytes (Nat.le_refl 256) St.init
example {K : Type} [DecidableEq K] {H : K → Nat → BitVec 64} (order : List K) : SOwnSafe H True true exBodyS 0 order :=
  exBodyS_safe _ _ _

example := C44_map (U := Nat) (MapContainer.string (V := Nat) toyHash 0#64) (MapContainer.bytes (V := Nat) toyHash 5#64) exOps_str
  (ops' := [.set (strKey 0x33) 7]) (by decide +kernel) (Nat.le_refl 256) St.init

/-- Copying a string map into a byte map that has an entry of its own, and one in common. -/
example := C45_copy_bytes (MapContainer.string (V := Nat) toyHash 0#64) (MapContainer.bytes (V := Nat) toyHash 0#64) (fun _ => rfl)
  exOps_str (ops' := [.set (strKey 0x33) 7, .set (strKey 0x01) 8]) (by
    have hf : ∀ k, Stores (exOps strKey) k ∨ Stores [.set (strKey 0x33) 7, .set (strKey 0x01) (8 : Nat)] k →
        k ∈ [strKey 0x01, strKey 0x11, strKey 0x02, strKey 0x21, strKey 0x33] := by
      rintro k (⟨op, h1, h2⟩ | ⟨op, h1, h2⟩)
      · revert h2; revert op; simp only [exOps, List.forall_mem_cons]; simp +contextual [MOp.stores]
      · revert h2; revert op; simp only [List.forall_mem_cons]; simp +contextual [MOp.stores]
    have hd : ∀ a ∈ [strKey 0x01, strKey 0x11, strKey 0x02, strKey 0x21, strKey 0x33], ∀ b ∈ [strKey 0x01, strKey 0x11,
        strKey 0x02, strKey 0x21, strKey 0x33], a ≠ b → nibble (byteStream toyHash 0#64 id) a 0 ≠ nibble (byteStream toyHash 0#64 id) b 0 ∨
        nibble (byteStream toyHash 0#64 id) a 1 ≠ nibble (byteStream toyHash 0#64 id) b 1 := by decide +kernel
    intro a b ha hb hab
    rcases hd a (hf a ha) b (hf b hb) hab with h | h
    · exact ⟨0, by omega, h⟩
    · exact ⟨1, by omega, h⟩) (Nat.le_refl 256) St.init

end Amt
