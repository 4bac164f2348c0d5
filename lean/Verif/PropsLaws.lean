/-
Algebraic laws: idempotence (C34), commuting updates (C35), emptying (C36), and extensionality (C42): a map is
determined, as far as any later call can tell, by what `Get` returns.
-/
import Verif.PropsMisc
import Verif.BugsMore

set_option linter.unusedVariables false
set_option linter.unusedSectionVars false

namespace Amt
open T Spec

/-! ### Updating a present key -/

/-- In any memory: if the search finds the key's cell, an insertion only does what it does to a present key. -/
theorem upsert_of_lookup {K V R : Type} {c : Cfg K} {h fuel : Nat} {key : K} {s s' : St K V} {p : Amt.Ptr} (ins : Ins K V R)
    (hl : lookup c h fuel key s = .ok (some p, s')) : upsert c h fuel key ins s = ins.hit p s' := by
  unfold Amt.lookup at hl
  unfold Amt.upsert
  rw [bind_ok (getRoot_run h s)] at hl ⊢
  rw [bind_run] at hl ⊢
  cases hs : search c (s.roots h).seed key fuel (start c (s.roots h).seed key h) s with
  | error e => rw [hs] at hl; cases hl
  | ok r =>
    obtain ⟨⟨cur, hit⟩, s₁⟩ := r
    rw [hs] at hl
    simp only at hl ⊢
    cases hit with
    | false => cases hl
    | true =>
      simp only [if_true] at hl ⊢
      unfold conflict
      rw [bind_run] at hl ⊢
      cases hi : itemRef cur s₁ with
      | error e => rw [hi] at hl; cases hl
      | ok r =>
        rw [hi] at hl
        simp only at hl ⊢
        rw [bind_run] at hl ⊢
        cases hx : load r.1 r.2 with
        | error e => rw [hx] at hl; cases hl
        | ok x =>
          rw [hx] at hl
          simp only at hl ⊢
          rw [bind_run] at hl ⊢
          cases hk : readKey c x.1 x.2 with
          | error e => rw [hk] at hl; cases hl
          | ok y =>
            rw [hk] at hl
            simp only at hl ⊢
            split at hl
            · rename_i he
              rw [if_pos he]
              cases hl
              rfl
            · cases hl

theorem storeVal_self {K V : Type} {p : Amt.Ptr} {o : Option K} {v : V} {s : St K V} (h : loadKv p s = .ok ((o, v), s)) :
    storeVal p v s = .ok ((), s) := by
  unfold loadKv at h
  split at h
  · cases h
  · rename_i b
    split at h
    · cases h
    · cases h
    · rename_i ko w hm
      cases h
      rw [storeVal_ok hm, put_self hm]

section
variable {K V : Type} [DecidableEq K] [Inhabited V] {I : MapImpl K V} {sd : Seed} {H : K → Nat → BitVec 64}
  {P : Bool → List K → K → Prop} {lossy : V → V} {ex : Prop} {fuel : Nat}

theorem MapContainer.hit (hc : MapContainer I sd H P lossy ex) (k : K) (v : V) (p : Amt.Ptr) : (I.setI k v).hit p = storeVal p v := by
  cases hc <;> rfl

theorem MapContainer.hitMod (hc : MapContainer I sd H P lossy ex) (k : K) (f : V → Bool → V) (p : Amt.Ptr) :
    (I.modI k f).hit p = (loadKv p >>= fun kv => storeVal p (f kv.2 true) >>= fun _ => Pure.pure [(kv.2, true)]) := by
  cases hc <;> rfl

/-! ### C34: idempotence -/

/-- C34, `Set`: the second of two equal `Set`s in a row changes not a single word of memory.  (For `ArrMap`, whose `Set`
of a new colliding key drops the value, only if the key was present or does not collide; see `C34_ArrMap_refuted`.) -/
theorem C34_set_twice (hc : MapContainer I sd H P lossy ex) {ops : List (MOp K V)} {k : K} {v : V}
    (h : EachNew P [] (ops ++ [.set k v]))
    (hl : lossy v = v ∨ k ∈ keysAfter [] ops ∨ ¬ Collides H (keysAfter [] ops) k) (hf : 256 ≤ fuel) (s : St K V) :
    ∃ m os s₁, I.session fuel sd (ops ++ [.set k v]) s = .ok ((m, os), s₁) ∧ I.exec fuel m (.set k v) s₁ = .ok (.unit, s₁) := by
  obtain ⟨os, s', t, F, m, e1, i1, e3, e4⟩ := hc.session h hf s
  obtain ⟨okS, okM, ok⟩ := hc.ok
  refine ⟨_, os, s', e1, ?_⟩
  obtain ⟨os₁, os₂, m₀, rfl, r1, r2⟩ := e3.split
  have k1 : ∀ x, x ∈ m₀.keys ↔ x ∈ keysAfter [] ops := r1.keysAfter
  rw [run_set (by rwa [k1, show Collides H m₀.keys k ↔ Collides H (keysAfter [] ops) k from
    ⟨Collides.congr k1, Collides.congr fun x => (k1 x).symm⟩])] at r2
  obtain ⟨_, ⟨_, rfl⟩, _⟩ := r2
  have hg : (absT t).get k = some v := by
    rw [← FMap.get_perm e4 (e3.nodup (by simp [FMap.keys])), FMap.get_set_same]
  rw [← find_absT i1.wf] at hg
  cases hfd : find (nbOf H) k t 0 with
  | none => rw [hfd] at hg; cases hg
  | some e =>
    obtain ⟨p, w⟩ := e
    rw [hfd] at hg
    obtain rfl : w = v := by simpa using hg
    have hp := Ptr_run ok i1 hf k
    rw [hfd, MapImpl.Ptr, deref, pure_bind_M] at hp
    obtain ⟨o, e5⟩ := load_found ok i1 hfd
    have hs : I.Set fuel (some s.next) k w s' = .ok ((), s') := by
      rw [MapImpl.Set, deref, pure_bind_M, upsert_of_lookup _ hp, hc.hit]
      exact storeVal_self e5
    rw [MapImpl.exec, bind_ok hs]; rfl

example := C34_set_twice (MapContainer.string (V := Nat) toyHash 0#64) (ops := exOps strKey) (k := strKey 0x12) (v := 5)
  (by decide +kernel) (Or.inl rfl) (Nat.le_refl 256) St.init

/-- C34, `Del`. -/
theorem C34_del_twice (hc : MapContainer I sd H P lossy ex) {ops : List (MOp K V)} (k : K)
    (h : EachNew P [] ops) (hf : 256 ≤ fuel) (s : St K V) :
    ∃ m os s₁, I.session fuel sd (ops ++ [.del k]) s = .ok ((m, os), s₁) ∧ I.exec fuel m (.del k) s₁ = .ok (.unit, s₁) := by
  obtain ⟨m, os, s₁, e1, e2⟩ := C13_del_absent (k := k) hc (ops := ops ++ [.del k])
    (EachNew.append.2 ⟨h, EachNew.quiet (by simp [MOp.stores])⟩)
    (by simp [keysAfter, List.foldl_append, MOp.after]) hf s
  exact ⟨m, os, s₁, e1, by rw [MapImpl.exec, bind_ok e2]; rfl⟩

example := C34_del_twice (MapContainer.string (V := Nat) toyHash 0#64) (strKey 0x11) exOps_str (Nat.le_refl 256) St.init

/-! ### C42: extensionality -/

theorem MapImpl.After.unique {s : St K V} {ops ops' : List (MOp K V)} {o₁ o₂ : List (MOut K V)}
    (h₁ : I.After fuel sd s ops ops' o₁) (h₂ : I.After fuel sd s ops ops' o₂) : o₁ = o₂ := by
  obtain ⟨m, os, s₁, s₂, e1, e2⟩ := h₁
  obtain ⟨m', os', s₁', s₂', e1', e2'⟩ := h₂
  rw [e1] at e1'; cases e1'
  rw [e2] at e2'; cases e2'
  rfl

theorem EachNew.congr (hP : ∀ b ks ks' k, (∀ x, x ∈ ks ↔ x ∈ ks') → P b ks k → P b ks' k) {ops : List (MOp K V)} :
    ∀ {ks ks' : List K}, (∀ x, x ∈ ks ↔ x ∈ ks') → EachNew P ks ops → EachNew P ks' ops := by
  induction ops with
  | nil => intro ks ks' _ _; trivial
  | cons op ops ih =>
    intro ks ks' hk h
    exact ⟨fun k h1 h2 => hP _ _ _ _ hk (h.1 k h1 fun h => h2 ((hk k).1 h)), ih (fun x => mem_after hk) h.2⟩

/-- Without `Dep`, every answer is determined even where the depth statistics are not covered. -/
theorem _root_.Spec.RunBy.exact {ops : List (MOp K V)} (h : ex ∨ MOp.dep ∉ ops) :
    ∀ {m : FMap K V} {os : List (MOut K V)} {m' : FMap K V}, RunBy (MStepX H ex lossy) m ops os m' →
      RunBy (MStepX H True lossy) m ops os m' := by
  induction ops with
  | nil => intro m os m' h; exact h
  | cons op ops ih =>
    rintro m os m' ⟨o, os', m₁, rfl, h1, h2⟩
    refine ⟨o, os', m₁, rfl, ?_, ih (h.imp id fun h h' => h (by simp [h'])) h2⟩
    cases op with
    | dep =>
      obtain ⟨⟨q, rfl, h1⟩, rfl⟩ := h1
      exact ⟨⟨q, rfl, fun _ => h1 (h.resolve_right (by simp))⟩, rfl⟩
    | _ => exact h1

/-- What a map does after a history, with the final entries. -/
theorem MapContainer.reach' (hc : MapContainer I sd H P lossy ex) {ops : List (MOp K V)} (h : EachNew P [] ops)
    (hf : 256 ≤ fuel) (s : St K V) :
    ∃ os m, RunBy (MStepX H ex lossy) [] ops os m ∧ m.keys.Nodup ∧ (∀ x, x ∈ m.keys ↔ x ∈ keysAfter [] ops) ∧
      ∀ ks ops', (∀ x, x ∈ ks ↔ x ∈ m.keys) → EachNew P ks ops' → ∃ os' m', I.After fuel sd s ops ops' os' ∧
        RunBy (MStepX H ex lossy) m ops' os' m' := by
  obtain ⟨os, s', t, F, m, e1, i1, e3, e4⟩ := hc.session h hf s
  obtain ⟨okS, okM, h1⟩ := hc.ok
  refine ⟨os, m, e3, e3.nodup (by simp [FMap.keys]), e3.keysAfter, fun ks ops' hks h' => ?_⟩
  obtain ⟨os', s₂, t', F', e5, _, _, ⟨m', e6, e7⟩, _⟩ := map_run h1 hf ops' (ks := ks) i1
    (fun x => by rw [← (FMap.keys_perm e4).mem_iff, hks]) h'
  obtain ⟨m'', e8, _⟩ := e6.perm e4.symm (nodup_absT i1.wf)
  exact ⟨os', m'', ⟨_, _, _, _, e1, e5⟩, e8⟩

/-- C42.  If `Get` returns the same for every key after two histories (with the same seed, in any two heaps), no sequence
of later calls can tell them apart: not even by the order of `All`, or by `Dep`. -/
theorem C42_map (hc : MapContainer I sd H P lossy ex) {ops₁ ops₂ ops' : List (MOp K V)}
    (h₁ : EachNew P [] ops₁) (h₂ : EachNew P [] ops₂) (h' : EachNew P (keysAfter [] ops₁) ops') (hex : ex ∨ MOp.dep ∉ ops') (hf : 256 ≤ fuel)
    (s₁ s₂ : St K V)
    (hg : ∀ k, ∃ o, I.After fuel sd s₁ ops₁ [.get k] [o] ∧ I.After fuel sd s₂ ops₂ [.get k] [o]) :
    ∃ os, I.After fuel sd s₁ ops₁ ops' os ∧ I.After fuel sd s₂ ops₂ ops' os := by
  obtain ⟨_, m₁, _, n1, k1, r1⟩ := hc.reach' h₁ hf s₁
  obtain ⟨_, m₂, _, n2, k2, r2⟩ := hc.reach' h₂ hf s₂
  have hp : m₁.Perm m₂ := by
    refine FMap.perm_of_get n1 n2 fun k => ?_
    obtain ⟨o, g1, g2⟩ := hg k
    obtain ⟨_, _, a1, q1⟩ := r1 _ [.get k] (fun _ => Iff.rfl) (EachNew.quiet (by simp [MOp.stores]))
    obtain ⟨_, _, a2, q2⟩ := r2 _ [.get k] (fun _ => Iff.rfl) (EachNew.quiet (by simp [MOp.stores]))
    simp only [run_get, run_nil, and_assoc, exists_eq_left] at q1 q2
    have e := (g1.unique (q1.2 ▸ a1)).symm.trans (g2.unique (q2.2 ▸ a2))
    simp only [List.cons.injEq, MOut.pair.injEq, and_true] at e
    cases hx : m₁.get k <;> cases hy : m₂.get k <;> simp_all
  obtain ⟨os₁, m₁', a1, q1⟩ := r1 _ ops' (fun x => (k1 x).symm) h'
  obtain ⟨os₂, m₂', a2, q2⟩ := r2 _ ops' (fun x => by rw [← k1, (FMap.keys_perm hp).mem_iff]) h'
  obtain ⟨rfl, _⟩ := (q1.exact hex).det trivial hp n1 (q2.exact hex)
  exact ⟨_, a1, a2⟩

/-- A key overwritten and another one inserted and deleted. -/
example := C42_map (MapContainer.string (V := Nat) toyHash 0#64) (ops₁ := [.set (strKey 0x01) 7])
  (ops₂ := [.set (strKey 0x01) 5, .set (strKey 0x11) 6, .set (strKey 0x01) 7, .del (strKey 0x11)])
  (ops' := [.dep, .all readAll, .set (strKey 0x21) 7, .len]) (by decide +kernel) (by decide +kernel) (by decide +kernel)
  (Or.inl trivial) (Nat.le_refl 256) St.init St.init (by
    intro k
    obtain ⟨_, m₁, e1, _, _, r1⟩ := (MapContainer.string (V := Nat) toyHash 0#64).reach
      (ops := [.set (strKey 0x01) 7]) (by decide +kernel) (Nat.le_refl 256) St.init
    obtain ⟨_, m₂, e2, _, _, r2⟩ := (MapContainer.string (V := Nat) toyHash 0#64).reach
      (ops := [.set (strKey 0x01) 5, .set (strKey 0x11) 6, .set (strKey 0x01) 7, .del (strKey 0x11)]) (by decide +kernel) (Nat.le_refl 256) St.init
    obtain ⟨_, _, a1, q1⟩ := r1 [.get k] (EachNew.quiet (by simp [MOp.stores]))
    obtain ⟨_, _, a2, q2⟩ := r2 [.get k] (EachNew.quiet (by simp [MOp.stores]))
    have hl : ∀ (v : Nat) (k : ByteStr) (m : FMap ByteStr Nat), id v = v ∨ k ∈ m.keys ∨ ¬ Collides (byteStream toyHash 0#64 id) m.keys k :=
      fun _ _ _ => Or.inl rfl
    simp only [run_set (hl _ _ _), run_del, run_nil, run_get, and_assoc, exists_and_left, exists_eq_left] at e1 e2 q1 q2
    obtain ⟨rfl, _⟩ := e1
    obtain ⟨rfl, _⟩ := e2
    have : FMap.get (((FMap.set (FMap.set (FMap.set [] (strKey 1) 5) (strKey 17) 6) (strKey 1) 7)).del (strKey 17)) k =
        FMap.get (FMap.set [] (strKey 1) 7) k := by
      have : FMap.del (FMap.set (FMap.set (FMap.set [] (strKey 1) 5) (strKey 17) 6) (strKey 1) 7) (strKey 17) =
        FMap.set ([] : FMap ByteStr Nat) (strKey 1) 7 := by decide +kernel
      rw [this]
    rw [this] at q2
    exact ⟨_, q1.2 ▸ a1, q2.2 ▸ a2⟩)

/-! ### C35: updates of different keys commute -/

/-- What a call returns and leaves as the value of its key, given the value before (`none` if missing). -/
def updOut : MOp K V → Option V → MOut K V
  | .mod _ _, o => .calls [(o.getD default, o.isSome)]
  | _, _ => .unit

def updVal : MOp K V → Option V → Option V
  | .set _ v, _ => some v
  | .mod _ f, o => some (f (o.getD default) o.isSome)
  | .del _, _ => none
  | .write _ v, o => o.map fun _ => v
  | _, o => o

theorem Updates.exact {k : K} {op : MOp K V} (hu : Updates k op) {m m' : FMap K V} {o : MOut K V}
    (h : MStepX H ex lossy m op o m') : MStepX H True lossy m op o m' := by
  cases hu <;> exact h

theorem Updates.own {k : K} {op : MOp K V} (hu : Updates k op) {m m' : FMap K V} {o : MOut K V}
    (hl : ∀ v, op = .set k v → lossy v = v ∨ k ∈ m.keys) (h : MStepX H ex lossy m op o m') :
    o = updOut op (m.get k) ∧ m'.get k = updVal op (m.get k) := by
  cases hu with
  | set v =>
    obtain ⟨rfl, ⟨h1, _, rfl⟩ | ⟨_, rfl⟩⟩ := h
    · refine ⟨rfl, ?_⟩
      rcases hl v rfl with h | h
      · rw [h, FMap.get_set_same]; rfl
      · exact absurd h (FMap.get_eq_none.1 h1)
    · exact ⟨rfl, by rw [FMap.get_set_same]; rfl⟩
  | mod f =>
    simp only [MStepX, MStep] at h
    split at h <;> rename_i hg <;> obtain ⟨rfl, rfl⟩ := h <;> rw [hg, FMap.get_set_same] <;> exact ⟨rfl, rfl⟩
  | del => obtain ⟨rfl, rfl⟩ := h; exact ⟨rfl, FMap.get_del_same _ _⟩
  | write v =>
    obtain ⟨rfl, rfl⟩ := h
    refine ⟨rfl, ?_⟩
    split
    · rename_i hs
      rw [FMap.get_set_same]
      obtain ⟨w, hw⟩ := Option.isSome_iff_exists.1 hs
      rw [hw]; rfl
    · rename_i hs
      rw [Option.not_isSome_iff_eq_none.1 hs]; rfl

/-- C35.  Two updates of different keys commute: each returns the same in either order, and no later call can tell in which
order they were made. -/
theorem C35_map (hc : MapContainer I sd H P lossy ex) {ops ops' : List (MOp K V)} {k₁ k₂ : K} {a b : MOp K V}
    (hne : k₁ ≠ k₂) (ha : Updates k₁ a) (hb : Updates k₂ b)
    (hl : ∀ k v, a = .set k v ∨ b = .set k v → lossy v = v ∨ k ∈ keysAfter [] ops)
    (h₁ : EachNew P [] (ops ++ [a, b])) (h₂ : EachNew P [] (ops ++ [b, a]))
    (h' : EachNew P (keysAfter [] (ops ++ [a, b])) ops') (hex : ex ∨ MOp.dep ∉ ops') (hf : 256 ≤ fuel) (s : St K V) :
    ∃ x y os, I.After fuel sd s ops (a :: b :: ops') (x :: y :: os) ∧ I.After fuel sd s ops (b :: a :: ops') (y :: x :: os) := by
  obtain ⟨g0, g1⟩ := EachNew.append.1 h₁
  obtain ⟨_, g2⟩ := EachNew.append.1 h₂
  obtain ⟨os, m, e3, n1, k1, r⟩ := hc.reach' g0 hf s
  obtain ⟨os₁, m₁, a1, q1⟩ := r (keysAfter [] ops) (a :: b :: ops') (fun x => (k1 x).symm)
    ⟨g1.1, g1.2.1, by rwa [keysAfter, List.foldl_append] at h'⟩
  have q1' := q1
  rw [run_cons] at q1'
  obtain ⟨x, ma, sa, _, q1', rfl⟩ := q1'
  rw [run_cons] at q1'
  obtain ⟨y, mab, sb, osr, q1', rfl⟩ := q1'
  have hlm : ∀ k v, a = .set k v ∨ b = .set k v → lossy v = v ∨ k ∈ m.keys := fun k v h => (hl k v h).imp id (k1 k).2
  have oa := ha.own (fun v h => hlm k₁ v (Or.inl h)) sa
  have ob := hb.own (fun v h => (hlm k₂ v (Or.inr h)).imp id fun h => by
    rw [← isSome_get, ha.other hne.symm sa, isSome_get]; exact h) sb
  rw [ha.other hne.symm sa] at ob
  -- the other order
  obtain ⟨_, mba, c1, c2⟩ := r (keysAfter [] ops) [b, a] (fun x => (k1 x).symm) g2
  have c2' := c2
  rw [run_cons] at c2'
  obtain ⟨y', mb, tb, _, c2', rfl⟩ := c2'
  rw [run_cons] at c2'
  obtain ⟨x', mz, ta, _, c2', rfl⟩ := c2'
  obtain ⟨rfl, rfl⟩ := c2'
  have ob' := hb.own (fun v h => hlm k₂ v (Or.inr h)) tb
  have oa' := ha.own (fun v h => (hlm k₁ v (Or.inl h)).imp id fun h => by
    rw [← isSome_get, hb.other hne tb, isSome_get]; exact h) ta
  rw [hb.other hne tb] at oa'
  obtain rfl : x' = x := oa'.1.trans oa.1.symm
  obtain rfl : y' = y := ob'.1.trans ob.1.symm
  have nab := sb.nodup (sa.nodup n1)
  have nba := ta.nodup (tb.nodup n1)
  have hp : mab.Perm mba := by
    refine FMap.perm_of_get nab nba fun k => ?_
    by_cases hk1 : k = k₁
    · subst hk1; rw [hb.other hne sb, oa.2, oa'.2]
    · by_cases hk2 : k = k₂
      · subst hk2; rw [ob.2, ha.other hne.symm ta, ob'.2]
      · rw [hb.other hk2 sb, ha.other hk1 sa, ha.other hk1 ta, hb.other hk2 tb]
  have hkk : ∀ z, z ∈ keysAfter [] (ops ++ [a, b]) ↔ z ∈ keysAfter [] (ops ++ [b, a]) := by
    intro z
    have h3 : RunBy (MStepX H ex lossy) [] (ops ++ [a, b]) (os ++ [x', y']) mab :=
      e3.append ⟨_, _, _, rfl, sa, _, _, _, rfl, sb, rfl, rfl⟩
    have h4 : RunBy (MStepX H ex lossy) [] (ops ++ [b, a]) (os ++ [y', x']) mba := e3.append c2
    exact (h3.keysAfter z).symm.trans ((FMap.keys_perm hp).mem_iff.trans (h4.keysAfter z))
  obtain ⟨okS, okM, ok⟩ := hc.ok
  obtain ⟨os₂, m₂, a2, q2⟩ := r (keysAfter [] ops) (b :: a :: ops') (fun x => (k1 x).symm)
    ⟨g2.1, g2.2.1, by
      have := EachNew.congr ok.congr hkk h'
      rwa [keysAfter, List.foldl_append] at this⟩
  rw [run_cons] at q2
  obtain ⟨y'', mb', ub, _, q2, rfl⟩ := q2
  rw [run_cons] at q2
  obtain ⟨x'', mba', ua, osr', q2, rfl⟩ := q2
  obtain ⟨rfl, hp1⟩ := (hb.exact tb).det trivial (List.Perm.refl _) n1 (hb.exact ub)
  obtain ⟨rfl, hp2⟩ := (ha.exact ta).det trivial hp1 (tb.nodup n1) (ha.exact ua)
  obtain ⟨rfl, _⟩ := (q1'.exact hex).det trivial (hp.trans hp2) nab (q2.exact hex)
  exact ⟨_, _, _, a1, a2⟩

/-- The keys 0x12 and 0x22 collide with each other and with 0x02. -/
example := C35_map (MapContainer.string (V := Nat) toyHash 0#64) (ops := exOps strKey) (ops' := [.dep, .all readAll, .set (strKey 0x32) 7, .len])
  (k₁ := strKey 0x12) (k₂ := strKey 0x22) (by decide) (.set 5) (.mod fun v _ => v + 1) (fun _ _ _ => Or.inl rfl)
  (by decide +kernel) (by decide +kernel) (by decide +kernel) (Or.inl trivial) (Nat.le_refl 256) St.init

/-- Integers that are not in `[0, 2^32)`. -/
example := C35_map (MapContainer.int (V := Nat) toyHash 0#64) (ops := exOps highKey) (ops' := [.all readAll, .len])
  (k₁ := highKey 0x11) (k₂ := highKey 0x22) (by decide) .del (.set 8) (fun _ _ _ => Or.inl rfl)
  (by decide +kernel) (by decide +kernel) (by decide +kernel) (Or.inr (by simp)) (Nat.le_refl 256) St.init

/-! ### C36: emptying -/

theorem mem_foldl_del {ks ds : List K} {x : K} (h : x ∈ keysAfter ks (ds.map (MOp.del (V := V)))) : x ∈ ks ∧ x ∉ ds := by
  induction ds generalizing ks with
  | nil => exact ⟨h, by simp⟩
  | cons d ds ih =>
    obtain ⟨h1, h2⟩ := ih (ks := ks.filter fun x => decide (x ≠ d)) h
    rw [List.mem_filter] at h1
    exact ⟨h1.1, by simpa using ⟨by simpa using h1.2, h2⟩⟩

/-- C36.  After deleting all stored keys, in any order (and possibly other keys too), `Len` and `Dep` return 0 and `All`
calls nothing. -/
theorem C36_map (hc : MapContainer I sd H P lossy ex) {ops : List (MOp K V)} {ks : List K}
    (h : EachNew P [] ops) (hk : ∀ k ∈ keysAfter [] ops, k ∈ ks) (f : List (K × V) → K → V → V × Bool) (hf : 256 ≤ fuel) (s : St K V) :
    I.After fuel sd s (ops ++ ks.map .del) [.len, .dep, .all f] [.num 0#64, .rat 0, .log []] := by
  have hn : ∀ x, x ∉ keysAfter [] (ops ++ ks.map (MOp.del (V := V))) := fun x hx => by
    rw [keysAfter, List.foldl_append] at hx
    have := mem_foldl_del hx
    exact this.2 (hk x this.1)
  have h' : EachNew P [] (ops ++ ks.map (MOp.del (V := V))) :=
    EachNew.append.2 ⟨h, EachNew.quiet (by simp [MOp.stores])⟩
  obtain ⟨os, s', t, F, m, e1, i1, e3, e4⟩ := hc.session h' hf s
  have hm : m = [] := by
    cases m with
    | nil => rfl
    | cons e m => exact absurd ((e3.keysAfter e.1).1 (by simp [FMap.keys])) (hn e.1)
  subst hm
  have ht : absT t = [] := by simpa using e4.symm
  have hlen : (s'.roots s.next).len = 0#64 := by rw [i1.length, ht]; rfl
  obtain ⟨okS, okM, ok⟩ := hc.ok
  obtain ⟨os', s₂, t', F', e5, _, _, ⟨m', e6, _⟩, _⟩ := map_run ok hf [.all f] (ks := []) i1 (by rw [ht]; simp [FMap.keys]) (EachNew.quiet (by simp [MOp.stores]))
  rw [ht, run_all] at e6
  obtain ⟨order, hp, _, _, ⟨rfl, _⟩, rfl⟩ := e6
  obtain rfl : order = [] := by simpa using hp
  refine ⟨_, _, s', s₂, e1, ?_⟩
  have q1 : I.exec fuel (some s.next) .len s' = .ok (.num 0#64, s') := by
    rw [MapImpl.exec, MapImpl.Len]
    simp only [bind_assoc_M]
    rw [bind_ok (getRoot_run _ _), hlen]; rfl
  have q2 : I.exec fuel (some s.next) .dep s' = .ok (.rat 0, s') := by
    rw [MapImpl.exec, MapImpl.Dep]
    simp only [bind_assoc_M]
    rw [bind_ok (getRoot_run _ _), hlen]; rfl
  have q3 : I.run fuel (some s.next) [.dep, .all f] s' = .ok ([.rat 0, .log []], s₂) := by
    rw [MapImpl.run, bind_ok q2, bind_ok e5]; rfl
  rw [MapImpl.run, bind_ok q1, bind_ok q3]; rfl

example := C36_map (MapContainer.string (V := Nat) toyHash 0#64) (ks := [strKey 0x21, strKey 0x01, strKey 0x99, strKey 0x02, strKey 0x11])
  exOps_str (by decide +kernel) readAll (Nat.le_refl 256) St.init

end

/-! ### Sets -/

section
variable {K : Type} [DecidableEq K] {I : SetImpl K} {sd : Seed} {H : K → Nat → BitVec 64}
  {P : List K → K → Prop} {inv : Bool} {ex : Prop} {fuel : Nat}

theorem SetContainer.hit (hc : SetContainer I sd H P inv ex) (k : K) (p : Amt.Ptr) : (I.addI k).hit p = Pure.pure () := by
  cases hc <;> rfl

/-- C34, `Add`: adding an element that is present changes not a single word of memory. -/
theorem C34_add_present (hc : SetContainer I sd H P inv ex) {ops : List (SOp K)} {k : K} (h : SEachNew H inv P [] ops)
    (hk : k ∈ elemsAfterX H inv [] ops) (hf : 256 ≤ fuel) (s : St K Unit) :
    ∃ m os s₁, I.session fuel sd ops s = .ok ((m, os), s₁) ∧ I.exec fuel m (.add k) s₁ = .ok (.unit, s₁) := by
  obtain ⟨os, s', t, F, m, e1, i1, e3, e4⟩ := hc.session h hf s
  obtain ⟨okA, ok⟩ := hc.ok
  refine ⟨_, os, s', e1, ?_⟩
  cases hfd : find (nbOf H) k t 0 with
  | none =>
    rw [absS_find_none i1, ← e4.mem_iff] at hfd
    exact absurd ((e3.elemsAfterX k).2 hk) hfd
  | some e =>
    obtain ⟨o, hp, ho⟩ := i1.lookup_has ok.laws hf k
    rw [hfd] at ho
    obtain ⟨q, rfl⟩ := Option.isSome_iff_exists.1 ho
    have hs : I.Add fuel (some s.next) k s' = .ok ((), s') := by
      rw [SetImpl.Add, deref, pure_bind_M, upsert_of_lookup _ hp, hc.hit]; rfl
    rw [SetImpl.exec, bind_ok hs]; rfl

/-- C34, `Add` twice. -/
theorem C34_add_twice (hc : SetContainer I sd H P inv ex) {ops : List (SOp K)} {k : K} (h : SEachNew H inv P [] (ops ++ [.add k]))
    (hf : 256 ≤ fuel) (s : St K Unit) :
    ∃ m os s₁, I.session fuel sd (ops ++ [.add k]) s = .ok ((m, os), s₁) ∧ I.exec fuel m (.add k) s₁ = .ok (.unit, s₁) := by
  refine C34_add_present hc h ?_ hf s
  rw [elemsAfterX, List.foldl_append]
  exact mem_ifadd

example := C34_add_twice (SetContainer.bytes toyHash 0#64) (ops := []) (k := strKey 0x12) ⟨by decide +kernel, trivial⟩ (Nat.le_refl 256) St.init
example := C34_add_twice (SetContainer.string toyHash 0#64) (ops := exOpsS strKey) (k := strKey 0x12) (SEachNew'.toX _ (by decide +kernel)) (Nat.le_refl 256) St.init

/-- C34, `Del` twice (not for `BytesSet`, see `C34_BytesSet_refuted`). -/
theorem C34_del_twice_set (hc : SetContainer I sd H P false ex) {ops : List (SOp K)} (k : K) (h : SEachNew H false P [] ops)
    (hf : 256 ≤ fuel) (s : St K Unit) :
    ∃ m os s₁, I.session fuel sd (ops ++ [.del k]) s = .ok ((m, os), s₁) ∧ I.exec fuel m (.del k) s₁ = .ok (.unit, s₁) := by
  obtain ⟨m, os, s₁, e1, e2⟩ := C13_set_absent (k := k) hc (ops := ops ++ [.del k])
    (SEachNew.append.2 ⟨h, SEachNew.quiet (by simp [SOp.stores])⟩)
    (by simp [elemsAfter, List.foldl_append, SOp.after]) hf s
  exact ⟨m, os, s₁, e1, by rw [SetImpl.exec, bind_ok e2]; rfl⟩

example := C34_del_twice_set (SetContainer.string toyHash 0#64) (strKey 0x11) exOpsS_str (Nat.le_refl 256) St.init

theorem SetImpl.After.unique {s : St K Unit} {ops ops' : List (SOp K)} {o₁ o₂ : List (SOut K)}
    (h₁ : I.After fuel sd s ops ops' o₁) (h₂ : I.After fuel sd s ops ops' o₂) : o₁ = o₂ := by
  obtain ⟨m, os, s₁, s₂, e1, e2⟩ := h₁
  obtain ⟨m', os', s₁', s₂', e1', e2'⟩ := h₂
  rw [e1] at e1'; cases e1'
  rw [e2] at e2'; cases e2'
  rfl

theorem SEachNew.congr (hP : ∀ ks ks' k, (∀ x, x ∈ ks ↔ x ∈ ks') → P ks k → P ks' k) {ops : List (SOp K)} :
    ∀ {ks ks' : List K}, (∀ x, x ∈ ks ↔ x ∈ ks') → SEachNew H inv P ks ops → SEachNew H inv P ks' ops := by
  induction ops with
  | nil => intro ks ks' _ _; trivial
  | cons op ops ih =>
    intro ks ks' hk h
    exact ⟨fun k h1 h2 => hP _ _ _ hk (h.1 k h1 fun h => h2 ((hk k).1 h)), ih (fun x => mem_afterX hk) h.2⟩

theorem _root_.Spec.SRunBy.exact {ops : List (SOp K)} (h : ex ∨ SOp.dep ∉ ops) :
    ∀ {m : List K} {os : List (SOut K)} {m' : List K}, SRunBy (SStepX H ex inv) m ops os m' →
      SRunBy (SStepX H True inv) m ops os m' := by
  induction ops with
  | nil => intro m os m' h; exact h
  | cons op ops ih =>
    rintro m os m' ⟨o, os', m₁, rfl, h1, h2⟩
    refine ⟨o, os', m₁, rfl, ?_, ih (h.imp id fun h h' => h (by simp [h'])) h2⟩
    cases op with
    | dep =>
      obtain ⟨⟨q, rfl, h1⟩, rfl⟩ := h1
      exact ⟨⟨q, rfl, fun _ => h1 (h.resolve_right (by simp))⟩, rfl⟩
    | _ => exact h1

/-- C42, sets: two sets with the same elements (and the same seed) cannot be told apart. -/
theorem C42_set (hc : SetContainer I sd H P inv ex) {ops₁ ops₂ ops' : List (SOp K)}
    (h₁ : SEachNew H inv P [] ops₁) (h₂ : SEachNew H inv P [] ops₂) (h' : SEachNew H inv P (elemsAfterX H inv [] ops₁) ops')
    (hex : ex ∨ SOp.dep ∉ ops') (hf : 256 ≤ fuel) (s₁ s₂ : St K Unit)
    (hg : ∀ k, ∃ o, I.After fuel sd s₁ ops₁ [.has k] [o] ∧ I.After fuel sd s₂ ops₂ [.has k] [o]) :
    ∃ os, I.After fuel sd s₁ ops₁ ops' os ∧ I.After fuel sd s₂ ops₂ ops' os := by
  obtain ⟨okA, ok⟩ := hc.ok
  obtain ⟨_, m₁, _, n1, k1, r1⟩ := hc.reach h₁ hf s₁
  obtain ⟨_, m₂, _, n2, k2, r2⟩ := hc.reach h₂ hf s₂
  have hm : ∀ k, k ∈ m₁ ↔ k ∈ m₂ := by
    intro k
    obtain ⟨o, g1, g2⟩ := hg k
    obtain ⟨_, _, a1, q1⟩ := r1 [.has k] (SEachNew.quiet (by simp [SOp.stores]))
    obtain ⟨_, _, a2, q2⟩ := r2 [.has k] (SEachNew.quiet (by simp [SOp.stores]))
    simp only [srun_has, srun_nil, and_assoc, exists_eq_left] at q1 q2
    have e := (g1.unique (q1.2 ▸ a1)).symm.trans (g2.unique (q2.2 ▸ a2))
    simpa using e
  have hp : m₁.Perm m₂ := perm_of_nodup n1 n2 hm
  obtain ⟨os₁, m₁', a1, q1⟩ := r1 ops' h'
  obtain ⟨os₂, m₂', a2, q2⟩ := r2 ops' (SEachNew.congr ok.congr (fun x => by rw [← k1, ← k2, hm]) h')
  obtain ⟨rfl, _⟩ := (q1.exact hex).det trivial hp (q2.exact hex)
  exact ⟨_, a1, a2⟩

/-- What a call does to the membership of another key. -/
theorem sstep_mem {k : K} {op : SOp K} (hu : op = .add k ∨ op = .del k ∧ inv = false) {m m' : List K} {o : SOut K}
    (h : SStepX H ex inv m op o m') (x : K) : o = .unit ∧ (x ∈ m' ↔ if x = k then op = .add k else x ∈ m) := by
  rcases hu with rfl | ⟨rfl, rfl⟩
  · obtain ⟨rfl, rfl⟩ := h
    refine ⟨rfl, ?_⟩
    by_cases hx : x = k
    · subst hx; simp [mem_ifadd]
    · rw [if_neg hx]; split <;> simp [hx]
  · obtain ⟨rfl, rfl⟩ := h
    refine ⟨rfl, ?_⟩
    by_cases hx : x = k <;> simp [hx]

/-- C35, sets (`Del` not for `BytesSet`). -/
theorem C35_set (hc : SetContainer I sd H P inv ex) {ops ops' : List (SOp K)} {k₁ k₂ : K} {a b : SOp K} (hne : k₁ ≠ k₂)
    (ha : a = .add k₁ ∨ a = .del k₁ ∧ inv = false) (hb : b = .add k₂ ∨ b = .del k₂ ∧ inv = false)
    (h₁ : SEachNew H inv P [] (ops ++ [a, b])) (h₂ : SEachNew H inv P [] (ops ++ [b, a]))
    (h' : SEachNew H inv P (elemsAfterX H inv [] (ops ++ [a, b])) ops') (hex : ex ∨ SOp.dep ∉ ops') (hf : 256 ≤ fuel)
    (s : St K Unit) :
    ∃ os, I.After fuel sd s ops (a :: b :: ops') (.unit :: .unit :: os) ∧
      I.After fuel sd s ops (b :: a :: ops') (.unit :: .unit :: os) := by
  obtain ⟨okA, ok⟩ := hc.ok
  obtain ⟨g0, g1⟩ := SEachNew.append.1 h₁
  obtain ⟨_, g2⟩ := SEachNew.append.1 h₂
  obtain ⟨os, m, e3, n1, k1, r⟩ := hc.reach g0 hf s
  obtain ⟨_, mba, c1, c2⟩ := r [b, a] g2
  obtain ⟨_, mab, c1', c2'⟩ := r [a, b] g1
  have hx : ∀ {a b : SOp K} {k₁ k₂ : K} (hne : k₁ ≠ k₂) (ha : a = .add k₁ ∨ a = .del k₁ ∧ inv = false)
      (hb : b = .add k₂ ∨ b = .del k₂ ∧ inv = false) {ops' : List (SOp K)} {os : List (SOut K)} {mz : List K},
      SRunBy (SStepX H ex inv) m (a :: b :: ops') os mz → ∃ mab os', os = .unit :: .unit :: os' ∧ mab.Nodup ∧
        SRunBy (SStepX H ex inv) m [a, b] [.unit, .unit] mab ∧ SRunBy (SStepX H ex inv) mab ops' os' mz ∧
        ∀ x, x ∈ mab ↔ if x = k₂ then b = .add k₂ else if x = k₁ then a = .add k₁ else x ∈ m := by
    intro a b k₁ k₂ hne ha hb ops' os mz q
    rw [srun_cons] at q
    obtain ⟨x, ma, sa, _, q, rfl⟩ := q
    rw [srun_cons] at q
    obtain ⟨y, mab, sb, osr, q, rfl⟩ := q
    obtain rfl := (sstep_mem ha sa k₁).1
    obtain rfl := (sstep_mem hb sb k₁).1
    refine ⟨mab, osr, rfl, sb.nodup (sa.nodup n1), ⟨_, _, _, rfl, sa, _, _, _, rfl, sb, rfl, rfl⟩, q, fun x => ?_⟩
    rw [(sstep_mem hb sb x).2]
    by_cases h2 : x = k₂
    · rw [if_pos h2, if_pos h2]
    · rw [if_neg h2, if_neg h2, (sstep_mem ha sa x).2]
  obtain ⟨_, _, rfl, nab, rab, ⟨rfl, rfl⟩, xab⟩ := hx hne ha hb c2'
  obtain ⟨_, _, rfl, nba, rba, ⟨rfl, rfl⟩, xba⟩ := hx hne.symm hb ha c2
  have hmm : ∀ x, x ∈ mab ↔ x ∈ mba := by
    intro x
    rw [xab, xba]
    by_cases h1 : x = k₁
    · rw [if_neg (by rw [h1]; exact hne), if_pos h1, if_pos h1]
    · by_cases h2 : x = k₂
      · rw [if_pos h2, if_neg h1, if_pos h2]
      · rw [if_neg h2, if_neg h1, if_neg h1, if_neg h2]
  have kab : ∀ z, z ∈ elemsAfterX H inv [] (ops ++ [a, b]) ↔ z ∈ elemsAfterX H inv [] (ops ++ [b, a]) := by
    intro z
    have h3 : z ∈ mab ↔ z ∈ elemsAfterX H inv (elemsAfterX H inv [] ops) [a, b] :=
      (rab.elemsAfterX z).trans (mem_elemsAfterX k1 _ _)
    have h4 : z ∈ mba ↔ z ∈ elemsAfterX H inv (elemsAfterX H inv [] ops) [b, a] :=
      (rba.elemsAfterX z).trans (mem_elemsAfterX k1 _ _)
    rw [elemsAfterX, elemsAfterX, List.foldl_append, List.foldl_append]
    exact h3.symm.trans ((hmm z).trans h4)
  obtain ⟨os₁, m₁, a1, q1⟩ := r (a :: b :: ops') ⟨g1.1, g1.2.1, by rwa [elemsAfterX, List.foldl_append] at h'⟩
  obtain ⟨os₂, m₂, a2, q2⟩ := r (b :: a :: ops') ⟨g2.1, g2.2.1, by
    have := SEachNew.congr ok.congr kab h'
    rwa [elemsAfterX, List.foldl_append] at this⟩
  obtain ⟨mab', _, rfl, nab', _, qab, xab'⟩ := hx hne ha hb q1
  obtain ⟨mba', _, rfl, nba', _, qba, xba'⟩ := hx hne.symm hb ha q2
  obtain ⟨rfl, _⟩ := (qab.exact hex).det trivial (perm_of_nodup nab' nba' fun x => by rw [xab', xba', ← xab, ← xba, hmm]) (qba.exact hex)
  exact ⟨_, a1, a2⟩

example := C35_set (SetContainer.string toyHash 0#64) (ops := exOpsS strKey) (ops' := [.dep, .all fun _ _ => true, .add (strKey 0x32), .len])
  (k₁ := strKey 0x12) (k₂ := strKey 0x11) (by decide) (Or.inl rfl) (Or.inr ⟨rfl, rfl⟩)
  (SEachNew'.toX _ (by decide +kernel)) (SEachNew'.toX _ (by decide +kernel))
  (by rw [elemsAfterX_false]; exact SEachNew'.toX _ (by decide +kernel)) (Or.inl trivial) (Nat.le_refl 256) St.init

theorem mem_foldl_sdel {ks ds : List K} {x : K} (h : x ∈ elemsAfter ks (ds.map SOp.del)) : x ∈ ks ∧ x ∉ ds := by
  induction ds generalizing ks with
  | nil => exact ⟨h, by simp⟩
  | cons d ds ih =>
    obtain ⟨h1, h2⟩ := ih (ks := ks.filter fun x => decide (x ≠ d)) h
    rw [List.mem_filter] at h1
    exact ⟨h1.1, by simpa using ⟨by simpa using h1.2, h2⟩⟩

/-- C36, sets (not `BytesSet`). -/
theorem C36_set (hc : SetContainer I sd H P false ex) {ops : List (SOp K)} {ks : List K}
    (h : SEachNew H false P [] ops) (hk : ∀ k ∈ elemsAfter [] ops, k ∈ ks) (f : List K → K → Bool) (hf : 256 ≤ fuel) (s : St K Unit) :
    I.After fuel sd s (ops ++ ks.map .del) [.len, .dep, .all f] [.num 0#64, .rat 0, .log []] := by
  have hn : ∀ x, x ∉ elemsAfterX H false [] (ops ++ ks.map SOp.del) := fun x hx => by
    rw [elemsAfterX_false, elemsAfter, List.foldl_append] at hx
    have := mem_foldl_sdel hx
    exact this.2 (hk x this.1)
  have h' : SEachNew H false P [] (ops ++ ks.map SOp.del) := SEachNew.append.2 ⟨h, SEachNew.quiet (by simp [SOp.stores])⟩
  obtain ⟨os, s', t, F, m, e1, i1, e3, e4⟩ := hc.session h' hf s
  have hm : m = [] := by
    cases m with
    | nil => rfl
    | cons e m => exact absurd ((e3.elemsAfterX e).1 (by simp)) (hn e)
  subst hm
  have ht : absS t = [] := by simpa using e4.symm
  have hlen : (s'.roots s.next).len = 0#64 := by
    rw [i1.length, ← List.length_map (f := Prod.fst), ← FMap.keys, ← absS_eq, ht]; rfl
  obtain ⟨okA, ok⟩ := hc.ok
  obtain ⟨os', s₂, t', F', e5, _, _, ⟨m', e6, _⟩⟩ := set_run ok hf [.all f] (ks := []) i1 (by rw [ht]; simp) (SEachNew.quiet (by simp [SOp.stores]))
  rw [ht, srun_all] at e6
  obtain ⟨order, hp, _, _, ⟨rfl, _⟩, rfl⟩ := e6
  obtain rfl : order = [] := by simpa using hp
  refine ⟨_, _, s', s₂, e1, ?_⟩
  have q1 : I.exec fuel (some s.next) .len s' = .ok (.num 0#64, s') := by
    rw [SetImpl.exec, SetImpl.Len, MapImpl.Len]
    simp only [bind_assoc_M]
    rw [bind_ok (getRoot_run _ _), hlen]; rfl
  have q2 : I.exec fuel (some s.next) .dep s' = .ok (.rat 0, s') := by
    rw [SetImpl.exec, SetImpl.Dep, MapImpl.Dep]
    simp only [bind_assoc_M]
    rw [bind_ok (getRoot_run _ _), hlen]; rfl
  have q3 : I.run fuel (some s.next) [.dep, .all f] s' = .ok ([.rat 0, .log []], s₂) := by
    rw [SetImpl.run, bind_ok q2, bind_ok e5]; rfl
  rw [SetImpl.run, bind_ok q1, bind_ok q3]; rfl

example := C36_set (SetContainer.string toyHash 0#64) (ks := [strKey 0x21, strKey 0x01, strKey 0x99, strKey 0x02, strKey 0x11])
  exOpsS_str (by decide +kernel) (fun _ _ => true) (Nat.le_refl 256) St.init

end

/-! ### Counterexamples -/

/-- C34 is false for `ArrMap`: the second `Set(0x11, 8)` stores what the first did not. -/
theorem C34_ArrMap_refuted : ∃ (sum : Maphash) (sd : Seed) (kb : UInt8 → List UInt8) (ops : List (MOp UInt8 Nat)) (k : UInt8),
    Separated (byteStream sum sd kb) (Stores (ops ++ [.set k 8])) ∧
    ∀ fuel, 256 ≤ fuel → (ArrMap sum kb).After fuel sd St.init (ops ++ [.set k 8]) [.get k] [.pair 0 true] ∧
      (ArrMap sum kb).After fuel sd St.init (ops ++ [.set k 8, .set k 8]) [.get k] [.pair 8 true] := by
  refine ⟨toyHash, 0#64, fun b => [b], [.set 0x01 7], 0x11, ?_, fun fuel hf => ⟨
    MapImpl.after_of (ArrMap_mono toyHash fun b : UInt8 => [b]) (f := 256) (by decide +kernel) hf,
    MapImpl.after_of (ArrMap_mono toyHash fun b : UInt8 => [b]) (f := 256) (by decide +kernel) hf⟩⟩
  intro a b ha hb hab
  simp [Stores, MOp.stores] at ha hb
  rcases ha with rfl | rfl <;> rcases hb with rfl | rfl <;> first | exact absurd rfl hab | exact ⟨1, by decide, by decide⟩

/-- C35 is false for `ArrMap`: the first of two colliding keys keeps its value. -/
theorem C35_ArrMap_refuted : ∃ (sum : Maphash) (sd : Seed) (kb : UInt8 → List UInt8) (k₁ k₂ : UInt8),
    Separated (byteStream sum sd kb) (fun k => k = k₁ ∨ k = k₂) ∧
    ∀ fuel, 256 ≤ fuel → (ArrMap sum kb).After fuel sd (St.init (V := Nat)) [.set k₁ 7, .set k₂ 8] [.get k₁, .get k₂] [.pair 7 true, .pair 0 true] ∧
      (ArrMap sum kb).After fuel sd (St.init (V := Nat)) [.set k₂ 8, .set k₁ 7] [.get k₁, .get k₂] [.pair 0 true, .pair 8 true] := by
  refine ⟨toyHash, 0#64, fun b => [b], 0x01, 0x11, ?_, fun fuel hf => ⟨
    MapImpl.after_of (ArrMap_mono toyHash fun b : UInt8 => [b]) (f := 256) (by decide +kernel) hf,
    MapImpl.after_of (ArrMap_mono toyHash fun b : UInt8 => [b]) (f := 256) (by decide +kernel) hf⟩⟩
  intro a b ha hb hab
  rcases ha with rfl | rfl <;> rcases hb with rfl | rfl <;> first | exact absurd rfl hab | exact ⟨1, by decide, by decide⟩

/-- C34 is false for `BytesSet`: `Del` of an absent key twice removes one other element, then another. -/
theorem C34_BytesSet_refuted : ∃ (sum : Maphash) (sd : Seed) (ops : List (SOp ByteStr)) (k : ByteStr),
    Separated (byteStream sum sd id) (SStores ops) ∧
    ∀ fuel, 256 ≤ fuel → (BytesSet sum).After fuel sd St.init ops [.len, .del k, .len, .del k, .len]
      [.num 2#64, .unit, .num 1#64, .unit, .num 0#64] := by
  refine ⟨toyHash, 0#64, [.add [0x01], .add [0x11]], [0x11, 1], ?_, fun fuel hf =>
    SetImpl.after_of (BytesSet_mono toyHash) (f := 256) (by decide +kernel) hf⟩
  intro a b ha hb hab
  simp [SStores, SOp.stores] at ha hb
  rcases ha with rfl | rfl <;> rcases hb with rfl | rfl <;> first | exact absurd rfl hab | exact ⟨1, by decide, by decide⟩

/-- C35 is false for `BytesSet`: `Add(0x11)` before `Del(0x11, 1)` saves 0x01. -/
theorem C35_BytesSet_refuted : ∃ (sum : Maphash) (sd : Seed) (ops : List (SOp ByteStr)) (k₁ k₂ x : ByteStr),
    Separated (byteStream sum sd id) (SStores (ops ++ [.add k₁])) ∧ k₁ ≠ k₂ ∧
    ∀ fuel, 256 ≤ fuel → (BytesSet sum).After fuel sd St.init ops [.add k₁, .del k₂, .has x] [.unit, .unit, .bool true] ∧
      (BytesSet sum).After fuel sd St.init ops [.del k₂, .add k₁, .has x] [.unit, .unit, .bool false] := by
  refine ⟨toyHash, 0#64, [.add [0x01]], [0x11], [0x11, 1], [0x01], ?_, by decide, fun fuel hf => ⟨
    SetImpl.after_of (BytesSet_mono toyHash) (f := 256) (by decide +kernel) hf,
    SetImpl.after_of (BytesSet_mono toyHash) (f := 256) (by decide +kernel) hf⟩⟩
  intro a b ha hb hab
  simp [SStores, SOp.stores] at ha hb
  rcases ha with rfl | rfl <;> rcases hb with rfl | rfl <;> first | exact absurd rfl hab | exact ⟨1, by decide, by decide⟩

/-- C36 is false for `BytesSet`: deleting every element deletes none. -/
theorem C36_BytesSet_refuted : ∃ (sum : Maphash) (sd : Seed) (ops : List (SOp ByteStr)),
    Separated (byteStream sum sd id) (SStores ops) ∧
    ∀ fuel, 256 ≤ fuel → (BytesSet sum).After fuel sd St.init (ops ++ (elemsAfter [] ops).map .del) [.len] [.num 2#64] := by
  refine ⟨toyHash, 0#64, [.add [0x01], .add [0x11]], ?_, fun fuel hf =>
    SetImpl.after_of (BytesSet_mono toyHash) (f := 256) (by decide +kernel) hf⟩
  intro a b ha hb hab
  simp [SStores, SOp.stores] at ha hb
  rcases ha with rfl | rfl <;> rcases hb with rfl | rfl <;> first | exact absurd rfl hab | exact ⟨1, by decide, by decide⟩

end Amt
