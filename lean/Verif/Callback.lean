/-
Callbacks that use the container: `All` and `Mod` with a callback that is an arbitrary program over the heap,
and when iterating is the same as calling the callback on the entries one after the other.
-/
import Verif.PropsWorld

set_option linter.unusedVariables false
set_option linter.unusedSectionVars false

namespace Amt
open T Spec

/-! ### The model -/

section
variable {K V U : Type}

/-- The callback of a map's `All` (string_map.go:415-417): `fn(kv.k, &kv.v)`, where `fn` is any program.  It is
given the key and the address of the value. -/
def visitMapM (c : Cfg K) (f : U → K → Ptr → M K V (U × Bool)) (u : U) (x : Link) : M K V (U × Bool) := do
  let k ← readKey c x
  f u k x.ptr

/-- `All` of a map (string_map.go:402-404), with any program as the callback. -/
def MapImpl.AllWith (I : MapImpl K V) (fuel : Nat) (m : Handle) (f : U → K → Amt.Ptr → M K V (U × Bool)) (u : U) :
    M K V U := do
  let h ← deref m
  let r ← scan (visitMapM I.cfg f) fuel u ⟨.blk h, 0⟩
  pure r.1

/-- `All` of a set (string_set.go:258-279), with any program as the callback. -/
def SetImpl.AllWith (I : SetImpl K) (fuel : Nat) (m : Handle) (f : U → K → M K Unit (U × Bool)) (u : U) :
    M K Unit U := do
  let h ← deref m
  let r ← scan (visitMapM I.cfg fun u k _ => f u k) fuel u ⟨.blk h, 0⟩
  pure r.1

/-- `Mod` of a map (string_map.go:221-320), with any program as the callback: it is given the address of the value
and whether the key was present.  On a collision it runs between the creation of the cell and the stores into
the new branch (string_map.go:274-283), otherwise before the item is placed (string_map.go:290-318). -/
def MapImpl.ModWith {R : Type} [Inhabited V] (I : MapImpl K V) (fuel : Nat) (m : Handle) (key : K)
    (f : Amt.Ptr → Bool → M K V R) : M K V R := do
  let h ← deref m
  upsert I.cfg h fuel key
    { chash := (I.modI key fun v _ => v).chash
      guard := (I.modI key fun v _ => v).guard
      hit := fun p => f p true
      newSplit := do
        let p ← newKv I.cfg key default
        let r ← f p false
        pure (p, r)
      newSlot := do
        let p ← newKv I.cfg key default
        let r ← f p false
        pure (p, r) }

/-- `All` with a callback that only looks at the value and assigns to it is the `All` of `Verif/Containers.lean`. -/
theorem MapImpl.All_eq [Inhabited V] (I : MapImpl K V) (fuel : Nat) (m : Handle) (f : U → K → V → U × V × Bool) (u : U) :
    I.All fuel m f u = I.AllWith fuel m (fun u k p => do
      let kv ← loadKv p
      storeVal p (f u k kv.2).2.1
      pure ((f u k kv.2).1, (f u k kv.2).2.2)) u := rfl

theorem SetImpl.All_eq (I : SetImpl K) (fuel : Nat) (m : Handle) (f : U → K → U × Bool) (u : U) :
    I.All fuel m f u = I.AllWith fuel m (fun u k => pure (f u k)) u := rfl

theorem newKv_storeVal [Inhabited V] {R : Type} (c : Cfg K) (hb : c.store ≠ .bare) (key : K) (g : V → R × V) :
    (do let p ← newKv c key default
        let kv ← loadKv p
        storeVal p (g kv.2).2
        pure (p, (g kv.2).1) : M K V (Amt.Ptr × R)) =
      (do let p ← newKv c key (g default).2; pure (p, (g default).1)) := by
  funext s
  unfold newKv
  cases hc : c.store with
  | bare => exact absurd hc hb
  | boxed =>
    show (alloc _ >>= _) s = (alloc _ >>= _) s
    rw [bind_ok (alloc_run ..), bind_ok (alloc_run ..), bind_ok (loadKv_ok (k := some key) (v := default) (by simp)),
      bind_ok (storeVal_ok (k := some key) (v := default) (by simp))]
    simp only [pure_run, St.push, St.put]
    congr 3
    funext a
    split <;> rfl
  | inline =>
    show (alloc _ >>= _) s = (alloc _ >>= _) s
    rw [bind_ok (alloc_run ..), bind_ok (alloc_run ..), bind_ok (loadKv_ok (k := none) (v := default) (by simp)),
      bind_ok (storeVal_ok (k := none) (v := default) (by simp))]
    simp only [pure_run, St.push, St.put]
    congr 3
    funext a
    split <;> rfl

/-- `Mod` with a callback that only looks at the value and assigns to it is the `Mod` of `Verif/Containers.lean`. -/
theorem MapImpl.Mod_eq [Inhabited V] {I : MapImpl K V} (hb : I.cfg.store ≠ .bare) (chash : Chash K) (g : Bool)
    (hI : ∀ key f, I.modI key f = modIns I.cfg chash g key f) (fuel : Nat) (m : Handle) (key : K) (f : V → Bool → V) :
    I.Mod fuel m key f = I.ModWith fuel m key (fun p b => do
      let kv ← loadKv p
      storeVal p (f kv.2 b)
      pure [(kv.2, b)]) := by
  have := newKv_storeVal I.cfg hb key (fun v => ([(v, false)], f v false))
  simp only [MapImpl.Mod, MapImpl.ModWith, hI, modIns]
  simp only [bind_assoc_M, pure_bind_M] at this ⊢
  rw [this]

example (sum : Maphash) := MapImpl.Mod_eq (V := Nat) (I := StringMap sum) (by nofun) _ _ fun _ _ => rfl
example (sum : Maphash) := MapImpl.Mod_eq (V := Nat) (I := BytesMap sum) (by nofun) _ _ fun _ _ => rfl
example (sum : Maphash) := MapImpl.Mod_eq (V := Nat) (I := IntMap sum) (by nofun) _ _ fun _ _ => rfl

end

/-! ### Calling a program on the entries, one after the other -/

section
variable {K V U : Type}

/-- Call `f` on the entries in order until it returns false. -/
def callAll (f : U → K → Ptr → M K V (U × Bool)) : List (K × Ptr × V) → U → M K V (U × Bool)
  | [], u => pure (u, true)
  | e :: es, u => f u e.1 e.2.1 >>= fun r => if r.2 then callAll f es r.1 else pure (r.1, false)

/-- The same object, or the same cell with another value. -/
def SameKey (o o' : Option (Obj K V)) : Prop := o' = o ∨ ∃ k v v', o = some (.kv k v) ∧ o' = some (.kv k v')

theorem SameKey.refl (o : Option (Obj K V)) : SameKey o o := Or.inl rfl

theorem SameKey.trans {o o' o'' : Option (Obj K V)} (h1 : SameKey o o') (h2 : SameKey o' o'') : SameKey o o'' := by
  rcases h1 with rfl | ⟨k, v, v', rfl, rfl⟩
  · exact h2
  · rcases h2 with rfl | ⟨k2, v2, v2', h, rfl⟩
    · exact Or.inr ⟨k, v, v', rfl, rfl⟩
    · cases h; exact Or.inr ⟨k, v, v2', rfl, rfl⟩

theorem SameKey.links {o' : Option (Obj K V)} {xs : List Link} (h : SameKey (some (.links xs)) o') : o' = some (.links xs) := by
  rcases h with rfl | ⟨k, v, v', h, _⟩
  · rfl
  · cases h

theorem SameKey.kv {o' : Option (Obj K V)} {k : Option K} {v : V} (h : SameKey (some (.kv k v)) o') :
    ∃ v', o' = some (.kv k v') := by
  rcases h with rfl | ⟨k, v, v', h, rfl⟩
  · exact ⟨v, rfl⟩
  · cases h; exact ⟨v', rfl⟩

/-- The container at `h`, which owns `F`, has been left alone between `s₀` and `s` but for its values. -/
def Still (h : Nat) (F : Nat → Prop) (s₀ s : St K V) : Prop := ∀ a, (a = h ∨ F a) → SameKey (s₀.mem a) (s.mem a)

theorem Still.refl (h : Nat) (F : Nat → Prop) (s : St K V) : Still h F s s := fun a _ => SameKey.refl _

theorem Still.trans {h : Nat} {F : Nat → Prop} {s s' s'' : St K V} (h1 : Still h F s s') (h2 : Still h F s' s'') :
    Still h F s s'' := fun a ha => (h1 a ha).trans (h2 a ha)

/-- The container is left alone by every call. -/
def Along (h : Nat) (F : Nat → Prop) (s₀ : St K V) (f : U → K → Ptr → M K V (U × Bool)) :
    List (K × Ptr × V) → U → St K V → Prop
  | [], _, _ => True
  | e :: es, u, s => ∀ r s₁, f u e.1 e.2.1 s = .ok (r, s₁) → Still h F s₀ s₁ ∧ (r.2 = true → Along h F s₀ f es r.1 s₁)

theorem bind_congr_at {α β : Type} {x x' : M K V α} {g g' : α → M K V β} {s : St K V} (h : x s = x' s)
    (hg : ∀ a s₁, x' s = .ok (a, s₁) → g a s₁ = g' a s₁) : (x >>= g) s = (x' >>= g') s := by
  rw [bind_run, bind_run, h]
  cases hx : x' s with
  | error e => rfl
  | ok r => exact hg r.1 r.2 hx

theorem callAll_append (f : U → K → Ptr → M K V (U × Bool)) (es es' : List (K × Ptr × V)) (u : U) :
    callAll f (es ++ es') u = (callAll f es u >>= fun r => if r.2 then callAll f es' r.1 else pure (r.1, false)) := by
  induction es generalizing u with
  | nil => rfl
  | cons e es ih =>
    rw [List.cons_append, callAll, callAll, bind_assoc_M]
    congr 1
    funext r
    split
    · exact ih _
    · rfl

theorem Along.still {h : Nat} {F : Nat → Prop} {s₀ : St K V} {f : U → K → Ptr → M K V (U × Bool)}
    {es : List (K × Ptr × V)} : ∀ {u : U} {s : St K V} {r : U × Bool} {s₁ : St K V}, Along h F s₀ f es u s →
    Still h F s₀ s → callAll f es u s = .ok (r, s₁) → Still h F s₀ s₁ := by
  induction es with
  | nil => intro u s r s₁ _ hst hr; cases hr; exact hst
  | cons e es ih =>
    intro u s r s₁ ha hst hr
    rw [callAll, bind_run] at hr
    cases hx : f u e.1 e.2.1 s with
    | error e => rw [hx] at hr; cases hr
    | ok q =>
      obtain ⟨q, sq⟩ := q
      rw [hx] at hr
      by_cases hq : q.2 = true
      · simp only [hq, if_true] at hr
        exact ih ((ha q sq hx).2 hq) (ha q sq hx).1 hr
      · simp only [hq] at hr
        cases hr
        exact (ha q _ hx).1

theorem Along.append {h : Nat} {F : Nat → Prop} {s₀ : St K V} {f : U → K → Ptr → M K V (U × Bool)}
    {es es' : List (K × Ptr × V)} : ∀ {u : U} {s : St K V}, Along h F s₀ f (es ++ es') u s →
    Along h F s₀ f es u s ∧ ∀ r s₁, callAll f es u s = .ok (r, s₁) → r.2 = true → Along h F s₀ f es' r.1 s₁ := by
  induction es with
  | nil => intro u s ha; exact ⟨trivial, fun r s₁ hr _ => by cases hr; exact ha⟩
  | cons e es ih =>
    intro u s ha
    refine ⟨fun r s₁ hr => ⟨(ha r s₁ hr).1, fun h2 => (ih ((ha r s₁ hr).2 h2)).1⟩, fun r s₂ hr h2 => ?_⟩
    rw [callAll, bind_run] at hr
    cases hx : f u e.1 e.2.1 s with
    | error e => rw [hx] at hr; cases hr
    | ok q =>
      obtain ⟨q, sq⟩ := q
      rw [hx] at hr
      by_cases hq : q.2 = true
      · simp only [hq, if_true] at hr
        exact (ih ((ha q sq hx).2 hq)).2 r s₂ hr h2
      · simp only [hq] at hr
        cases hr
        cases h2

variable [DecidableEq K]

theorem KvAt.still {c : Cfg K} {m m' : Nat → Option (Obj K V)} {k : K} {p : Ptr} {v : V} (hk : KvAt c m k p v)
    (hm : ∀ a, p = .blk a → SameKey (m a) (m' a)) : ∃ v', KvAt c m' k p v' := by
  unfold KvAt at *
  split
  · rename_i hs
    rw [hs] at hk
    obtain ⟨a, rfl, h2⟩ := hk
    have := hm a rfl
    rw [h2] at this
    obtain ⟨v', hv'⟩ := this.kv
    exact ⟨v', a, rfl, hv'⟩
  · rename_i hs
    rw [hs] at hk
    obtain ⟨a, rfl, h2⟩ := hk
    have := hm a rfl
    rw [h2] at this
    obtain ⟨v', hv'⟩ := this.kv
    exact ⟨v', a, rfl, hv'⟩
  · rename_i hs
    rw [hs] at hk
    exact ⟨v, hk⟩

/-- As long as the callback leaves the container alone but for its values, iterating is calling it on the entries that
were there in the beginning. -/
theorem scan_calls {c : Cfg K} {sd : Seed} {H : K → Nat → BitVec 64} (L : Laws c sd H) {B h : Nat} {F₀ : Nat → Prop}
    {s₀ : St K V} (f : U → K → Ptr → M K V (U × Bool)) (hfg : c.forget = false ∨ ∀ u k p q, f u k p = f u k q) (t : T K Ptr V) :
    ∀ {d b0 i0 : Nat} {xs0 : List Link} {lk : Link} {F : Nat → Prop} {fuel : Nat} {u : U} {s : St K V},
    t.isNode = true → Loc s₀ b0 i0 xs0 lk F → Rep c s₀.mem t d lk F → Ht B t d → B < fuel + d →
    (b0 = h ∨ F₀ b0) → (∀ a, F a → F₀ a) → Still h F₀ s₀ s → Along h F₀ s₀ f (leaves t) u s →
    scan (visitMapM c f) fuel u ⟨.blk b0, i0⟩ s = callAll f (leaves t) u s := by
  induction t with
  | empty => intro d b0 i0 xs0 lk F fuel u s h; cases h
  | leaf => intro d b0 i0 xs0 lk F fuel u s h; cases h
  | node st ch ih =>
    intro d b0 i0 xs0 lk F fuel u s _ hl hr hh hf hb0 hF hst hal
    have hd : d ≤ B := hh.1
    obtain ⟨fuel, rfl⟩ : ∃ f, fuel = f + 1 := ⟨fuel - 1, by omega⟩
    obtain ⟨b, xs, G, ha, ho, hrep⟩ := hr
    have hbF : F₀ b := hF b ((ho.foot b).2 (Or.inl rfl))
    have hmem : ∀ {s : St K V}, Still h F₀ s₀ s → s.mem b0 = some (.links xs0) := fun hs => by
      have := hs b0 hb0
      rw [hl.mem] at this
      exact this.links
    have hmemb : ∀ {s : St K V}, Still h F₀ s₀ s → s.mem b = some (.links xs) := fun hs => by
      have := hs b (Or.inr hbF)
      rw [ha.mem] at this
      exact this.links
    have loop : ∀ (q m : Nat), q + m = 16 → ∀ {u : U} {s : St K V} {pm : BitVec 32}, Still h F₀ s₀ s →
        Along h F₀ s₀ f ((List.range' m q).flatMap fun i => leaves (ch i)) u s → BitsAre pm (from' (occ ch) m) →
        scanItems (visitMapM c f) (scan (visitMapM c f) fuel) ⟨.blk b0, i0⟩ lk.tmap (cnt (occ ch) 16 - cnt (occ ch) m)
            (cnt (occ ch) m) pm u s
          = callAll f ((List.range' m q).flatMap fun i => leaves (ch i)) u s := by
      intro q
      induction q with
      | zero =>
        intro m hm u s pm _ _ _
        obtain rfl : m = 16 := by omega
        rw [Nat.sub_self]; rfl
      | succ q ihq =>
        intro m hm u s pm hst hal hpm
        rw [List.range'_succ, List.flatMap_cons] at hal ⊢
        have hm16 : m < 16 := by omega
        by_cases hocc : occ ch m = true
        · have hlt := cnt_lt (occ ch) hm16 hocc
          have htz : trailingZeros pm = m := by
            apply trailingZeros_spec (by omega)
            · rw [hpm m]; simp [hm16, from', hocc]
            · intro i hi; rw [hpm i]
              have : ¬ m ≤ i := by omega
              simp [from', this]
          obtain ⟨n, hn⟩ : ∃ n, cnt (occ ch) 16 - cnt (occ ch) m = n + 1 := ⟨cnt (occ ch) 16 - cnt (occ ch) m - 1, by omega⟩
          rw [hn, scanItems_succ, callAll_append]
          simp only [htz]
          rw [bind_ok (load_ok (hmem hst) hl.get), ha.ptr]
          have hcl := hl.child ha ho hm16 hocc
          have hsub : ∀ a, G m a → F₀ a := fun a hg => hF a ((ho.foot a).2 (Or.inr ⟨m, hm16, hg⟩))
          have hal' := hal.append
          -- the item
          have hitem : (if lk.tmap &&& bitOf m ≠ 0#32 then do
                let x ← load ⟨.blk b, cnt (occ ch) m⟩
                visitMapM c f u x
              else scan (visitMapM c f) fuel u ⟨.blk b, cnt (occ ch) m⟩) s = callAll f (leaves (ch m)) u s := by
            have hrm := hrep m hm16
            cases hcm : ch m with
            | empty => simp [occ, hcm, isEmpty] at hocc
            | leaf k p v =>
              rw [if_pos]
              · rw [hcm] at hrm
                obtain ⟨q, hr1, hr2, hr3, hr4⟩ := hrm
                obtain ⟨v', hv'⟩ := hr2.still (m' := s.mem) fun a ha => hst a (Or.inr (hsub a ((hr3 a).2 ha)))
                rw [bind_ok (load_ok (hmemb hst) hcl.get), hr1, visitMapM, bind_ok (readKey_ok L (m := s.mem) hv')]
                have hpq : f u k q = f u k p := by
                  rcases hfg with h | h
                  · rw [hr4 h]
                  · exact h u k q p
                show f u k q s = (f u k p >>= fun r => if r.2 then pure (r.1, true) else pure (r.1, false)) s
                rw [hpq]
                show f u k p s = (f u k p >>= fun r => if r.2 then pure (r.1, true) else pure (r.1, false)) s
                rw [bind_run]
                cases f u k p s with
                | error e => rfl
                | ok r =>
                  obtain ⟨⟨u', g⟩, s'⟩ := r
                  cases g <;> rfl
              · rw [Ne, tm_bit ha hm16 hocc]; simp [lf, hcm, isLeaf]
            | node st' ch' =>
              rw [if_neg]
              · have := ih m (u := u) (s := s) (fuel := fuel) (by rw [hcm]; rfl) hcl hrm (hh.2 m hm16) (by omega) (Or.inr hbF) hsub
                  hst hal'.1
                rw [hcm] at this
                exact this
              · rw [Ne, tm_bit ha hm16 hocc]; simp [lf, hcm, isLeaf]
          refine bind_congr_at hitem fun r s₁ hr => ?_
          by_cases hg : r.2 = true
          · rw [if_pos hg, if_pos hg]
            have hst1 : Still h F₀ s₀ s₁ := hal'.1.still hst hr
            have hI := ihq (m + 1) (by omega) (u := r.1) (s := s₁) (pm := pm &&& ~~~bitOf m) hst1 (hal'.2 r s₁ hr hg) (by
              apply hpm.andNot_bit hm16
              · have : ¬ m + 1 ≤ m := by omega
                simp only [from', this, decide_false, Bool.false_and]
              · intro j hj
                unfold from'
                by_cases h1 : m ≤ j
                · have : m + 1 ≤ j := by omega
                  simp [h1, this]
                · have : ¬ m + 1 ≤ j := by omega
                  simp [h1, this])
            have hcs : cnt (occ ch) (m + 1) = cnt (occ ch) m + 1 := by rw [cnt_succ, hocc]; rfl
            rw [hcs, show cnt (occ ch) 16 - (cnt (occ ch) m + 1) = n by omega] at hI
            exact hI
          · rw [if_neg hg, if_neg hg]
        · have hce : ch m = .empty := isEmpty_iff.1 (by simpa [occ] using hocc)
          have hocf : occ ch m = false := by simpa using hocc
          have hcs : cnt (occ ch) (m + 1) = cnt (occ ch) m := by rw [cnt_succ, hocf]; rfl
          rw [hce] at hal ⊢
          have hI := ihq (m + 1) (by omega) (u := u) (s := s) (pm := pm) hst hal (by
              apply hpm.congr
              intro i _
              unfold from'
              by_cases h1 : i = m
              · subst h1; simp [hocf]
              · by_cases h2 : m ≤ i
                · have : m + 1 ≤ i := by omega
                  simp [h2, this]
                · have : ¬ m + 1 ≤ i := by omega
                  simp [h2, this])
          rw [hcs] at hI
          exact hI
    rw [scan, bind_ok (load_ok (hmem hst) hl.get)]
    rw [leaves_node, List.range_eq_range'] at hal ⊢
    have hI := loop 16 0 rfl (u := u) (pm := lk.pmap) hst hal (ha.pm.congr (fun i _ => by simp [from']))
    rw [ha.pm.popcount]
    rw [cnt_zero, Nat.sub_zero] at hI
    exact hI

end

end Amt
