/-
C77 continued: on which calls a generic container hangs that is given a key which is not equal to itself.
-/
import Verif.PropsEqual
import Verif.PropsShape

set_option linter.unusedVariables false
set_option linter.unusedSectionVars false

namespace Spec

/-- Every key but `k₀` is equal to itself and to no other, and `k₀` is equal to no key. -/
def EqualBut {K : Type} (J : Amt.KeyImpl K) (k₀ : K) : Prop := ∀ a b, J.equal a b = true ↔ a = b ∧ a ≠ k₀

/-- The calls of a history without those that look for `k₀`. -/
def quiet {K V : Type} [DecidableEq K] (k₀ : K) (ops : List (MOp K V)) : List (MOp K V) := ops.filter fun op => decide (op.seeks ≠ some k₀)

/-- As `quiet`, for sets. -/
def quietS {K : Type} [DecidableEq K] (k₀ : K) (ops : List (SOp K)) : List (SOp K) := ops.filter fun op => decide (op.seeks ≠ some k₀)

end Spec

namespace Amt
open T Spec

section
variable {K V : Type} [DecidableEq K] {J : KeyImpl K} {k₀ : K}

/-- The same digests with an `Equal` that is equality. -/
def plain (J : KeyImpl K) : KeyImpl K := ⟨fun a b => decide (a = b), J.hash⟩

theorem plain_eq (J : KeyImpl K) (a b : K) : (plain J).equal a b = true ↔ a = b := by simp [plain]

theorem search_plain (sd : Seed) (key : K) (fuel : Nat) : ∀ (cur : Cur),
    (search (genericCfg J) sd key fuel cur : M K V _) = search (genericCfg (plain J)) sd key fuel cur := by
  induction fuel with
  | zero => intro cur; rfl
  | succ n ih => intro cur; unfold search; simp only [ih]; rfl

theorem split_plain {R : Type} (sd : Seed) (h : Nat) (key ckey : K) (cptr : Ptr) (ins : Ins K V R) (fuel : Nat) : ∀ item d hd chd w cw,
    split (genericCfg J) sd h key ckey cptr ins fuel item d hd chd w cw = split (genericCfg (plain J)) sd h key ckey cptr ins fuel item d hd chd w cw := by
  induction fuel with
  | zero => intros; rfl
  | succ n ih => intros; unfold split; simp only [ih]; rfl

theorem EqualBut.other (hJ : EqualBut J k₀) {key : K} (hk : key ≠ k₀) (x : K) : (genericCfg J).eq key x = (genericCfg (plain J)).eq key x := by
  show J.equal key x = (plain J).equal key x
  rw [Bool.eq_iff_iff, hJ, plain_eq]
  exact ⟨fun h => h.1, fun h => ⟨h, hk⟩⟩

theorem EqualBut.none (hJ : EqualBut J k₀) (x : K) : J.equal k₀ x = false := by
  cases e : J.equal k₀ x with
  | false => rfl
  | true => exact absurd rfl ((hJ _ _).1 e).2

theorem lookup_other (hJ : EqualBut J k₀) {key : K} (hk : key ≠ k₀) (h fuel : Nat) :
    (lookup (genericCfg J) h fuel key : M K V _) = lookup (genericCfg (plain J)) h fuel key := by
  unfold lookup
  simp only [search_plain (J := J), EqualBut.other hJ hk]; rfl

theorem upsert_other {R : Type} (hJ : EqualBut J k₀) {key : K} (hk : key ≠ k₀) (h fuel : Nat) (ins : Ins K V R) :
    upsert (genericCfg J) h fuel key ins = upsert (genericCfg (plain J)) h fuel key ins := by
  unfold upsert conflict
  simp only [search_plain (J := J), split_plain (J := J), EqualBut.other hJ hk]; rfl

theorem delete_other (hJ : EqualBut J k₀) {key : K} (hk : key ≠ k₀) (h fuel : Nat) (skip : Bool → Bool) :
    (delete (genericCfg J) h fuel skip key : M K V Unit) = delete (genericCfg (plain J)) h fuel skip key := by
  unfold delete remove
  simp only [search_plain (J := J), EqualBut.other hJ hk]; rfl

theorem readKey_plain (x : Link) : (readKey (genericCfg J) x : M K V K) = readKey (genericCfg (plain J)) x := rfl

theorem lookup_nan (hJ : EqualBut J k₀) {h fuel : Nat} {s s' : St K V} {o : Option Ptr} (e : lookup (genericCfg (plain J)) h fuel k₀ s = .ok (o, s')) :
    lookup (genericCfg J) h fuel k₀ s = .ok (none, s) := by
  have hr : ∀ {x : M K V (Option Ptr)}, x = lookup (genericCfg J) h fuel k₀ → (∃ s', x s = .ok (none, s')) → x s = .ok (none, s) := by
    rintro x rfl ⟨s', h'⟩
    rw [h', ((Reader.lookup (genericCfg J) h fuel k₀).ok h').1]
  refine hr rfl ?_
  rw [lookup, bind_ok (getRoot_run h s)] at e ⊢
  obtain ⟨⟨cur, hit⟩, s1, e1, e2⟩ := bind_ok_inv e
  rw [search_plain]
  have e1' : search (genericCfg (plain J)) (s.roots h).seed k₀ fuel (start (genericCfg J) (s.roots h).seed k₀ h) s = .ok ((cur, hit), s1) := e1
  rw [bind_ok e1']
  cases hit with
  | false => exact ⟨_, rfl⟩
  | true =>
    simp only [if_true] at e2 ⊢
    obtain ⟨item, s2, e3, e4⟩ := bind_ok_inv e2
    obtain ⟨x, s3, e5, e6⟩ := bind_ok_inv e4
    obtain ⟨k', s4, e7, e8⟩ := bind_ok_inv e6
    rw [bind_ok e3, bind_ok e5, readKey_plain, bind_ok e7, if_neg (by rw [show (genericCfg J).eq k₀ k' = false from EqualBut.none hJ k']; decide)]
    exact ⟨_, rfl⟩

/-- As long as `k₀` is not there, an insertion of it does not tell the difference. -/
theorem upsert_nan {R : Type} (hJ : EqualBut J k₀) {h fuel : Nat} {s s' : St K V} (ins : Ins K V R)
    (e : lookup (genericCfg (plain J)) h fuel k₀ s = .ok (none, s')) :
    upsert (genericCfg J) h fuel k₀ ins s = upsert (genericCfg (plain J)) h fuel k₀ ins s := by
  rw [lookup, bind_ok (getRoot_run h s)] at e
  rw [upsert, upsert, bind_ok (getRoot_run h s), bind_ok (getRoot_run h s), search_plain]
  obtain ⟨⟨cur, hit⟩, s1, e1, e2⟩ := bind_ok_inv e
  have e1' : search (genericCfg (plain J)) (s.roots h).seed k₀ fuel (start (genericCfg J) (s.roots h).seed k₀ h) s = .ok ((cur, hit), s1) := e1
  rw [bind_ok e1, bind_ok e1']
  cases hit with
  | false => rfl
  | true =>
    simp only [if_true] at e2 ⊢
    obtain ⟨item, s2, e3, e4⟩ := bind_ok_inv e2
    obtain ⟨x, s3, e5, e6⟩ := bind_ok_inv e4
    obtain ⟨k', s4, e7, e8⟩ := bind_ok_inv e6
    by_cases hk : (genericCfg (plain J)).eq k₀ k' = true
    · rw [if_pos hk] at e8; cases e8
    · rw [conflict, conflict, bind_ok e3, bind_ok e3, bind_ok e5, bind_ok e5, readKey_plain, bind_ok e7, bind_ok e7, if_neg hk,
        if_neg (by rw [show (genericCfg J).eq k₀ k' = false from EqualBut.none hJ k']; decide)]
      simp only [split_plain (J := J)]; rfl

/-- When it is there, and is rehashed correctly, the insertion never returns. -/
theorem upsert_nan_hang {R : Type} (hJ : EqualBut J k₀) {sd : Seed} {s : St K V} {h fuel : Nat} {t : T K Ptr V} {cl : Prop} {F : Nat → Prop}
    (hi : Inv (genericCfg (plain J)) sd (fun k n => J.hash k sd n) cl s h t F) (hf : 256 ≤ fuel) (hk : k₀ ∈ (absT t).keys)
    (ins : Ins K V R) (hg : ins.guard = false)
    (hch : ∀ d, d < 256 → ins.chash sd k₀ k₀ d fuel = idealChash (fun k n => J.hash k sd n) sd k₀ k₀ d fuel) :
    upsert (genericCfg J) h fuel k₀ ins s = .error .diverge := by
  have L : Laws (genericCfg (plain J)) sd (fun k n => J.hash k sd n) := (GenericMap_ok (V := Unit) sd (plain J) (plain_eq J)).laws
  obtain ⟨e, hs, hek⟩ := hi.slot_of_agree hk (fun j _ => rfl)
  have hb := hi.lev_bound k₀
  obtain ⟨lk, hl, hr⟩ := hi.rep
  obtain ⟨cur, b, e1, e2⟩ := search_sim L k₀ (by omega : 255 < 256) t hi.node hl hr hi.ht (by omega : 255 < fuel + 0)
    (start_ok L k₀ h) rfl
  rw [upsert, bind_ok (getRoot_run h s), hi.seed, search_plain]
  have e1' : search (genericCfg (plain J)) sd k₀ fuel (start (genericCfg J) sd k₀ h) s = .ok ((cur, b), s) := e1
  rw [bind_ok e1']
  rw [hs] at e2
  obtain ⟨rfl, hlev, ⟨hc, hcl⟩, item, x, hit, e3, e4, e5, e6⟩ := e2
  simp only [if_true]
  rw [hek] at e5
  rw [conflict, bind_ok e3, bind_ok e4, readKey_plain, bind_ok e5,
    if_neg (by rw [show (genericCfg J).eq k₀ k₀ = false from EqualBut.none hJ k₀]; decide)]
  have hch' := hch cur.d (by omega)
  rw [bind_ok (liftE_ok hch' s)]
  simp only
  rw [if_neg (fun hg' => by rw [hg] at hg'; cases hg'.1)]
  obtain ⟨s1, g1, l1⟩ := hcl.modLink (fun y => { y with tmap := y.tmap &&& ~~~bitOf (radixOf cur.hd) })
  rw [bind_ok g1, bind_ok (modRoot_run h _ s1), split_plain]
  refine split_diverge (generic_persist (key := k₀) (ckey := k₀) (H := fun k n => J.hash k sd n) (fun k w d _ => rfl) (fun j _ => rfl))
    h _ _ fuel _ _ _ _ _ _ _ ?_ ⟨by omega, hc.hd, rfl⟩
  obtain ⟨b, i, xs, x, q1, q2, q3, q4⟩ := l1 _ hit
  exact ⟨b, i, xs, x, q1, q2, q3, q4⟩

/-! ### Maps -/

variable [Inhabited V]

theorem exec_other (hJ : EqualBut J k₀) {op : MOp K V} (h1 : op.seeks ≠ some k₀) (h2 : k₀ ∉ op.stores) (fuel h : Nat) :
    (GenericMap J : MapImpl K V).exec fuel (some h) op = (GenericMap (plain J)).exec fuel (some h) op := by
  have hp : ∀ k, k ≠ k₀ → (GenericMap J : MapImpl K V).Ptr fuel (some h) k = (GenericMap (plain J)).Ptr fuel (some h) k := fun k hk =>
    lookup_other hJ hk h fuel
  cases op with
  | get k => simp only [MapImpl.exec, MapImpl.Get, hp k (fun e => h1 (congrArg some e))]
  | val k => simp only [MapImpl.exec, MapImpl.Val, hp k (fun e => h1 (congrArg some e))]
  | ptr k => simp only [MapImpl.exec, hp k (fun e => h1 (congrArg some e))]
  | write k v => simp only [MapImpl.exec, hp k (fun e => h1 (congrArg some e))]
  | set k v =>
    have hk : k ≠ k₀ := fun e => h2 (by simp [MOp.stores, e])
    have := upsert_other (V := V) hJ hk h fuel ((GenericMap J).setI k v)
    show ((upsert (genericCfg J) h fuel k ((GenericMap J).setI k v)) >>= fun _ => pure MOut.unit) = _
    rw [this]; rfl
  | mod k f =>
    have hk : k ≠ k₀ := fun e => h2 (by simp [MOp.stores, e])
    have := upsert_other (V := V) hJ hk h fuel ((GenericMap J).modI k f)
    show ((upsert (genericCfg J) h fuel k ((GenericMap J).modI k f)) >>= fun l => pure (MOut.calls l)) = _
    rw [this]; rfl
  | del k =>
    have := delete_other (V := V) hJ (fun e => h1 (congrArg some e)) h fuel (fun same => !same) (key := k)
    show ((delete (genericCfg J) h fuel (fun same => !same) k) >>= fun _ => pure MOut.unit) = _
    rw [this]; rfl
  | len => rfl
  | dep => rfl
  | all f => rfl

theorem exec_seeks (hJ : EqualBut J k₀) {op : MOp K V} (ho : op.seeks = some k₀) {fuel h : Nat} {s : St K V}
    (e : lookup (genericCfg J) h fuel k₀ s = .ok (none, s)) :
    ∃ o, (GenericMap J : MapImpl K V).exec fuel (some h) op s = .ok (o, s) := by
  have hg : (GenericMap J : MapImpl K V).exec fuel (some h) (.get k₀) s = .ok (.pair default false, s) := get_missing e
  obtain ⟨_, _, h1, h2, h3, h4⟩ := (C77_Map (EqualBut.none hJ) s).1 _ _ hg
  cases op with
  | get k => cases ho; exact ⟨_, hg⟩
  | val k => cases ho; exact ⟨_, h1⟩
  | ptr k => cases ho; exact ⟨_, h2⟩
  | write k v => cases ho; exact ⟨_, h3 v⟩
  | del k => cases ho; exact ⟨_, h4⟩
  | set | mod | len | dep | all => cases ho

theorem nan_run (hJ : EqualBut J k₀) {sd : Seed} {fuel h : Nat} (hf : 256 ≤ fuel) {ops : List (MOp K V)} (hs : ∀ op ∈ ops, k₀ ∉ op.stores) :
    ∀ {s : St K V} {t : T K Ptr V} {F : Nat → Prop} {ks : List K}, Inv (genericCfg (plain J)) sd (fun k n => J.hash k sd n) True s h t F →
    (∀ x, x ∈ ks ↔ x ∈ (absT t).keys) → EachNew (GenFits fun k n => J.hash k sd n) ks (quiet k₀ ops) →
    ∃ os s' t' F', (GenericMap J : MapImpl K V).run fuel (some h) ops s = .ok (os, s') ∧
      Inv (genericCfg (plain J)) sd (fun k n => J.hash k sd n) True s' h t' F' ∧
      ∀ x, x ∈ keysAfter ks (quiet k₀ ops) ↔ x ∈ (absT t').keys := by
  have ok := GenericMap_ok (V := V) sd (plain J) (plain_eq J)
  induction ops with
  | nil => intro s t F ks hi hk _; exact ⟨_, _, _, _, rfl, hi, hk⟩
  | cons op ops ih =>
    intro s t F ks hi hk hn
    by_cases ho : op.seeks = some k₀
    · have hq : quiet k₀ (op :: ops) = quiet k₀ ops := by simp [quiet, ho]
      rw [hq] at hn ⊢
      obtain ⟨o, e1⟩ := exec_seeks hJ ho (lookup_nan hJ (hi.lookup ok.laws rfl hf k₀))
      obtain ⟨os, s', t', F', e2, h1, h2⟩ := ih (fun op h => hs op (List.mem_cons_of_mem _ h)) hi hk hn
      exact ⟨_, s', t', F', by rw [MapImpl.run, bind_ok e1, bind_ok e2]; rfl, h1, h2⟩
    · have hq : quiet k₀ (op :: ops) = op :: quiet k₀ ops := by simp [quiet, ho]
      rw [hq] at hn ⊢
      have hop : NewOk (GenFits fun k n => J.hash k sd n) (absT t).keys op := fun k hk1 hk' =>
        ok.congr _ _ _ _ hk (hn.1 k hk1 (fun h => hk' ((hk k).1 h)))
      obtain ⟨o, s1, t1, F1, e1, i1, c1, ⟨m1, st1, p1⟩, k1⟩ := map_step ok hi hf op hop
      have hks1 : ∀ x, x ∈ op.after ks ↔ x ∈ (absT t1).keys := by
        intro x
        rw [← (FMap.keys_perm p1).mem_iff, st1.after_keys, mem_after hk]
      obtain ⟨os, s', t', F', e2, h1, h2⟩ := ih (fun op h => hs op (List.mem_cons_of_mem _ h)) i1 hks1 hn.2
      rw [← exec_other hJ ho (hs op List.mem_cons_self)] at e1
      exact ⟨_, s', t', F', by rw [MapImpl.run, bind_ok e1, bind_ok e2]; rfl, h1, h2⟩

theorem exec_first (hJ : EqualBut J k₀) {fuel h : Nat} {op : MOp K V} (ho : op.stores = [k₀]) {s s' : St K V}
    (e : lookup (genericCfg (plain J)) h fuel k₀ s = .ok (none, s')) :
    (GenericMap J : MapImpl K V).exec fuel (some h) op s = (GenericMap (plain J)).exec fuel (some h) op s := by
  cases op with
  | set k v =>
    cases ho
    have := upsert_nan hJ ((GenericMap J).setI k₀ v) e
    show ((upsert (genericCfg J) h fuel k₀ ((GenericMap J).setI k₀ v)) >>= fun _ => pure MOut.unit) s = _
    rw [bind_run, this]; rfl
  | mod k f =>
    cases ho
    have := upsert_nan hJ ((GenericMap J).modI k₀ f) e
    show ((upsert (genericCfg J) h fuel k₀ ((GenericMap J).modI k₀ f)) >>= fun l => pure (MOut.calls l)) s = _
    rw [bind_run, this]; rfl
  | get | val | ptr | write | del | len | dep | all => cases ho

theorem exec_second (hJ : EqualBut J k₀) {sd : Seed} {s : St K V} {h fuel : Nat} {t : T K Ptr V} {F : Nat → Prop} {op : MOp K V} (ho : op.stores = [k₀])
    (hi : Inv (genericCfg (plain J)) sd (fun k n => J.hash k sd n) True s h t F) (hf : 256 ≤ fuel) (hk : k₀ ∈ (absT t).keys)
    (hh : ∀ d, d < 256 → GenOk (fun k n => J.hash k sd n) k₀ k₀ d) :
    (GenericMap J : MapImpl K V).exec fuel (some h) op s = .error .diverge := by
  have ok := GenericMap_ok (V := V) sd (plain J) (plain_eq J)
  cases op with
  | set k v =>
    cases ho
    have := upsert_nan_hang hJ hi hf hk ((GenericMap J).setI k₀ v) rfl (fun d hd => ok.setC k₀ v k₀ d fuel (by omega) (hh d hd))
    show ((upsert (genericCfg J) h fuel k₀ ((GenericMap J).setI k₀ v)) >>= fun _ => pure MOut.unit) s = _
    rw [bind_run, this]
  | mod k f =>
    cases ho
    have := upsert_nan_hang hJ hi hf hk ((GenericMap J).modI k₀ f) rfl (fun d hd => ok.modC k₀ f k₀ d fuel (by omega) (hh d hd))
    show ((upsert (genericCfg J) h fuel k₀ ((GenericMap J).modI k₀ f)) >>= fun l => pure (MOut.calls l)) s = _
    rw [bind_run, this]
  | get | val | ptr | write | del | len | dep | all => cases ho

theorem keysAfter_quiet {ks : List K} {ops : List (MOp K V)} (hk : k₀ ∈ ks) : k₀ ∈ keysAfter ks (quiet k₀ ops) := by
  induction ops generalizing ks with
  | nil => exact hk
  | cons op ops ih =>
    by_cases ho : op.seeks = some k₀
    · rw [show quiet k₀ (op :: ops) = quiet k₀ ops by simp [quiet, ho]]; exact ih hk
    · rw [show quiet k₀ (op :: ops) = op :: quiet k₀ ops by simp [quiet, ho]]
      refine ih (ks := op.after ks) ?_
      cases op <;> simp only [MOp.after] <;> first | exact hk | skip
      · split <;> simp [hk]
      · split <;> simp [hk]
      · rename_i k
        exact List.mem_filter.2 ⟨hk, by simpa using fun e : k₀ = k => ho (congrArg some e.symm)⟩

/-- C77, maps: after a history in which a key that is not equal to itself has been inserted once, neither `Set` nor `Mod` of it ever
returns, if its digests are rehashed correctly; for example if they are the same for all iterations.  The
history is covered (as in C05) without the calls that look for that key, which do nothing; one of them may be `Del`. -/
theorem C77_Map_hangs (hJ : EqualBut J k₀) (sd : Seed) {ops₁ ops₂ : List (MOp K V)} {op₁ op₂ : MOp K V}
    (h1 : ∀ op ∈ ops₁, k₀ ∉ op.stores) (h2 : ∀ op ∈ ops₂, k₀ ∉ op.stores) (o1 : op₁.stores = [k₀]) (o2 : op₂.stores = [k₀])
    (hn : EachNew (GenFits fun k n => J.hash k sd n) [] (quiet k₀ (ops₁ ++ op₁ :: ops₂)))
    (hh : ∀ d, d < 256 → GenOk (fun k n => J.hash k sd n) k₀ k₀ d) (rest : List (MOp K V)) (s : St K V) (fuel : Nat) :
    (GenericMap J).session fuel sd (ops₁ ++ op₁ :: ops₂ ++ op₂ :: rest) s = .error .diverge := by
  have ok := GenericMap_ok (V := V) sd (plain J) (plain_eq J)
  refine (MapImpl.session_ext (GenericMap_mono J) (Nat.le_max_left fuel 256) sd _).hang ?_
  have hf := Nat.le_max_right fuel 256
  generalize max fuel 256 = fuel at hf
  have hq : quiet k₀ (ops₁ ++ op₁ :: ops₂) = quiet k₀ ops₁ ++ op₁ :: quiet k₀ ops₂ := by
    have ho : op₁.seeks ≠ some k₀ := by cases op₁ <;> simp [MOp.seeks] <;> cases o1
    simp [quiet, ho]
  rw [hq, EachNew.append] at hn
  obtain ⟨hn1, hn2, hn3⟩ := hn
  obtain ⟨s1, e1, i1, _⟩ := Inv.new (genericCfg (plain J)) sd (fun k n => J.hash k sd n) True s
  obtain ⟨os1, s2, t2, F2, e2, i2, k2⟩ := nan_run hJ hf h1 (ks := []) i1 (by rw [absT_new]; simp [FMap.keys]) hn1
  have hk2 : k₀ ∉ (absT t2).keys := fun hx => by
    rcases mem_keysAfter ((k2 k₀).2 hx) with h | ⟨op, ha, hb⟩
    · cases h
    · exact h1 op (List.mem_filter.1 ha).1 hb
  have l2 := i2.lookup ok.laws rfl hf k₀
  rw [show find (nbOf fun k n => (plain J).hash k sd n) k₀ t2 0 = none from (find_none_iff i2 k₀).2 hk2] at l2
  have hop : NewOk (GenFits fun k n => J.hash k sd n) (absT t2).keys op₁ := fun k hk1 hk' =>
    ok.congr _ _ _ _ k2 (hn2 k hk1 (fun h => hk' ((k2 k).1 h)))
  obtain ⟨o, s3, t3, F3, e3, i3, c3, ⟨m3, st3, p3⟩, k3⟩ := map_step ok i2 hf op₁ hop
  rw [← exec_first hJ o1 l2] at e3
  have hks3 : ∀ x, x ∈ op₁.after (keysAfter [] (quiet k₀ ops₁)) ↔ x ∈ (absT t3).keys := by
    intro x
    rw [← (FMap.keys_perm p3).mem_iff, st3.after_keys, mem_after k2]
  have hk3 : k₀ ∈ op₁.after (keysAfter [] (quiet k₀ ops₁)) := by
    cases op₁ <;> cases o1 <;> simp only [MOp.after] <;> split <;> first | assumption | exact List.mem_cons_self
  obtain ⟨os4, s4, t4, F4, e4, i4, k4⟩ := nan_run hJ hf h2 i3 hks3 hn3
  have e5 := exec_second hJ o2 i4 hf ((k4 k₀).1 (keysAfter_quiet hk3)) hh
  rw [MapImpl.session, MapImpl.New, bind_ok e1, bind_err]
  rw [List.append_assoc, MapImpl.run_append, bind_ok e2, bind_err]
  rw [List.cons_append, MapImpl.run, bind_ok e3, bind_err]
  rw [MapImpl.run_append, bind_ok e4, bind_err]
  rw [MapImpl.run, bind_err e5]

end

/-! ### Sets -/

section
variable {K : Type} [DecidableEq K] {J : KeyImpl K} {k₀ : K}

theorem exec_otherS (hJ : EqualBut J k₀) {op : SOp K} (h1 : op.seeks ≠ some k₀) (h2 : k₀ ∉ op.stores) (fuel h : Nat) :
    (GenericSet J).exec fuel (some h) op = (GenericSet (plain J)).exec fuel (some h) op := by
  cases op with
  | has k =>
    have hk : k ≠ k₀ := fun e => h1 (congrArg some e)
    have := lookup_other (V := Unit) hJ hk h fuel
    show ((lookup (genericCfg J) h fuel k >>= fun p => pure p.isSome) >>= fun b => pure (SOut.bool b)) = _
    rw [this]; rfl
  | add k =>
    have hk : k ≠ k₀ := fun e => h2 (by simp [SOp.stores, e])
    have := upsert_other (V := Unit) hJ hk h fuel ((GenericSet J).addI k)
    show ((upsert (genericCfg J) h fuel k ((GenericSet J).addI k)) >>= fun _ => pure SOut.unit) = _
    rw [this]; rfl
  | del k =>
    have := delete_other (V := Unit) hJ (fun e => h1 (congrArg some e)) h fuel (fun same => !same) (key := k)
    show ((delete (genericCfg J) h fuel (fun same => !same) k) >>= fun _ => pure SOut.unit) = _
    rw [this]; rfl
  | len => rfl
  | dep => rfl
  | all f => rfl

theorem exec_seeksS (hJ : EqualBut J k₀) {op : SOp K} (ho : op.seeks = some k₀) {fuel h : Nat} {s : St K Unit}
    (e : lookup (genericCfg J) h fuel k₀ s = .ok (none, s)) :
    ∃ o, (GenericSet J).exec fuel (some h) op s = .ok (o, s) := by
  have hg : (GenericSet J).exec fuel (some h) (.has k₀) s = .ok (.bool false, s) := by
    show ((lookup (genericCfg J) h fuel k₀ >>= fun p => pure p.isSome) >>= fun b => pure (SOut.bool b)) s = _
    rw [bind_run, bind_ok e]; rfl
  obtain ⟨_, _, h1⟩ := (C77_Set (EqualBut.none hJ) s).1 _ _ hg
  cases op with
  | has k => cases ho; exact ⟨_, hg⟩
  | del k => cases ho; exact ⟨_, h1⟩
  | add | len | dep | all => cases ho

theorem nan_runS (hJ : EqualBut J k₀) {sd : Seed} {fuel h : Nat} (hf : 256 ≤ fuel) {ops : List (SOp K)} (hs : ∀ op ∈ ops, k₀ ∉ op.stores) :
    ∀ {s : St K Unit} {t : T K Ptr Unit} {F : Nat → Prop} {ks : List K}, Inv (genericCfg (plain J)) sd (fun k n => J.hash k sd n) True s h t F →
    (∀ x, x ∈ ks ↔ x ∈ absS t) → SEachNew (fun k n => J.hash k sd n) false (GenFits (fun k n => J.hash k sd n) false) ks (quietS k₀ ops) →
    ∃ os s' t' F', (GenericSet J).run fuel (some h) ops s = .ok (os, s') ∧
      Inv (genericCfg (plain J)) sd (fun k n => J.hash k sd n) True s' h t' F' ∧
      ∀ x, x ∈ elemsAfterX (fun k n => J.hash k sd n) false ks (quietS k₀ ops) ↔ x ∈ absS t' := by
  have ok := GenericSet_ok sd (plain J) (plain_eq J)
  induction ops with
  | nil => intro s t F ks hi hk _; exact ⟨_, _, _, _, rfl, hi, hk⟩
  | cons op ops ih =>
    intro s t F ks hi hk hn
    by_cases ho : op.seeks = some k₀
    · have hq : quietS k₀ (op :: ops) = quietS k₀ ops := by simp [quietS, ho]
      rw [hq] at hn ⊢
      obtain ⟨o, e1⟩ := exec_seeksS hJ ho (lookup_nan hJ (hi.lookup ok.laws rfl hf k₀))
      obtain ⟨os, s', t', F', e2, h1, h2⟩ := ih (fun op h => hs op (List.mem_cons_of_mem _ h)) hi hk hn
      exact ⟨_, s', t', F', by rw [SetImpl.run, bind_ok e1, bind_ok e2]; rfl, h1, h2⟩
    · have hq : quietS k₀ (op :: ops) = op :: quietS k₀ ops := by simp [quietS, ho]
      rw [hq] at hn ⊢
      obtain ⟨o, s1, t1, F1, e1, i1, c1, ⟨m1, st1, p1⟩⟩ :=
        set_step ok hi hf op (fun k hk1 hk' => ok.congr _ _ _ hk (hn.1 k hk1 (fun h => hk' ((hk k).1 h))))
      have hks1 : ∀ x, x ∈ op.afterX (fun k n => J.hash k sd n) false ks ↔ x ∈ absS t1 := by
        intro x
        rw [← p1.mem_iff, st1.mem_afterX, Spec.mem_afterX hk]; rfl
      obtain ⟨os, s', t', F', e2, h1, h2⟩ := ih (fun op h => hs op (List.mem_cons_of_mem _ h)) i1 hks1 hn.2
      rw [← exec_otherS hJ ho (hs op List.mem_cons_self)] at e1
      exact ⟨_, s', t', F', by rw [SetImpl.run, bind_ok e1, bind_ok e2]; rfl, h1, h2⟩

theorem elemsAfter_quiet {ks : List K} {ops : List (SOp K)} (hk : k₀ ∈ ks) (H : K → Nat → BitVec 64) : k₀ ∈ elemsAfterX H false ks (quietS k₀ ops) := by
  induction ops generalizing ks with
  | nil => exact hk
  | cons op ops ih =>
    by_cases ho : op.seeks = some k₀
    · rw [show quietS k₀ (op :: ops) = quietS k₀ ops by simp [quietS, ho]]; exact ih hk
    · rw [show quietS k₀ (op :: ops) = op :: quietS k₀ ops by simp [quietS, ho]]
      refine ih (ks := op.afterX H false ks) ?_
      cases op <;> simp only [SOp.afterX, SOp.after] <;> first | exact hk | skip
      · split <;> simp [hk]
      · rename_i k
        exact List.mem_filter.2 ⟨hk, by simpa using fun e : k₀ = k => ho (congrArg some e.symm)⟩

/-- C77, sets: the second `Add` of a key that is not equal to itself never returns. -/
theorem C77_Set_hangs (hJ : EqualBut J k₀) (sd : Seed) {ops₁ ops₂ : List (SOp K)}
    (h1 : .add k₀ ∉ ops₁) (h2 : .add k₀ ∉ ops₂)
    (hn : SEachNew (fun k n => J.hash k sd n) false (GenFits (fun k n => J.hash k sd n) false) [] (quietS k₀ (ops₁ ++ .add k₀ :: ops₂)))
    (hh : ∀ d, d < 256 → GenOk (fun k n => J.hash k sd n) k₀ k₀ d) (rest : List (SOp K)) (s : St K Unit) (fuel : Nat) :
    (GenericSet J).session fuel sd (ops₁ ++ .add k₀ :: ops₂ ++ .add k₀ :: rest) s = .error .diverge := by
  have ok := GenericSet_ok sd (plain J) (plain_eq J)
  have hs : ∀ {ops : List (SOp K)}, .add k₀ ∉ ops → ∀ op ∈ ops, k₀ ∉ op.stores := by
    intro ops hx op ho hk
    cases op <;> simp only [SOp.stores, List.mem_singleton, List.not_mem_nil] at hk
    subst hk; exact hx ho
  refine (SetImpl.session_ext (GenericSet_mono J) (Nat.le_max_left fuel 256) sd _).hang ?_
  have hf := Nat.le_max_right fuel 256
  generalize max fuel 256 = fuel at hf
  have hq : quietS k₀ (ops₁ ++ .add k₀ :: ops₂) = quietS k₀ ops₁ ++ .add k₀ :: quietS k₀ ops₂ := by
    simp [quietS, SOp.seeks]
  rw [hq, SEachNew.append] at hn
  obtain ⟨hn1, hn2, hn3⟩ := hn
  obtain ⟨s1, e1, i1, _⟩ := Inv.new (genericCfg (plain J)) sd (fun k n => J.hash k sd n) True s
  obtain ⟨os1, s2, t2, F2, e2, i2, k2⟩ := nan_runS hJ hf (hs h1) (ks := []) i1 (by rw [absS_new]; simp) hn1
  have hk2 : k₀ ∉ absS t2 := fun hx => by
    have key : ∀ (ops : List (SOp K)) (ks : List K), (∀ op ∈ ops, k₀ ∉ op.stores) → k₀ ∉ ks → k₀ ∉ elemsAfterX (fun k n => J.hash k sd n) false ks ops := by
      intro ops
      induction ops with
      | nil => intro ks _ h; exact h
      | cons op ops ih =>
        intro ks ha hb
        exact ih _ (fun op h => ha op (List.mem_cons_of_mem _ h)) fun hc => (mem_afterX_stores hc).elim hb (ha op List.mem_cons_self)
    exact key _ [] (fun op ho => hs h1 op (List.mem_filter.1 ho).1) (by simp) ((k2 k₀).2 hx)
  have l2 := i2.lookup ok.laws rfl hf k₀
  rw [show find (nbOf fun k n => (plain J).hash k sd n) k₀ t2 0 = none from (find_none_iff i2 k₀).2 (by rw [← absS_eq]; exact hk2)] at l2
  obtain ⟨o, s3, t3, F3, e3, i3, c3, ⟨m3, st3, p3⟩⟩ :=
    set_step ok i2 hf (.add k₀) (fun k hk1 hk' => ok.congr _ _ _ k2 (hn2 k hk1 (fun h => hk' ((k2 k).1 h))))
  have e3' : (GenericSet J).exec fuel (some s.next) (.add k₀) s2 = .ok (o, s3) := by
    have := upsert_nan hJ ((GenericSet J).addI k₀) l2
    show ((upsert (genericCfg J) s.next fuel k₀ ((GenericSet J).addI k₀)) >>= fun _ => pure SOut.unit) s2 = _
    rw [bind_run, this]; exact e3
  have hks3 : ∀ x, x ∈ (SOp.add k₀).afterX (fun k n => J.hash k sd n) false (elemsAfterX (fun k n => J.hash k sd n) false [] (quietS k₀ ops₁)) ↔ x ∈ absS t3 := by
    intro x
    rw [← p3.mem_iff, st3.mem_afterX, Spec.mem_afterX k2]; rfl
  have hk3 : k₀ ∈ (SOp.add k₀).afterX (fun k n => J.hash k sd n) false (elemsAfterX (fun k n => J.hash k sd n) false [] (quietS k₀ ops₁)) := by
    simp only [SOp.afterX, SOp.after]; split <;> first | assumption | exact List.mem_cons_self
  obtain ⟨os4, s4, t4, F4, e4, i4, k4⟩ := nan_runS hJ hf (hs h2) i3 hks3 hn3
  have e5 : (GenericSet J).exec fuel (some s.next) (.add k₀) s4 = .error .diverge := by
    have := upsert_nan_hang hJ i4 hf (by rw [← absS_eq]; exact (k4 k₀).1 (elemsAfter_quiet hk3 _)) ((GenericSet J).addI k₀) rfl
      (fun d hd => ok.addC k₀ k₀ d fuel (by omega) (hh d hd))
    show ((upsert (genericCfg J) s.next fuel k₀ ((GenericSet J).addI k₀)) >>= fun _ => pure SOut.unit) s4 = _
    rw [bind_run, this]
  rw [SetImpl.session, SetImpl.New, bind_ok e1, bind_err]
  rw [List.append_assoc, SetImpl.run_append, bind_ok e2, bind_err]
  rw [List.cons_append, SetImpl.run, bind_ok e3', bind_err]
  rw [SetImpl.run_append, bind_ok e4, bind_err]
  rw [SetImpl.run, bind_err e5]

end

/-! ### Instances -/

/-- Numbers of which 7 is not equal to itself. -/
def lonelyKey : KeyImpl Nat := ⟨fun a b => decide (a = b ∧ a ≠ 7), fun k _ _ => BitVec.ofNat 64 k⟩

theorem lonelyKey_but : EqualBut lonelyKey 7 := fun a b => by simp [lonelyKey]

theorem lonelyKey_ok (sd : Seed) (d : Nat) : GenOk (fun k n => lonelyKey.hash k sd n) 7 7 d := GenOk_const (fun _ _ => rfl) _ _ _

/-- 7 is set next to 0x17, deleted, which does nothing, and set again. -/
example := C77_Map_hangs (V := Nat) lonelyKey_but 0#64 (ops₁ := [.set 1 5, .get 7, .set 0x17 3]) (op₁ := .set 7 4)
  (ops₂ := [.del 7, .del 1, .mod 2 fun v _ => v + 1]) (op₂ := .mod 7 fun v _ => v) (by decide) (by decide) rfl rfl (by decide +kernel)
  (fun d _ => lonelyKey_ok _ d) [.len] St.init 1000

example := C77_Set_hangs lonelyKey_but 0#64 (ops₁ := [.add 1, .has 7, .add 0x17]) (ops₂ := [.del 7, .del 1]) (by simp) (by simp)
  (SEachNew'.toX _ (by decide +kernel)) (fun d _ => lonelyKey_ok _ d) [.len] St.init 1000

end Amt
