/- Every call of a container's API does what the abstract map or set does. -/
import Verif.Slot
import Verif.SpecLemmas

set_option linter.unusedVariables false
set_option linter.unusedSectionVars false

namespace Amt
open T Spec

variable {K V : Type}

/-! ### Running client programs on the model -/

/-- Perform one client call on the container value `m`. -/
def MapImpl.exec [Inhabited V] (I : MapImpl K V) (fuel : Nat) (m : Handle) : MOp K V → M K V (MOut K V)
  | .get k => do let r ← I.Get fuel m k; pure (.pair r.1 r.2)
  | .val k => do let v ← I.Val fuel m k; pure (.one v)
  | .ptr k => do
    let p ← I.Ptr fuel m k
    match p with
    | none => pure (.opt none)
    | some p => do let kv ← loadKv p; pure (.opt (some kv.2))
  | .set k v => do I.Set fuel m k v; pure .unit
  | .mod k f => do let l ← I.Mod fuel m k f; pure (.calls l)
  | .del k => do I.Del fuel m k; pure .unit
  | .len => do let n ← MapImpl.Len m; pure (.num n)
  | .dep => do let q ← MapImpl.Dep m; pure (.rat q)
  | .write k v => do
    let p ← I.Ptr fuel m k
    match p with
    | none => pure .unit
    | some p => do storeVal p v; pure .unit
  | .all f => do
    let l ← I.All fuel m (fun log k v => (log ++ [(k, v)], f log k v)) []
    pure (.log l)

/-- Perform client calls one after the other. -/
def MapImpl.run [Inhabited V] (I : MapImpl K V) (fuel : Nat) (m : Handle) : List (MOp K V) → M K V (List (MOut K V))
  | [] => pure []
  | op :: ops => do
    let o ← I.exec fuel m op
    let os ← MapImpl.run I fuel m ops
    pure (o :: os)

/-- Create a container, then perform client calls on it. -/
def MapImpl.session [Inhabited V] (I : MapImpl K V) (fuel : Nat) (seed : Seed) (ops : List (MOp K V)) :
    M K V (Handle × List (MOut K V)) := do
  let m ← MapImpl.New seed
  let os ← I.run fuel m ops
  pure (m, os)

/-- Perform one client call on the set value `m`. -/
def SetImpl.exec (I : SetImpl K) (fuel : Nat) (m : Handle) : SOp K → M K Unit (SOut K)
  | .has k => do let b ← I.Has fuel m k; pure (.bool b)
  | .add k => do I.Add fuel m k; pure .unit
  | .del k => do I.Del fuel m k; pure .unit
  | .len => do let n ← SetImpl.Len m; pure (.num n)
  | .dep => do let q ← SetImpl.Dep m; pure (.rat q)
  | .all f => do
    let l ← I.All fuel m (fun log k => (log ++ [k], f log k)) []
    pure (.log l)

def SetImpl.run (I : SetImpl K) (fuel : Nat) (m : Handle) : List (SOp K) → M K Unit (List (SOut K))
  | [] => pure []
  | op :: ops => do
    let o ← I.exec fuel m op
    let os ← SetImpl.run I fuel m ops
    pure (o :: os)

def SetImpl.session (I : SetImpl K) (fuel : Nat) (seed : Seed) (ops : List (SOp K)) :
    M K Unit (Handle × List (SOut K)) := do
  let m ← SetImpl.New seed
  let os ← I.run fuel m ops
  pure (m, os)

/-! ### Tries and abstract maps -/

variable [DecidableEq K]

section
variable {P : Type} {nb : K → Nat → Nat}

theorem T.leaves_delRoot (hnb : ∀ k d, nb k d < 16) {key : K} {t : T K P V} {p : P} {v : V} (hn : t.isNode = true)
    (h : find nb key t 0 = some (p, v)) :
    ∃ A C, leaves t = A ++ (key, p, v) :: C ∧ leaves (delRoot nb key t) = A ++ C := by
  cases t with
  | empty => cases hn
  | leaf => cases hn
  | node st ch =>
    obtain ⟨A', C', h1, h2⟩ := leaves_del hnb (t := ch (nb key 0)) (d := 1) h
    obtain ⟨A, C, hu⟩ := leaves_upd ch (hnb key 0)
    have h0 := hu st (ch (nb key 0))
    rw [upd_self] at h0
    refine ⟨A ++ A', C' ++ C, ?_, ?_⟩
    · rw [h0, h1]; simp
    · rw [delRoot, hu, h2]; simp

end

section
variable {c : Cfg K} {sd : Seed} {H : K → Nat → BitVec 64} {s : St K V} {h : Nat} {t : T K Ptr V}
  {cl : Prop} {F : Nat → Prop} {fuel : Nat}

theorem nodup_absT {nb : K → Nat → Nat} (hw : WF nb t 0) : (absT t).keys.Nodup := by
  rw [absT_keys]; exact nodup_keys hw

theorem find_absT (hw : WF (nbOf H) t 0) (key : K) :
    (find (nbOf H) key t 0).map (fun e => e.2) = (absT t).get key := by
  cases hf : find (nbOf H) key t 0 with
  | none =>
    rw [find_eq_none (nbOf_lt H) hw] at hf
    symm
    rw [Option.map_none, FMap.get_eq_none, absT_keys]
    intro hm
    obtain ⟨e, he, h2⟩ := List.mem_map.1 hm
    exact hf e he h2
  | some e =>
    obtain ⟨p, v⟩ := e
    rw [find_eq_some (nbOf_lt H) hw] at hf
    symm
    rw [Option.map_some, FMap.get_eq_some (nodup_absT hw)]
    exact List.mem_map.2 ⟨_, hf, rfl⟩

theorem mem_absT_keys {x : K} : x ∈ (absT t).keys ↔ ∃ e ∈ leaves t, e.1 = x := by
  rw [absT_keys, List.mem_map]

/-- Replacing the value of a present key. -/
theorem absT_update {t t' : T K Ptr V} (hn : (absT t).keys.Nodup) {A C : List (K × Ptr × V)} {k : K} {p : Ptr} {v w : V}
    (h1 : leaves t = A ++ (k, p, v) :: C) (h2 : leaves t' = A ++ (k, p, w) :: C) :
    ((absT t).set k w).Perm (absT t') := by
  have hd : (absT t).del k = (A ++ C).map (fun e => (e.1, e.2.2)) := by
    rw [absT_keys, h1] at hn
    simp only [List.map_append, List.map_cons] at hn
    rw [List.nodup_append] at hn
    have hA : ∀ e ∈ A, e.1 ≠ k := fun e he => hn.2.2 e.1 (List.mem_map_of_mem (f := fun e : K × Ptr × V => e.1) he) k (by simp)
    have hC : ∀ e ∈ C, e.1 ≠ k := by
      intro e he hk
      have := (List.nodup_cons.1 hn.2.1).1
      exact this (by rw [← hk]; exact List.mem_map_of_mem (f := fun e : K × Ptr × V => e.1) he)
    rw [absT, h1, FMap.del, List.map_append, List.map_cons, List.filter_append, List.filter_cons]
    simp only [ne_eq, not_true_eq_false, decide_false, Bool.false_eq_true, if_false]
    rw [List.map_append, List.filter_eq_self.2, List.filter_eq_self.2]
    · intro e he
      obtain ⟨e', he', rfl⟩ := List.mem_map.1 he
      simpa using hC e' he'
    · intro e he
      obtain ⟨e', he', rfl⟩ := List.mem_map.1 he
      simpa using hA e' he'
  rw [FMap.set, hd, absT, h2, List.map_append, List.map_append, List.map_cons]
  exact List.perm_middle.symm

theorem absT_remove {t t' : T K Ptr V} (hn : (absT t).keys.Nodup) {A C : List (K × Ptr × V)} {k : K} {p : Ptr} {v : V}
    (h1 : leaves t = A ++ (k, p, v) :: C) (h2 : leaves t' = A ++ C) :
    (absT t).del k = absT t' := by
  rw [absT_keys, h1] at hn
  simp only [List.map_append, List.map_cons] at hn
  rw [List.nodup_append] at hn
  have hA : ∀ e ∈ A, e.1 ≠ k := fun e he => hn.2.2 e.1 (List.mem_map_of_mem (f := fun e : K × Ptr × V => e.1) he) k (by simp)
  have hC : ∀ e ∈ C, e.1 ≠ k := by
    intro e he hk
    have := (List.nodup_cons.1 hn.2.1).1
    exact this (by rw [← hk]; exact List.mem_map_of_mem (f := fun e : K × Ptr × V => e.1) he)
  rw [absT, h1, FMap.del, List.map_append, List.map_cons, List.filter_append, List.filter_cons]
  simp only [ne_eq, not_true_eq_false, decide_false, Bool.false_eq_true, if_false]
  rw [absT, h2, List.map_append, List.filter_eq_self.2, List.filter_eq_self.2]
  · intro e he
    obtain ⟨e', he', rfl⟩ := List.mem_map.1 he
    simpa using hC e' he'
  · intro e he
    obtain ⟨e', he', rfl⟩ := List.mem_map.1 he
    simpa using hA e' he'

/-- Entries keep their cells, except those of the keys in `R`. -/
def Keep (t t' : T K Ptr V) (R : K → Prop) : Prop :=
  ∀ e ∈ leaves t, ¬ R e.1 → ∃ v, (e.1, e.2.1, v) ∈ leaves t'

theorem Keep.refl (t : T K Ptr V) (R : K → Prop) : Keep t t R := fun e he _ => ⟨e.2.2, he⟩

theorem Keep.trans {t t' t'' : T K Ptr V} {R : K → Prop} (h1 : Keep t t' R) (h2 : Keep t' t'' R) : Keep t t'' R := by
  intro e he hr
  obtain ⟨v, hv⟩ := h1 e he hr
  obtain ⟨w, hw⟩ := h2 _ hv hr
  exact ⟨w, hw⟩

theorem Keep.veq {t t' : T K Ptr V} (h : VEq t t') (R : K → Prop) : Keep t t' R := by
  intro e he _
  have : (e.1, e.2.1) ∈ (leaves t).map (fun e => (e.1, e.2.1)) := List.mem_map_of_mem he
  rw [← h.keys] at this
  obtain ⟨e', h1, h2⟩ := List.mem_map.1 this
  simp only [Prod.mk.injEq] at h2
  exact ⟨e'.2.2, by rw [← h2.1, ← h2.2]; exact h1⟩

/-- What an insertion does to the abstract map. -/
theorem Inv.ins_abs (hi : Inv c sd H cl s h t F) {key : K} (hs : SepK H key t) (p : Ptr) (vSlot vSplit : V) (f : V → V) :
    ((absT t).set key (match (absT t).get key with
      | some v => f v
      | none => if (slot (nbOf H) key t 0).isSome then vSplit else vSlot)).Perm
      (absT (T.ins (nbOf H) c.encT 256 key p vSlot vSplit f t 0)) ∧
    Keep t (T.ins (nbOf H) c.encT 256 key p vSlot vSplit f t 0) (fun _ => False) := by
  have hnb := nbOf_lt H
  have hpre : Pre (nbOf H) key t 0 := fun e he j hj => by omega
  have hg := find_absT (t := t) hi.wf key
  cases hf : find (nbOf H) key t 0 with
  | none =>
    have hp := leaves_ins_slot (sb := c.encT) (p := p) (v := vSlot) (vs := vSplit) (f := f) hnb (by omega : 255 < 256) hs hpre hi.wf hf
    rw [hf, Option.map_none] at hg
    rw [← hg]
    constructor
    · rw [FMap.set, FMap.del_absent (FMap.get_eq_none.1 hg.symm), absT]
      exact (hp.map (fun e => (e.1, e.2.2))).symm
    · intro e he _
      exact ⟨e.2.2, hp.mem_iff.2 (by simp [he])⟩
  | some e =>
    obtain ⟨p', v'⟩ := e
    obtain ⟨A, C, h1, h2⟩ := leaves_ins_old (sb := c.encT) (n := 256) (p := p) (v := vSlot) (vs := vSplit) (f := f) hnb hf
    rw [hf, Option.map_some] at hg
    rw [← hg]
    constructor
    · exact absT_update (nodup_absT hi.wf) h1 h2
    · intro e he _
      rw [h1] at he
      rw [h2]
      simp only [List.mem_append, List.mem_cons] at he ⊢
      rcases he with he | he | he
      · exact ⟨e.2.2, Or.inl he⟩
      · subst he; exact ⟨f v', Or.inr (Or.inl rfl)⟩
      · exact ⟨e.2.2, Or.inr (Or.inr he)⟩

/-- The cell of a present key. -/
theorem Rep.cell {m : Nat → Option (Obj K V)} {t : T K Ptr V} :
    ∀ {d : Nat} {lk : Link} {F : Nat → Prop}, Rep c m t d lk F → (c.store ≠ .bare → c.forget = false) → ∀ e ∈ leaves t, KvAt c m e.1 e.2.1 e.2.2 := by
  induction t with
  | empty => intro d lk F _ _ e he; simp [leaves] at he
  | leaf k p v =>
    intro d lk F hr hk e he
    simp only [leaves, List.mem_singleton] at he
    subst he
    by_cases hb : c.store = .bare
    · unfold KvAt; rw [hb]; trivial
    · exact (Rep.leaf_inv (hk hb) hr).2.1
  | node st ch ih =>
    intro d lk F hr hk e he
    obtain ⟨b, xs, G, ha, ho, hrep⟩ := hr
    obtain ⟨i, hi, he'⟩ := mem_leaves_node.1 he
    exact ih i (hrep i hi) hk e he'

theorem Inv.cell (hi : Inv c sd H cl s h t F) (L : Laws c sd H) {e : K × Ptr × V} (he : e ∈ leaves t) : KvAt c s.mem e.1 e.2.1 e.2.2 := by
  obtain ⟨lk, hl, hr⟩ := hi.rep
  exact hr.cell L.keep e he

end

/-! ### One call on a map -/

theorem scanL_visit (f : List (K × V) → K → V → V × Bool) (es : List (K × Ptr × V)) (log : List (K × V)) :
    (scanL (fun log k v => (log ++ [(k, v)], f log k v)) es log).1 = (visit f log (es.map (fun e => (e.1, e.2.2)))).1 ∧
    (scanL (fun log k v => (log ++ [(k, v)], f log k v)) es log).2.1.map (fun e => (e.1, e.2.2))
      = (visit f log (es.map (fun e => (e.1, e.2.2)))).2 := by
  induction es generalizing log with
  | nil => exact ⟨rfl, rfl⟩
  | cons e es ih =>
    obtain ⟨k, p, v⟩ := e
    simp only [scanL, List.map_cons, visit]
    split
    · exact ⟨(ih _).1, by rw [List.map_cons, (ih _).2]⟩
    · exact ⟨rfl, rfl⟩

section
variable [Inhabited V] {I : MapImpl K V} {sd : Seed} {H : K → Nat → BitVec 64} {P : Bool → List K → K → Prop} {cl : Prop} {lossy : V → V}
  {okS okM : K → K → Nat → Prop}
  {s : St K V} {h : Nat} {t : T K Ptr V} {F : Nat → Prop} {fuel : Nat}

theorem Ptr_run (ok : MapOk I sd H P cl lossy okS okM) (hi : Inv I.cfg sd H cl s h t F) (hf : 256 ≤ fuel) (key : K) :
    I.Ptr fuel (some h) key s = .ok ((find (nbOf H) key t 0).map (fun e => e.1), s) := hi.lookup ok.laws (ok.laws.keep ok.store) hf key

/-- The value found through the pointer of a present key. -/
theorem load_found (ok : MapOk I sd H P cl lossy okS okM) (hi : Inv I.cfg sd H cl s h t F) {key : K} {p : Ptr} {v : V}
    (hf : find (nbOf H) key t 0 = some (p, v)) : ∃ o, loadKv p s = .ok ((o, v), s) := by
  rw [find_eq_some (nbOf_lt H) hi.wf] at hf
  exact (hi.cell ok.laws hf).load ok.store

theorem Get_run (ok : MapOk I sd H P cl lossy okS okM) (hi : Inv I.cfg sd H cl s h t F) (hf : 256 ≤ fuel) (key : K) :
    I.Get fuel (some h) key s = .ok ((((absT t).get key).getD default, ((absT t).get key).isSome), s) := by
  rw [MapImpl.Get, bind_ok (Ptr_run ok hi hf key), ← find_absT hi.wf]
  cases hfd : find (nbOf H) key t 0 with
  | none => rfl
  | some e =>
    obtain ⟨o, e1⟩ := load_found ok hi hfd
    simp only [Option.map_some]
    rw [bind_ok e1]
    rfl

theorem Val_run (ok : MapOk I sd H P cl lossy okS okM) (hi : Inv I.cfg sd H cl s h t F) (hf : 256 ≤ fuel) (key : K) :
    I.Val fuel (some h) key s = .ok (((absT t).get key).getD default, s) := by
  simp only [MapImpl.Val]
  rw [bind_ok (Ptr_run ok hi hf key), ← find_absT hi.wf]
  cases hfd : find (nbOf H) key t 0 with
  | none => rfl
  | some e =>
    obtain ⟨o, e1⟩ := load_found ok hi hfd
    simp only [Option.map_some]
    rw [bind_ok e1]
    rfl

theorem Inv.length {c : Cfg K} (hi : Inv c sd H cl s h t F) : (s.roots h).len = BitVec.ofNat 64 (absT t).length := by
  rw [hi.len, size_eq_length, absT, List.length_map]

theorem Inv.meanDepth {c : Cfg K} (hi : Inv c sd H cl s h t F) (hcl : cl) :
    MapImpl.Dep (some h) s = .ok (meanDepth64 H (absT t).keys, s) := by
  have hl : (s.roots h).len.toNat = (absT t).keys.length % 2 ^ 64 := by
    rw [hi.length, FMap.keys, List.length_map, BitVec.toNat_ofNat]
  have hd : (s.roots h).dep.toNat = depthSum H (absT t).keys % 2 ^ 64 := by
    rw [hi.dep, BitVec.toNat_ofNat, dsum_eq hi.node hi.wf hi.ht (hi.canon hcl), absT_keys]
  rw [MapImpl.Dep, bind_ok (getRoot_run h s), meanDepth64, ← hl, ← hd]
  by_cases h0 : (s.roots h).len = 0#64
  · rw [if_pos h0, if_pos (by rw [h0]; rfl)]; rfl
  · rw [if_neg h0, if_neg (fun h' => h0 (BitVec.eq_of_toNat_eq (by rw [h']; rfl)))]; rfl

theorem Dep_run (s : St K V) (h : Nat) : ∃ q, MapImpl.Dep (some h) s = .ok (q, s) := by
  rw [MapImpl.Dep, bind_ok (getRoot_run h s)]
  split
  · exact ⟨_, rfl⟩
  · exact ⟨_, rfl⟩

/-- The rehash of a conflicting key only has to be right where it happens. -/
theorem Inv.upsert_ideal {R : Type} {ins : Ins K V R} {key : K} {c : Cfg K} (L : Laws c sd H) (hi : Inv c sd H cl s h t F)
    (hf : 256 ≤ fuel) (ok : K → Nat → Prop)
    (hC : ∀ ckey d fuel, 17 ≤ fuel → ok ckey d →
      ins.chash sd key ckey d fuel = idealChash H sd key ckey d fuel)
    (hg : ∀ e, slot (nbOf H) key t 0 = some e → e.1 ≠ key → ok e.1 (lev (nbOf H) key t 0 - 1)) :
    Amt.upsert c h fuel key ins s = Amt.upsert c h fuel key { ins with chash := idealChash H } s := by
  exact hi.upsert_chash L hf (idealChash H) (fun e he hne => hC _ _ _ (by omega) (hg e he hne))

/-- What is required of a call on a map with the stored keys `ks`. -/
def NewOk (P : Bool → List K → K → Prop) (ks : List K) (op : MOp K V) : Prop :=
  ∀ k ∈ op.stores, k ∉ ks → P op.isMod ks k

theorem find_none_iff (hi : Inv c sd H cl s h t F) (k : K) : find (nbOf H) k t 0 = none ↔ k ∉ (absT t).keys := by
  rw [← FMap.get_eq_none, ← find_absT hi.wf, Option.map_eq_none_iff]

theorem leaf_keys {e : K × Ptr × V} (he : e ∈ leaves t) : e.1 ∈ (absT t).keys := mem_absT_keys.2 ⟨e, he, rfl⟩

theorem MapOk.sepK (ok : MapOk I sd H P cl lossy okS okM) (hi : Inv I.cfg sd H cl s h t F) {m : Bool} {k : K}
    (hp : k ∉ (absT t).keys → P m (absT t).keys k) : SepK H k t :=
  hi.sepK fun hn => Apart.sepK fun e he => ok.apart m _ _ (hp ((find_none_iff hi k).1 hn)) e.1 (leaf_keys he)

theorem MapOk.safeFor (ok : MapOk I sd H P cl lossy okS okM) (hi : Inv I.cfg sd H cl s h t F) {m : Bool} {k : K}
    (hp : k ∉ (absT t).keys → P m (absT t).keys k) (hn : find (nbOf H) k t 0 = none) :
    SafeFor (nbOf H) I.cfg.encT k t :=
  SafePair.safeFor fun e he => ok.safe m _ _ (hp ((find_none_iff hi k).1 hn))
    (fun hcl k' hk' => by obtain ⟨e', h1, rfl⟩ := mem_absT_keys.1 hk'; exact hi.clean hcl e' h1) e.1 (leaf_keys he)

/-- Writing through the pointer of a present key. -/
theorem write_run (ok : MapOk I sd H P cl lossy okS okM)
    (hi : Inv I.cfg sd H cl s h t F) (hf : 256 ≤ fuel) {key : K}
    {p : Ptr} {v0 : V} (hfd : find (nbOf H) key t 0 = some (p, v0)) (v : V) :
    ∃ s' t' F', storeVal p v s = .ok ((), s') ∧ Inv I.cfg sd H cl s' h t' F' ∧ Chg s s' h F F' ∧
      ((absT t).set key v).Perm (absT t') ∧ Keep t t' (fun _ => False) := by
  have hins := setIns_ok (V := V) (key := key) ok.store (idealChash_ok sd H) false v
  have hne : find (nbOf H) key t 0 = none → False := fun hn => by rw [hfd] at hn; cases hn
  have hs : SepK H key t := hi.sepK fun hn => (hne hn).elim
  obtain ⟨p', s', F', e1, e2, e3⟩ := hi.upsert (fuel := fuel) ok.laws hins hs (fun hn => (hne hn).elim)
    (fun hn => (hne hn).elim) hf
  rw [hi.upsert_hit ok.laws (ok.laws.keep ok.store) hf hfd, hfd] at e1
  have ha := hi.ins_abs hs p' v v (fun _ => v)
  refine ⟨s', _, F', e1, e2, e3, ?_, ha.2⟩
  have hg := find_absT (t := t) hi.wf key
  rw [hfd, Option.map_some] at hg
  have := ha.1
  rw [← hg] at this
  exact this

theorem map_step (ok : MapOk I sd H P cl lossy okS okM)
    (hi : Inv I.cfg sd H cl s h t F) (hf : 256 ≤ fuel) (op : MOp K V) (hop : NewOk P (absT t).keys op) :
    ∃ o s' t' F', I.exec fuel (some h) op s = .ok (o, s') ∧ Inv I.cfg sd H cl s' h t' F' ∧ Chg s s' h F F' ∧
      (∃ m', MStepX H cl lossy (absT t) op o m' ∧ m'.Perm (absT t')) ∧
      Keep t t' (fun k => ∃ k', op = .del k' ∧ k = k') := by
  have hfresh : ∀ {k : K} {e : K × Ptr × V}, slot (nbOf H) k t 0 = some e → e.1 ≠ k → k ∉ (absT t).keys := by
    intro k e he hne hm
    have hfs := find_slot (nb := nbOf H) k t 0
    rw [he, Option.bind_some, if_neg (Ne.symm hne)] at hfs
    have hg := find_absT (t := t) hi.wf k
    rw [hfs, Option.map_none] at hg
    exact FMap.get_eq_none.1 hg.symm hm
  have hat : cl → ∀ {k : K} {e : K × Ptr × V}, slot (nbOf H) k t 0 = some e →
      CollidesAt H (absT t).keys k e.1 (lev (nbOf H) k t 0 - 1) := by
    intro hcl k e he
    rw [absT_keys]; exact slot_collidesAt hi.node hi.wf (hi.canon hcl) he
  cases op with
  | get k =>
    refine ⟨_, s, t, F, ?_, hi, Chg.refl _ _ _, ⟨_, ⟨rfl, rfl⟩, List.Perm.refl _⟩, Keep.refl _ _⟩
    rw [MapImpl.exec, bind_ok (Get_run ok hi hf k)]; rfl
  | val k =>
    refine ⟨_, s, t, F, ?_, hi, Chg.refl _ _ _, ⟨_, ⟨rfl, rfl⟩, List.Perm.refl _⟩, Keep.refl _ _⟩
    rw [MapImpl.exec, bind_ok (Val_run ok hi hf k)]; rfl
  | ptr k =>
    refine ⟨_, s, t, F, ?_, hi, Chg.refl _ _ _, ⟨_, ⟨rfl, rfl⟩, List.Perm.refl _⟩, Keep.refl _ _⟩
    rw [MapImpl.exec, bind_ok (Ptr_run ok hi hf k), ← find_absT hi.wf]
    cases hfd : find (nbOf H) k t 0 with
    | none => rfl
    | some e =>
      obtain ⟨o, e1⟩ := load_found ok hi hfd
      simp only [Option.map_some]
      rw [bind_ok e1]
      rfl
  | len =>
    refine ⟨_, s, t, F, ?_, hi, Chg.refl _ _ _, ⟨_, ⟨rfl, rfl⟩, List.Perm.refl _⟩, Keep.refl _ _⟩
    rw [← hi.length]; rfl
  | dep =>
    obtain ⟨q, hq⟩ := Dep_run s h
    refine ⟨.rat q, s, t, F, ?_, hi, Chg.refl _ _ _, ⟨_, ⟨⟨q, rfl, fun hcl => ?_⟩, rfl⟩, List.Perm.refl _⟩, Keep.refl _ _⟩
    · rw [MapImpl.exec, bind_ok hq]; rfl
    · rw [hi.meanDepth hcl] at hq; cases hq; rfl
  | set k v =>
    have hk : k ∉ (absT t).keys → P false (absT t).keys k := hop k (by simp [MOp.stores])
    have hSk := ok.sepK hi hk
    obtain ⟨p, s', F', e1, e2, e3⟩ := hi.upsert (fuel := fuel) ok.laws (ok.set k v) hSk (ok.safeFor hi hk)
      (fun hn h => ok.clean h _ _ k (hk ((find_none_iff hi k).1 hn))) hf
    rw [← hi.upsert_ideal ok.laws hf (okS k) (ok.setC k v) (fun e he hne => by
      rcases ok.exact with hcl | ⟨_, h2, _⟩
      · exact ok.coll _ _ (hk (hfresh he hne)) _ _ (hat hcl he)
      · exact h2 _ _ (hk (hfresh he hne)) _ (leaf_keys (slot_mem (nbOf_lt H) he)) _ (slot_agree hi.node hi.wf he))] at e1
    have ha := hi.ins_abs hSk p v (lossy v) (fun _ => v)
    have e1' : I.Set fuel (some h) k v s = .ok ((), s') := by
      rw [MapImpl.Set, deref, pure_bind_M, e1]
    refine ⟨.unit, s', _, F', ?_, e2, e3, ⟨_, ?_, ha.1⟩, fun e he _ => ha.2 e he (fun h => h)⟩
    · rw [MapImpl.exec, bind_ok e1']; rfl
    · refine ⟨rfl, ?_⟩
      cases hg : (absT t).get k with
      | some w => right; exact ⟨(fun h => nomatch h.1), rfl⟩
      | none =>
        rcases ok.exact with hcl | ⟨h1, _, _⟩
        · have hsl := hi.slot_iff hcl k
          by_cases hc : Collides H (absT t).keys k
          · left; exact ⟨rfl, hc, by simp only [if_pos (hsl.2 hc)]⟩
          · right; exact ⟨fun h => hc h.2, by simp only [if_neg (fun h => hc (hsl.1 h))]⟩
        · by_cases hc : Collides H (absT t).keys k
          · left; exact ⟨rfl, hc, by simp only [h1, ite_self]⟩
          · right; exact ⟨fun h => hc h.2, by simp only [h1, ite_self]⟩
  | mod k f =>
    have hk : k ∉ (absT t).keys → P true (absT t).keys k := hop k (by simp [MOp.stores])
    have hSk := ok.sepK hi hk
    obtain ⟨p, s', F', e1, e2, e3⟩ := hi.upsert (fuel := fuel) ok.laws (ok.mod k f) hSk (ok.safeFor hi hk)
      (fun hn h => ok.clean h _ _ k (hk ((find_none_iff hi k).1 hn))) hf
    rw [← hi.upsert_ideal ok.laws hf (okM k) (ok.modC k f) (fun e he hne => by
      rcases ok.exact with hcl | ⟨_, _, h2⟩
      · exact ok.collM _ _ (hk (hfresh he hne)) _ _ (hat hcl he)
      · exact h2 _ _ (hk (hfresh he hne)) _ (leaf_keys (slot_mem (nbOf_lt H) he)) _ (slot_agree hi.node hi.wf he))] at e1
    have ha := hi.ins_abs hSk p (f default false) (f default false) (fun v => f v true)
    have e1' := (show I.Mod fuel (some h) k f s = upsert I.cfg h fuel k (I.modI k f) s from rfl).trans e1
    refine ⟨.calls (match find (nbOf H) k t 0 with | some e => [(e.2, true)] | none => [(default, false)]), s', _, F', ?_, e2, e3, ⟨_, ?_, ha.1⟩, fun e he _ => ha.2 e he (fun h => h)⟩
    · rw [MapImpl.exec, bind_ok e1']
      cases find (nbOf H) k t 0 <;> rfl
    · have hg := find_absT (t := t) hi.wf k
      simp only [MStepX, MStep, ← hg]
      cases hfd : find (nbOf H) k t 0 with
      | some e => exact ⟨rfl, rfl⟩
      | none =>
        simp only [Option.map_none, ite_self, and_self]
  | del k =>
    have hsim := hi.delete (fuel := fuel) ok.laws I.delSkip k hf
    have hg := find_absT (t := t) hi.wf k
    have hfs := find_slot (nb := nbOf H) k t 0
    have hex : ∀ s', delete I.cfg h fuel I.delSkip k s = .ok ((), s') →
        I.exec fuel (some h) (.del k) s = .ok (.unit, s') := by
      intro s' e
      have : I.Del fuel (some h) k s = .ok ((), s') := by rw [MapImpl.Del, deref, pure_bind_M, e]
      rw [MapImpl.exec, bind_ok this]; rfl
    have habs : find (nbOf H) k t 0 = none → (absT t).del k = absT t := by
      intro hn
      rw [hn, Option.map_none] at hg
      exact FMap.del_absent (FMap.get_eq_none.1 hg.symm)
    cases hsl : slot (nbOf H) k t 0 with
    | none =>
      rw [hsl] at hsim hfs
      exact ⟨_, s, t, F, hex s hsim, hi, Chg.refl _ _ _, ⟨_, ⟨rfl, rfl⟩, by rw [habs hfs]⟩, Keep.refl _ _⟩
    | some e =>
      rw [hsl] at hsim hfs
      simp only [Option.bind_some] at hfs
      simp only [ok.skip] at hsim
      by_cases hk : k = e.1
      · rw [if_pos hk] at hfs
        simp only [hk, decide_true, Bool.not_true, Bool.false_eq_true, if_false] at hsim
        obtain ⟨s', F', e1, e2, e3⟩ := hsim
        rw [← hk] at e1 e2
        obtain ⟨A, C, g1, g2⟩ := leaves_delRoot (nbOf_lt H) hi.node hfs
        refine ⟨_, s', _, F', hex s' e1, e2, e3, ⟨_, ⟨rfl, rfl⟩, by rw [absT_remove (nodup_absT hi.wf) g1 g2]⟩, ?_⟩
        intro e' he' hr
        refine ⟨e'.2.2, ?_⟩
        rw [g1] at he'
        rw [g2]
        simp only [List.mem_append, List.mem_cons] at he' ⊢
        rcases he' with he' | he' | he'
        · exact Or.inl he'
        · exact absurd ⟨k, rfl, by rw [he']⟩ hr
        · exact Or.inr he'
      · rw [if_neg hk] at hfs
        simp only [hk, decide_false, Bool.not_false, if_true] at hsim
        exact ⟨_, s, t, F, hex s hsim, hi, Chg.refl _ _ _, ⟨_, ⟨rfl, rfl⟩, by rw [habs hfs]⟩, Keep.refl _ _⟩
  | write k v =>
    have hg := find_absT (t := t) hi.wf k
    cases hfd : find (nbOf H) k t 0 with
    | none =>
      rw [hfd, Option.map_none] at hg
      refine ⟨_, s, t, F, ?_, hi, Chg.refl _ _ _, ⟨_, ⟨rfl, rfl⟩, ?_⟩, Keep.refl _ _⟩
      · rw [MapImpl.exec, bind_ok (Ptr_run ok hi hf k), hfd]; rfl
      · rw [← hg]; simp
    | some e =>
      obtain ⟨p, v0⟩ := e
      rw [hfd, Option.map_some] at hg
      have hkk : k ∈ (absT t).keys := Classical.byContradiction fun hn => by
        rw [FMap.get_eq_none.2 hn] at hg; cases hg
      obtain ⟨s', t', F', e1, e2, e3, e4, e5⟩ := write_run ok hi hf hfd v
      refine ⟨_, s', t', F', ?_, e2, e3, ⟨_, ⟨rfl, rfl⟩, ?_⟩, fun e he _ => e5 e he (fun h => h)⟩
      · rw [MapImpl.exec, bind_ok (Ptr_run ok hi hf k), hfd]
        simp only [Option.map_some]
        rw [bind_ok e1]; rfl
      · rw [← hg]; simpa using e4
  | all f =>
    obtain ⟨s', F', e1, e2, e3⟩ := hi.scan (fuel := fuel)
      (visitMap_ok ok.laws ok.store (fun log k v => (log ++ [(k, v)], f log k v))) hf []
    have hl := scanT_leaves (fun (log : List (K × V)) k v => (log ++ [(k, v)], f log k v)) t []
    have hv := scanL_visit f (leaves t) []
    have h1 := congrArg (fun x => x.1) hl
    have h2 := congrArg (fun x => x.2.1) hl
    simp only at h1 h2
    have e1' : I.All fuel (some h) (fun log k v => (log ++ [(k, v)], f log k v)) [] s
        = .ok ((scanT (fun (log : List (K × V)) k v => (log ++ [(k, v)], f log k v)) t []).1, s') := by
      rw [MapImpl.All, deref, pure_bind_M, bind_ok e1]; rfl
    refine ⟨_, s', _, F', ?_, e2, e3, ⟨_, ⟨absT t, ⟨List.Perm.refl _, ?_⟩, rfl, rfl⟩, ?_⟩, Keep.veq (scanT_veq _ _ _) _⟩
    · rw [MapImpl.exec, bind_ok e1', h1, hv.1]; rfl
    · exact List.pairwise_map.2 (leaves_before hi.wf)
    · rw [absT, absT, ← hv.2, ← h2]

/-! ### Histories of a map -/

theorem map_run (ok : MapOk I sd H P cl lossy okS okM) (hf : 256 ≤ fuel) (ops : List (MOp K V)) :
    ∀ {s : St K V} {t : T K Ptr V} {F : Nat → Prop} {ks : List K}, Inv I.cfg sd H cl s h t F →
    (∀ x, x ∈ ks ↔ x ∈ (absT t).keys) → EachNew P ks ops →
    ∃ os s' t' F', I.run fuel (some h) ops s = .ok (os, s') ∧ Inv I.cfg sd H cl s' h t' F' ∧ Chg s s' h F F' ∧
      (∃ m', RunBy (MStepX H cl lossy) (absT t) ops os m' ∧ m'.Perm (absT t')) ∧
      Keep t t' (fun k => .del k ∈ ops) := by
  induction ops with
  | nil =>
    intro s t F ks hi _ _
    exact ⟨[], s, t, F, rfl, hi, Chg.refl _ _ _, ⟨_, ⟨rfl, rfl⟩, List.Perm.refl _⟩, Keep.refl _ _⟩
  | cons op ops ih =>
    intro s t F ks hi hks hm
    have hop : NewOk P (absT t).keys op := fun k hk hk' =>
      ok.congr _ _ _ _ hks (hm.1 k hk (fun h => hk' ((hks k).1 h)))
    obtain ⟨o, s1, t1, F1, e1, i1, c1, ⟨m1, st1, p1⟩, k1⟩ := map_step ok hi hf op hop
    have hks1 : ∀ x, x ∈ op.after ks ↔ x ∈ (absT t1).keys := by
      intro x
      rw [← (FMap.keys_perm p1).mem_iff, st1.after_keys, mem_after hks]
    obtain ⟨os, s2, t2, F2, e2, i2, c2, ⟨m2, st2, p2⟩, k2⟩ := ih i1 hks1 hm.2
    obtain ⟨m2', st2', p2'⟩ := st2.perm p1.symm (nodup_absT i1.wf)
    refine ⟨o :: os, s2, t2, F2, ?_, i2, c1.trans c2, ⟨m2', ⟨o, os, m1, rfl, st1, st2'⟩, p2'.symm.trans p2⟩, ?_⟩
    · rw [MapImpl.run, bind_ok e1, bind_ok e2]; rfl
    · intro e he hr
      obtain ⟨v1, g1⟩ := k1 e he (by rintro ⟨k', rfl, hk'⟩; exact hr (by simp [hk']))
      obtain ⟨v2, g2⟩ := k2 _ g1 (fun h => hr (by simp [h]))
      exact ⟨v2, g2⟩

theorem absT_new : absT (.node 0#32 fun _ => (.empty : T K Ptr V)) = [] := by
  rw [absT, leaves_node]; simp [leaves]

/-- A session on a new map: it runs to completion and answers as the abstract map does. -/
theorem map_session (ok : MapOk I sd H P cl lossy okS okM) (hf : 256 ≤ fuel) (ops : List (MOp K V)) (s : St K V)
    (hm : EachNew P [] ops) :
    ∃ os s' t F, I.session fuel sd ops s = .ok ((some s.next, os), s') ∧ Inv I.cfg sd H cl s' s.next t F ∧
      (∃ m', RunBy (MStepX H cl lossy) [] ops os m' ∧ m'.Perm (absT t)) := by
  obtain ⟨s1, e1, i1, _⟩ := Inv.new I.cfg sd H cl s
  obtain ⟨os, s2, t2, F2, e2, i2, _, st, _⟩ := map_run ok hf ops (ks := []) i1
    (by rw [absT_new]; simp [FMap.keys]) hm
  rw [absT_new] at st
  refine ⟨os, s2, t2, F2, ?_, i2, st⟩
  rw [MapImpl.session, MapImpl.New, bind_ok e1, bind_ok e2]
  rfl

end

/-! ### Sets -/

/-- The elements of a trie. -/
def absS (t : T K Ptr Unit) : List K := (leaves t).map (fun e => e.1)

theorem absS_eq (t : T K Ptr Unit) : absS t = (absT t).keys := (absT_keys t).symm

theorem scanL_visitS (f : List K → K → Bool) (es : List (K × Ptr × Unit)) (log : List K) :
    (scanL (fun log k v => (log ++ [k], v, f log k)) es log).1 = visitS f log (es.map (fun e => e.1)) := by
  induction es generalizing log with
  | nil => rfl
  | cons e es ih =>
    obtain ⟨k, p, v⟩ := e
    simp only [scanL, List.map_cons, visitS]
    split
    · exact ih _
    · rfl

section
variable {I : SetImpl K} {sd : Seed} {H : K → Nat → BitVec 64} {P : List K → K → Prop} {cl : Prop} {inv : Bool}
  {okA : K → K → Nat → Prop}
  {s : St K Unit} {h : Nat} {t : T K Ptr Unit} {F : Nat → Prop} {fuel : Nat}

theorem absS_remove {t t' : T K Ptr Unit} (hn : (absS t).Nodup) {A C : List (K × Ptr × Unit)} {k : K} {p : Ptr} {v : Unit}
    (h1 : leaves t = A ++ (k, p, v) :: C) (h2 : leaves t' = A ++ C) :
    (absS t).filter (fun x => decide (x ≠ k)) = absS t' := by
  rw [absS, h1, List.map_append, List.map_cons] at hn
  rw [List.nodup_append] at hn
  have hA : ∀ x ∈ A.map (fun e => e.1), x ≠ k := fun x hx => hn.2.2 x hx k (by simp)
  have hC : ∀ x ∈ C.map (fun e => e.1), x ≠ k := fun x hx hk => (List.nodup_cons.1 hn.2.1).1 (by rw [← hk]; exact hx)
  rw [absS, h1, List.map_append, List.map_cons, List.filter_append, List.filter_cons]
  simp only [ne_eq, not_true_eq_false, decide_false, Bool.false_eq_true, if_false]
  rw [absS, h2, List.map_append, List.filter_eq_self.2, List.filter_eq_self.2]
  · intro x hx; simpa using hC x hx
  · intro x hx; simpa using hA x hx

theorem Has_run (ok : SetOk I sd H P cl inv okA) (hi : Inv I.cfg sd H cl s h t F) (hf : 256 ≤ fuel) (key : K) :
    I.Has fuel (some h) key s = .ok (decide (key ∈ absS t), s) := by
  obtain ⟨o, e1, e2⟩ := hi.lookup_has ok.laws hf key
  rw [SetImpl.Has, deref, pure_bind_M, bind_ok e1, e2]
  have hg := find_absT (t := t) hi.wf key
  rw [absS_eq]
  cases hfd : find (nbOf H) key t 0 with
  | none =>
    rw [hfd, Option.map_none] at hg
    rw [decide_eq_false (FMap.get_eq_none.1 hg.symm)]; rfl
  | some e =>
    rw [hfd, Option.map_some] at hg
    have : key ∈ (absT t).keys := Classical.byContradiction fun hn => by
      rw [FMap.get_eq_none.2 hn] at hg; cases hg
    rw [decide_eq_true this]; rfl

theorem absS_find_none (hi : Inv c sd H cl s h t F) (k : K) : find (nbOf H) k t 0 = none ↔ k ∉ absS t := by
  rw [absS_eq]; exact find_none_iff hi k

theorem SetOk.sepK (ok : SetOk I sd H P cl inv okA) (hi : Inv I.cfg sd H cl s h t F) {k : K}
    (hp : k ∉ absS t → P (absS t) k) : SepK H k t :=
  hi.sepK fun hn => Apart.sepK fun e he => ok.apart _ _ (hp ((absS_find_none hi k).1 hn)) e.1
    (List.mem_map_of_mem (f := fun e : K × Ptr × Unit => e.1) he)

theorem SetOk.safeFor (ok : SetOk I sd H P cl inv okA) (hi : Inv I.cfg sd H cl s h t F) {k : K}
    (hp : k ∉ absS t → P (absS t) k) (hn : find (nbOf H) k t 0 = none) : SafeFor (nbOf H) I.cfg.encT k t :=
  SafePair.safeFor fun e he => ok.safe _ _ (hp ((absS_find_none hi k).1 hn))
    (fun hcl k' hk' => by obtain ⟨e', h1, rfl⟩ := List.mem_map.1 hk'; exact hi.clean hcl e' h1) e.1
    (List.mem_map_of_mem (f := fun e : K × Ptr × Unit => e.1) he)

theorem set_step (ok : SetOk I sd H P cl inv okA)
    (hi : Inv I.cfg sd H cl s h t F) (hf : 256 ≤ fuel) (op : SOp K) (hop : ∀ k ∈ op.stores, k ∉ absS t → P (absS t) k) :
    ∃ o s' t' F', I.exec fuel (some h) op s = .ok (o, s') ∧ Inv I.cfg sd H cl s' h t' F' ∧ Chg s s' h F F' ∧
      (∃ m', SStepX H cl inv (absS t) op o m' ∧ m'.Perm (absS t')) := by
  cases op with
  | has k =>
    refine ⟨_, s, t, F, ?_, hi, Chg.refl _ _ _,
      ⟨_, ⟨rfl, rfl⟩, List.Perm.refl _⟩⟩
    rw [SetImpl.exec, bind_ok (Has_run ok hi hf k)]; rfl
  | len =>
    refine ⟨_, s, t, F, ?_, hi, Chg.refl _ _ _,
      ⟨_, ⟨rfl, rfl⟩, List.Perm.refl _⟩⟩
    have : (s.roots h).len = BitVec.ofNat 64 (absS t).length := by
      rw [hi.len, size_eq_length, absS, List.length_map]
    rw [← this]; rfl
  | dep =>
    obtain ⟨q, hq⟩ := Dep_run s h
    refine ⟨.rat q, s, t, F, ?_, hi, Chg.refl _ _ _, ⟨_, ⟨⟨q, rfl, fun hcl => ?_⟩, rfl⟩, List.Perm.refl _⟩⟩
    · rw [SetImpl.exec, SetImpl.Dep, bind_ok hq]; rfl
    · have := hi.meanDepth hcl
      rw [this] at hq; cases hq; rw [absS_eq]
  | add k =>
    have hk : k ∉ absS t → P (absS t) k := hop k (by simp [SOp.stores])
    have hSk := ok.sepK hi hk
    obtain ⟨p, s', F', e1, e2, e3⟩ := hi.upsert (fuel := fuel) ok.laws (ok.add k) hSk
      (ok.safeFor hi hk) (fun hn h => ok.clean h _ k (hk ((absS_find_none hi k).1 hn))) hf
    rw [← hi.upsert_ideal ok.laws hf (okA k) (ok.addC k) (fun e he hne => by
      have hkn : k ∉ absS t := by
        intro hm
        have hfs := find_slot (nb := nbOf H) k t 0
        rw [he, Option.bind_some, if_neg (Ne.symm hne)] at hfs
        have hg := find_absT (t := t) hi.wf k
        rw [hfs, Option.map_none] at hg
        exact FMap.get_eq_none.1 hg.symm (by rw [← absS_eq]; exact hm)
      rcases ok.exact with hcl | ⟨_, h2⟩
      · exact ok.coll _ _ (hk hkn) _ _ (slot_collidesAt hi.node hi.wf (hi.canon hcl) he)
      · exact h2 _ _ (hk hkn) _ (List.mem_map_of_mem (f := fun e : K × Ptr × Unit => e.1) (slot_mem (nbOf_lt H) he)) _
          (slot_agree hi.node hi.wf he))] at e1
    have e1' : I.Add fuel (some h) k s = .ok ((), s') := by
      rw [SetImpl.Add, deref, pure_bind_M, e1]
    refine ⟨.unit, s', _, F', ?_, e2, e3, ⟨_, ⟨rfl, rfl⟩, ?_⟩⟩
    · rw [SetImpl.exec, bind_ok e1']; rfl
    · have hpre : Pre (nbOf H) k t 0 := fun e he j hj => by omega
      cases hfd : find (nbOf H) k t 0 with
      | none =>
        have hp := leaves_ins_slot (sb := I.cfg.encT) (p := p) (v := ()) (vs := ()) (f := fun _ => ()) (nbOf_lt H) (by omega : 255 < 256) hSk hpre hi.wf hfd
        have hk : k ∉ absS t := by
          intro hm
          obtain ⟨e, he, h2⟩ := List.mem_map.1 hm
          exact (find_eq_none (nbOf_lt H) hi.wf).1 hfd e he h2
        rw [if_neg hk]
        exact (hp.map (fun e => e.1)).symm
      | some e =>
        obtain ⟨p', v'⟩ := e
        obtain ⟨A, C, h1, h2⟩ := leaves_ins_old (sb := I.cfg.encT) (n := 256) (p := p) (v := ()) (vs := ()) (f := fun _ => ()) (nbOf_lt H) hfd
        have hk : k ∈ absS t := by
          rw [absS, h1]; simp
        rw [if_pos hk, absS, absS, h1, h2]
  | del k =>
    have hsim := hi.delete (fuel := fuel) ok.laws I.delSkip k hf
    have hfs := find_slot (nb := nbOf H) k t 0
    have hex : ∀ s', delete I.cfg h fuel I.delSkip k s = .ok ((), s') →
        I.exec fuel (some h) (.del k) s = .ok (.unit, s') := by
      intro s' e
      have : I.Del fuel (some h) k s = .ok ((), s') := by rw [SetImpl.Del, deref, pure_bind_M, e]
      rw [SetImpl.exec, bind_ok this]; rfl
    have hmem : find (nbOf H) k t 0 = none ↔ k ∉ absS t := by
      rw [find_eq_none (nbOf_lt H) hi.wf]
      constructor
      · intro hn hm
        obtain ⟨e, he, h2⟩ := List.mem_map.1 hm
        exact hn e he h2
      · intro hm e he hk
        exact hm (hk ▸ List.mem_map_of_mem (f := fun e : K × Ptr × Unit => e.1) he)
    have hnd : (absS t).Nodup := by rw [absS_eq]; exact nodup_absT hi.wf
    have hfil : ∀ x, x ∉ absS t → (absS t).filter (fun y => decide (y ≠ x)) = absS t := by
      intro x hx
      rw [List.filter_eq_self]
      intro y hy
      simp only [decide_eq_true_eq]
      rintro rfl
      exact hx hy
    have hrem : ∀ e, slot (nbOf H) k t 0 = some e → ∃ A C, leaves t = A ++ e :: C ∧ leaves (delRoot (nbOf H) e.1 t) = A ++ C := by
      intro e he
      have hme := slot_mem (nbOf_lt H) he
      have := (find_eq_some (nbOf_lt H) hi.wf (key := e.1) (p := e.2.1) (v := e.2.2)).2 hme
      exact leaves_delRoot (nbOf_lt H) hi.node this
    have hskip := ok.skip
    have hexact := ok.exact
    cases hsl : slot (nbOf H) k t 0 with
    | none =>
      rw [hsl] at hsim hfs
      have hk : k ∉ absS t := hmem.1 hfs
      refine ⟨_, s, t, F, hex s hsim, hi, Chg.refl _ _ _, ?_⟩
      cases inv with
      | false => exact ⟨_, ⟨rfl, rfl⟩, by rw [hfil k hk]⟩
      | true =>
        refine ⟨_, ⟨rfl, Or.inl ⟨rfl, Or.inr ?_⟩⟩, List.Perm.refl _⟩
        rcases hexact with hcl | ⟨h, _⟩
        · rw [absS_eq, ← hi.slot_iff hcl, hsl]
          simp
        · cases h
    | some e =>
      obtain ⟨A, C, g1, g2⟩ := hrem e hsl
      have hrm := absS_remove hnd g1 g2
      rw [hsl] at hsim hfs
      simp only [Option.bind_some] at hfs
      cases inv with
      | false =>
        have hsk : ∀ b, I.delSkip b = !b := hskip
        simp only [hsk] at hsim
        by_cases hk : k = e.1
        · simp only [hk, decide_true, Bool.not_true, Bool.false_eq_true, if_false] at hsim
          obtain ⟨s', F', e1, e2, e3⟩ := hsim
          rw [← hk] at e1
          exact ⟨_, s', _, F', hex s' e1, e2, e3, ⟨_, ⟨rfl, rfl⟩, by rw [← hrm, ← hk]⟩⟩
        · simp only [hk, decide_false, Bool.not_false, if_true] at hsim
          rw [if_neg hk] at hfs
          exact ⟨_, s, t, F, hex s hsim, hi, Chg.refl _ _ _, ⟨_, ⟨rfl, rfl⟩, by rw [hfil k (hmem.1 hfs)]⟩⟩
      | true =>
        have hsk : ∀ b, I.delSkip b = b := hskip
        simp only [hsk] at hsim
        by_cases hk : k = e.1
        · simp only [decide_eq_true hk, if_true] at hsim
          rw [if_pos hk] at hfs
          have : k ∈ absS t := Classical.byContradiction fun hn => by rw [hmem.2 hn] at hfs; cases hfs
          exact ⟨_, s, t, F, hex s hsim, hi, Chg.refl _ _ _, ⟨_, ⟨rfl, Or.inl ⟨rfl, Or.inl this⟩⟩, List.Perm.refl _⟩⟩
        · simp only [hk, decide_false, Bool.false_eq_true, if_false] at hsim
          rw [if_neg hk] at hfs
          obtain ⟨s', F', e1, e2, e3⟩ := hsim
          refine ⟨_, s', _, F', hex s' e1, e2, e3, ⟨_, ⟨rfl, Or.inr ⟨hmem.1 hfs, e.1, ?_, rfl⟩⟩, by rw [hrm]⟩⟩
          rw [absS_eq]; exact hi.slot_with hsl
  | all f =>
    obtain ⟨s', F', e1, e2, e3⟩ := hi.scan (fuel := fuel)
      (visitSet_ok (V := Unit) ok.laws (fun log k => (log ++ [k], f log k))) hf []
    have hl := scanT_leaves (fun (log : List K) k (v : Unit) => (log ++ [k], v, f log k)) t []
    have hv := scanL_visitS f (leaves t) []
    have h1 := congrArg (fun x => x.1) hl
    simp only at h1
    have e1' : I.All fuel (some h) (fun log k => (log ++ [k], f log k)) [] s
        = .ok ((scanT (fun (log : List K) k (v : Unit) => (log ++ [k], v, f log k)) t []).1, s') := by
      rw [SetImpl.All, deref, pure_bind_M, bind_ok e1]; rfl
    refine ⟨_, s', _, F', ?_, e2, e3, ⟨_, ⟨rfl, absS t, ⟨List.Perm.refl _, ?_⟩, rfl⟩, ?_⟩⟩
    · rw [SetImpl.exec, bind_ok e1', h1, hv]; rfl
    · exact List.pairwise_map.2 (leaves_before hi.wf)
    · have hk := (scanT_veq (fun (log : List K) k (v : Unit) => (log ++ [k], v, f log k)) t []).keys
      have := congrArg (List.map (fun e => e.1)) hk
      rw [List.map_map, List.map_map] at this
      have h3 : absS t = absS (scanT (fun (log : List K) k (v : Unit) => (log ++ [k], v, f log k)) t []).2.1 := this.symm
      rw [← h3]

/-! ### Histories of a set -/

theorem set_run (ok : SetOk I sd H P cl inv okA) (hf : 256 ≤ fuel) (ops : List (SOp K)) :
    ∀ {s : St K Unit} {t : T K Ptr Unit} {F : Nat → Prop} {ks : List K}, Inv I.cfg sd H cl s h t F →
    (∀ x, x ∈ ks ↔ x ∈ absS t) → SEachNew H inv P ks ops →
    ∃ os s' t' F', I.run fuel (some h) ops s = .ok (os, s') ∧ Inv I.cfg sd H cl s' h t' F' ∧ Chg s s' h F F' ∧
      (∃ m', SRunBy (SStepX H cl inv) (absS t) ops os m' ∧ m'.Perm (absS t')) := by
  induction ops with
  | nil =>
    intro s t F ks hi _ _
    exact ⟨[], s, t, F, rfl, hi, Chg.refl _ _ _, ⟨_, ⟨rfl, rfl⟩, List.Perm.refl _⟩⟩
  | cons op ops ih =>
    intro s t F ks hi hks hm
    obtain ⟨o, s1, t1, F1, e1, i1, c1, ⟨m1, st1, p1⟩⟩ :=
      set_step ok hi hf op (fun k hk hk' => ok.congr _ _ _ hks (hm.1 k hk (fun h => hk' ((hks k).1 h))))
    obtain ⟨os, s2, t2, F2, e2, i2, c2, ⟨m2, st2, p2⟩⟩ := ih (ks := op.afterX H inv ks) i1 (fun x => by
      rw [← p1.mem_iff, st1.mem_afterX, Spec.mem_afterX hks]) hm.2
    obtain ⟨m2', st2', p2'⟩ := st2.perm p1.symm
    refine ⟨o :: os, s2, t2, F2, ?_, i2, c1.trans c2, ⟨m2', ⟨o, os, m1, rfl, st1, st2'⟩, p2'.symm.trans p2⟩⟩
    rw [SetImpl.run, bind_ok e1, bind_ok e2]; rfl

theorem absS_new : absS (.node 0#32 fun _ => (.empty : T K Ptr Unit)) = [] := by
  rw [absS, leaves_node]; simp [leaves]

theorem set_session (ok : SetOk I sd H P cl inv okA) (hf : 256 ≤ fuel) (ops : List (SOp K)) (s : St K Unit)
    (hm : SEachNew H inv P [] ops) :
    ∃ os s' t F, I.session fuel sd ops s = .ok ((some s.next, os), s') ∧ Inv I.cfg sd H cl s' s.next t F ∧
      (∃ m', SRunBy (SStepX H cl inv) [] ops os m' ∧ m'.Perm (absS t)) := by
  obtain ⟨s1, e1, i1, _⟩ := Inv.new I.cfg sd H cl s
  obtain ⟨os, s2, t2, F2, e2, i2, _, st⟩ := set_run ok hf ops (ks := []) i1 (by rw [absS_new]; simp) hm
  rw [absS_new] at st
  refine ⟨os, s2, t2, F2, ?_, i2, st⟩
  rw [SetImpl.session, SetImpl.New, bind_ok e1, bind_ok e2]
  rfl

end

end Amt
