/-
C64, C65, C66: the scratch area `root.path` in which `Del` keeps its path has no influence on what the containers do; what is
left in it; and which deleted entries the garbage collector can still reach.
-/
import Verif.Scratch
import Verif.PropsShape
import Verif.Examples

set_option linter.unusedVariables false
set_option linter.unusedSectionVars false

namespace Spec

/-- `Del` of `k` leaves no pointer in the scratch area: `k` is stored and is reached through at most twelve branches, or
it is not stored and no stored key has its first nibble. -/
def Tidy {K : Type} (H : K → Nat → BitVec 64) (ks : List K) (k : K) : Prop :=
  (k ∈ ks ∧ levels H ks k ≤ 12) ∨ (k ∉ ks ∧ ∀ x ∈ ks, sharedLen H k x = 0)

/-- The key that a call deletes. -/
def MOp.deletes {K V : Type} : MOp K V → Option K
  | .del k => some k
  | _ => none

def SOp.deletes {K : Type} : SOp K → Option K
  | .del k => some k
  | _ => none

/-- Every `Del` in this sequence of calls is of that kind, given the keys stored before. -/
def AllTidy {K V : Type} [DecidableEq K] (H : K → Nat → BitVec 64) : List K → List (MOp K V) → Prop
  | _, [] => True
  | ks, op :: ops => (∀ k, op.deletes = some k → Tidy H ks k) ∧ AllTidy H (op.after ks) ops

/-- The same for sets. -/
def SAllTidy {K : Type} [DecidableEq K] (H : K → Nat → BitVec 64) : List K → List (SOp K) → Prop
  | _, [] => True
  | ks, op :: ops => (∀ k, op.deletes = some k → Tidy H ks k) ∧ SAllTidy H (op.after ks) ops

end Spec

namespace Amt
open T Spec

/-! ### Client programs with the scratch area -/

/-- The scratch area of a new container (amt.go:72-76). -/
def blank : List PathLink := List.replicate 12 (0, none)

/-- No element of the scratch area points anywhere. -/
def Blank (path : List PathLink) : Prop := ∀ e ∈ path, e.2 = none

section
variable {K V : Type} [Inhabited V]

/-- `MapImpl.exec`, with the scratch area of the container before and after the call.  Only `Del` uses it. -/
def MapImpl.execS (I : MapImpl K V) (fuel : Nat) (m : Handle) (path : List PathLink) : MOp K V → M K V (MOut K V × List PathLink)
  | .del k => do
    let h ← deref m
    let path ← deleteS I.cfg h fuel I.delSkip k path
    pure (.unit, path)
  | op => do
    let o ← I.exec fuel m op
    pure (o, path)

def MapImpl.runS (I : MapImpl K V) (fuel : Nat) (m : Handle) (path : List PathLink) : List (MOp K V) → M K V (List (MOut K V) × List PathLink)
  | [] => pure ([], path)
  | op :: ops => do
    let r ← I.execS fuel m path op
    let rs ← MapImpl.runS I fuel m r.2 ops
    pure (r.1 :: rs.1, rs.2)

def MapImpl.sessionS (I : MapImpl K V) (fuel : Nat) (seed : Seed) (ops : List (MOp K V)) :
    M K V ((Handle × List (MOut K V)) × List PathLink) := do
  let m ← MapImpl.New seed
  let r ← I.runS fuel m blank ops
  pure ((m, r.1), r.2)

/-- `SetImpl.exec`, with the scratch area. -/
def SetImpl.execS (I : SetImpl K) (fuel : Nat) (m : Handle) (path : List PathLink) : SOp K → M K Unit (SOut K × List PathLink)
  | .del k => do
    let h ← deref m
    let path ← deleteS I.cfg h fuel I.delSkip k path
    pure (.unit, path)
  | op => do
    let o ← I.exec fuel m op
    pure (o, path)

def SetImpl.runS (I : SetImpl K) (fuel : Nat) (m : Handle) (path : List PathLink) : List (SOp K) → M K Unit (List (SOut K) × List PathLink)
  | [] => pure ([], path)
  | op :: ops => do
    let r ← I.execS fuel m path op
    let rs ← SetImpl.runS I fuel m r.2 ops
    pure (r.1 :: rs.1, rs.2)

def SetImpl.sessionS (I : SetImpl K) (fuel : Nat) (seed : Seed) (ops : List (SOp K)) :
    M K Unit ((Handle × List (SOut K)) × List PathLink) := do
  let m ← SetImpl.New seed
  let r ← I.runS fuel m blank ops
  pure ((m, r.1), r.2)

end

/-! ### C64 -/

section
variable {K V : Type} {α β : Type}

theorem Sims.map_eq {R : α → β → Prop} {f : α → β} {x : M K V α} {y : M K V β} (h : Sims R x y) (hf : ∀ a b, R a b → f a = b) (s : St K V) :
    (x s).map (fun r => (f r.1, r.2)) = y s := by
  have := h s
  revert this
  rcases x s with e | ⟨a, s₁⟩ <;> rcases y s with e' | ⟨b, s₂⟩ <;> intro h1
  · exact congrArg _ h1
  · exact False.elim h1
  · exact False.elim h1
  · obtain ⟨rfl, h2⟩ := h1
    show Except.ok (f a, s₁) = Except.ok (b, s₁)
    rw [hf a b h2]

/-- The results agree, and there are twelve elements. -/
def Same12 (a : α × List PathLink) (b : α) : Prop := a.1 = b ∧ a.2.length = 12

theorem MapImpl.execS_sim [Inhabited V] (I : MapImpl K V) (fuel : Nat) (m : Handle) {path : List PathLink} (hp : path.length = 12) (op : MOp K V) :
    Sims Same12 (I.execS fuel m path op) (I.exec fuel m op) := by
  have h : Sims (Same12 (α := MOut K V)) (I.exec fuel m op >>= fun o => Pure.pure (o, path)) (I.exec fuel m op) := by
    conv => rhs; rw [← bind_pure_M (I.exec fuel m op)]
    exact Sims.same fun o => Sims.pure ⟨rfl, hp⟩
  cases op with
  | del k =>
    rw [MapImpl.execS, MapImpl.exec, MapImpl.Del, bind_assoc_M]
    exact Sims.same fun h => (deleteS_sim I.cfg h fuel I.delSkip k hp).bind fun a _ ha => Sims.pure ⟨rfl, ha⟩
  | _ => exact h

theorem MapImpl.runS_sim [Inhabited V] (I : MapImpl K V) (fuel : Nat) (m : Handle) (ops : List (MOp K V)) {path : List PathLink} (hp : path.length = 12) :
    Sims Same12 (I.runS fuel m path ops) (I.run fuel m ops) := by
  induction ops generalizing path with
  | nil => exact Sims.pure ⟨rfl, hp⟩
  | cons op ops ih =>
    rw [MapImpl.runS, MapImpl.run]
    refine (I.execS_sim fuel m hp op).bind ?_
    rintro ⟨o, path₁⟩ _ ⟨rfl, h1⟩
    refine (ih h1).bind ?_
    rintro ⟨os, path₂⟩ _ ⟨rfl, h2⟩
    exact Sims.pure ⟨rfl, h2⟩

theorem SetImpl.execS_sim (I : SetImpl K) (fuel : Nat) (m : Handle) {path : List PathLink} (hp : path.length = 12) (op : SOp K) :
    Sims Same12 (I.execS fuel m path op) (I.exec fuel m op) := by
  have h : Sims (Same12 (α := SOut K)) (I.exec fuel m op >>= fun o => Pure.pure (o, path)) (I.exec fuel m op) := by
    conv => rhs; rw [← bind_pure_M (I.exec fuel m op)]
    exact Sims.same fun o => Sims.pure ⟨rfl, hp⟩
  cases op with
  | del k =>
    rw [SetImpl.execS, SetImpl.exec, SetImpl.Del, bind_assoc_M]
    exact Sims.same fun h => (deleteS_sim I.cfg h fuel I.delSkip k hp).bind fun a _ ha => Sims.pure ⟨rfl, ha⟩
  | _ => exact h

theorem SetImpl.runS_sim (I : SetImpl K) (fuel : Nat) (m : Handle) (ops : List (SOp K)) {path : List PathLink} (hp : path.length = 12) :
    Sims Same12 (I.runS fuel m path ops) (I.run fuel m ops) := by
  induction ops generalizing path with
  | nil => exact Sims.pure ⟨rfl, hp⟩
  | cons op ops ih =>
    rw [SetImpl.runS, SetImpl.run]
    refine (I.execS_sim fuel m hp op).bind ?_
    rintro ⟨o, path₁⟩ _ ⟨rfl, h1⟩
    refine (ih h1).bind ?_
    rintro ⟨os, path₂⟩ _ ⟨rfl, h2⟩
    exact Sims.pure ⟨rfl, h2⟩

/-- C64, maps: in any memory, with anything left in the scratch area, any program of calls on a map does exactly what it
does when each `Del` keeps its path in a fresh variable: the same results, the same memory, the same failures. -/
theorem C64_map [Inhabited V] (I : MapImpl K V) (fuel : Nat) (m : Handle) (ops : List (MOp K V)) {path : List PathLink} (hp : path.length = 12)
    (s : St K V) : (I.runS fuel m path ops s).map (fun r => (r.1.1, r.2)) = I.run fuel m ops s :=
  (I.runS_sim fuel m ops hp).map_eq (f := fun r => r.1) (fun _ _ h => h.1) s

/-- C64, sets. -/
theorem C64_set (I : SetImpl K) (fuel : Nat) (m : Handle) (ops : List (SOp K)) {path : List PathLink} (hp : path.length = 12)
    (s : St K Unit) : (I.runS fuel m path ops s).map (fun r => (r.1.1, r.2)) = I.run fuel m ops s :=
  (I.runS_sim fuel m ops hp).map_eq (f := fun r => r.1) (fun _ _ h => h.1) s

end

/-! ### C65 -/

theorem blank_iff {path : List PathLink} : Blank path ↔ NoLinksFrom 0 path := by
  constructor
  · intro h i _ r o e
    exact h (r, o) (List.mem_of_getElem? e)
  · intro h e he
    obtain ⟨i, hi, rfl⟩ := List.getElem_of_mem he
    exact h i (Nat.zero_le _) _ _ (List.getElem?_eq_getElem hi)

theorem Blank.left {path path' : List PathLink} (hb : Blank path) {cur : Cur} (hl : Left path cur path') (hc : ∀ e ∈ cur.path, e.2 ≠ none) :
    Blank path' ↔ cur.path = [] := by
  constructor
  · intro h
    cases hp : cur.path with
    | nil => rfl
    | cons e l =>
      have h0 := hl 0
      rw [hp, if_pos ⟨by simp, by omega⟩] at h0
      exact absurd (h e (List.mem_of_getElem? h0)) (hc e (by rw [hp]; simp))
  · intro h
    rw [blank_iff] at hb ⊢
    intro i _ r o e
    rw [hl i, h, if_neg (by simp)] at e
    exact hb i (Nat.zero_le _) r o e

section
variable {K V : Type} [DecidableEq K] {c : Cfg K} {sd : Seed} {H : K → Nat → BitVec 64} {cl : Prop} {s : St K V} {h : Nat}
  {t : T K Ptr V} {F : Nat → Prop}

theorem Inv.search_length (L : Laws c sd H) (hi : Inv c sd H cl s h t F) {fuel : Nat} {key : K} {cur : Cur} {hit : Bool}
    (e : search c sd key fuel (start c sd key h) s = .ok ((cur, hit), s)) :
    cur.path.length + (if hit = true then 0 else 1) = rounds (nbOf H) key t 0 := by
  obtain ⟨lk, hl, hr⟩ := hi.rep
  obtain ⟨_, hfd⟩ := search_found c e (by simp [start]) (by simp [start])
  obtain ⟨n, h1, h2, h3⟩ := hfd.rounds
  have hle : rounds (nbOf H) key t 0 ≤ n := Nat.le_of_not_lt fun hlt => by
    have := (search_rounds (fuel := n) L key t hi.node hl hr hi.ht (start_ok L key h) rfl).1 hlt
    rw [this] at h2; cases h2
  obtain ⟨r, e2⟩ := (search_rounds (fuel := rounds (nbOf H) key t 0) L key t hi.node hl hr hi.ht (start_ok L key h) rfl).2 (Nat.le_refl _)
  have hr : r = (cur, hit) := by
    rcases search_ext c sd key (Nat.le_trans hle h1) (start c sd key h) s with e3 | e3
    · rw [e2] at e3; cases e3
    · rw [e2, e] at e3; cases e3; rfl
  subst hr
  obtain ⟨_, hfd'⟩ := search_found c e2 (by simp [start]) (by simp [start])
  obtain ⟨n', h1', h2', h3'⟩ := hfd'.rounds
  simp only [start, List.length_nil] at h3 h3'
  omega

/-- What `Del` leaves in the scratch area of a container. -/
theorem Inv.deleteS (L : Laws c sd H) (hi : Inv c sd H cl s h t F) (hcl : cl) {skip : Bool → Bool} (hskip : ∀ b, skip b = !b)
    {ks : List K} (hn : ks.Nodup) (hk : ∀ x, x ∈ ks ↔ x ∈ (leaves t).map (fun e => e.1)) {fuel : Nat} (hf : 256 ≤ fuel) {key : K}
    {path path' : List PathLink} (hp : path.length = 12) (hb : Blank path) {s' : St K V}
    (e : Amt.deleteS c h fuel skip key path s = .ok (path', s')) : Blank path' ↔ Tidy H ks key := by
  obtain ⟨lk, hl, hr⟩ := hi.rep
  obtain ⟨cur, hit, h1, h2⟩ := deleteS_left c hp e
  rw [hi.seed] at h1
  obtain ⟨cur', hit', h3, h4⟩ := search_sim L key (by omega : 255 < 256) t hi.node hl hr hi.ht (by omega : 255 < fuel + 0) (start_ok L key h) rfl
  rw [h1] at h3
  cases h3
  obtain ⟨_, hfd⟩ := search_found c h1 (by simp [start]) (by simp [start])
  have hlen := hi.search_length L h1
  rw [hi.rounds_levels hcl hn hk] at hlen
  have hfind := slot_eq_find_none (key := key) hi.wf
  rw [find_eq_none (nbOf_lt H) hi.wf] at hfind
  have hnotin : key ∉ ks ↔ ∀ e, slot (nbOf H) key t 0 = some e → e.1 ≠ key := by
    rw [hfind, hk]
    simp only [List.mem_map, not_exists, not_and]
  cases hs : slot (nbOf H) key t 0 with
  | none =>
    rw [hs] at h4
    have : hit = false := h4
    subst this
    rw [if_neg (by simp)] at h2
    rw [if_neg (by simp)] at hlen
    have hni : key ∉ ks := hnotin.2 (by rw [hs]; intro e he; cases he)
    rw [hb.left h2.1 hfd.links]
    have h0 : cur.path = [] ↔ levels H ks key = 1 := by
      rw [← List.length_eq_zero_iff]; omega
    rw [h0]
    constructor
    · intro h1
      refine Or.inr ⟨hni, fun x hx => ?_⟩
      rw [← hi.rounds_levels hcl hn hk] at h1
      have hnode := hi.node
      have hw := hi.wf
      cases t with
      | empty => cases hnode
      | leaf => cases hnode
      | node st ch =>
        rw [rounds] at h1
        rw [slot] at hs
        cases hch : ch (nbOf H key 0) with
        | node => rw [hch, rounds] at h1; omega
        | leaf => rw [hch] at hs; cases hs
        | empty =>
          apply Classical.byContradiction
          intro hne
          have hag := (le_sharedLen.1 (show 1 ≤ sharedLen H key x by omega)).2
          obtain ⟨e, he, rfl⟩ := List.mem_map.1 ((hk x).1 hx)
          obtain ⟨i, hi16, he'⟩ := mem_leaves_node.1 he
          have h2 := (hw.2 i hi16).1 e he'
          have h3 := hag 0 (by omega)
          rw [← nbOf_eq_nibble, ← nbOf_eq_nibble, h2] at h3
          rw [h3] at hch
          rw [hch] at he'
          cases he'
    · rintro (h | ⟨_, h⟩)
      · exact absurd h.1 hni
      · rw [levels]
        have : ∀ j, (ks.filter fun x => decide (j < sharedLen H key x)) = [] := by
          intro j
          rw [List.filter_eq_nil_iff]
          intro x hx
          rw [h x hx]
          simp
        simp [this]
  | some e0 =>
    rw [hs] at h4
    obtain ⟨h5, _, _, item, x, h6, h7, h8, h9, _⟩ := h4
    subst h5
    rw [if_pos rfl] at h2
    rw [if_pos rfl] at hlen
    obtain ⟨item', x', k', g1, g2, g3, g4⟩ := h2
    rw [h7] at g1; cases g1
    rw [h8] at g2; cases g2
    rw [h9] at g3; cases g3
    have hne : cur.path ≠ [] := by
      intro h0
      rw [h0, levels] at hlen
      simp at hlen
      omega
    by_cases hin : key ∈ ks
    · have heq : key = e0.1 := Classical.byContradiction fun hx => absurd hin (hnotin.2 fun e he hx' => by
        rw [hs] at he; cases he; exact hx hx'.symm)
      rw [(L.eq_iff _ _).2 heq, hskip, if_neg (by simp)] at g4
      by_cases h12 : cur.path.length ≤ 12
      · rw [if_pos h12] at g4
        exact ⟨fun _ => Or.inl ⟨hin, by omega⟩, fun _ => blank_iff.2 (g4.2 (blank_iff.1 hb))⟩
      · rw [if_neg h12] at g4
        rw [hb.left g4.2 hfd.links]
        refine ⟨fun h => absurd h hne, ?_⟩
        rintro (h | h)
        · have := h.2; omega
        · exact absurd hin h.1
    · have heq : key ≠ e0.1 := fun hx => hnotin.1 hin e0 hs hx.symm
      have hfalse : c.eq key e0.1 = false := by
        cases hb' : c.eq key e0.1 with
        | false => rfl
        | true => exact absurd ((L.eq_iff _ _).1 hb') heq
      rw [hfalse, hskip, if_pos (by simp)] at g4
      rw [hb.left g4.1 hfd.links]
      refine ⟨fun h => absurd h hne, ?_⟩
      rintro (h | h)
      · exact absurd h.1 hin
      · have hag := slot_agree hi.node hi.wf hs
        have := h.2 e0.1 ((hk _).2 (List.mem_map.2 ⟨e0, slot_mem (nbOf_lt H) hs, rfl⟩))
        have h1 := le_sharedLen.2 ⟨show 1 ≤ 256 by omega, fun j hj => hag j (by omega)⟩
        omega

end

section
variable {K V : Type} [DecidableEq K] [Inhabited V] {I : MapImpl K V} {sd : Seed} {H : K → Nat → BitVec 64} {h : Nat}
  {P : Bool → List K → K → Prop} {lossy : V → V} {ex : Prop} {fuel : Nat} {okS okM : K → K → Nat → Prop}

/-- A call is made in both ways. -/
theorem MapImpl.execS_of {m : Handle} {op : MOp K V} {s s' : St K V} {o : MOut K V} (e : I.exec fuel m op s = .ok (o, s'))
    {path : List PathLink} (hp : path.length = 12) : ∃ path', I.execS fuel m path op s = .ok ((o, path'), s') ∧ path'.length = 12 := by
  have := I.execS_sim fuel m hp op s
  rw [e] at this
  revert this
  rcases I.execS fuel m path op s with e' | ⟨⟨o', path'⟩, s₁⟩ <;> intro h
  · exact False.elim h
  · obtain ⟨rfl, rfl, h2⟩ := h
    exact ⟨path', rfl, h2⟩

/-- Only `Del` touches the scratch area. -/
theorem MapImpl.execS_other {m : Handle} {op : MOp K V} {s s' : St K V} {o : MOut K V} {path path' : List PathLink}
    (e : I.execS fuel m path op s = .ok ((o, path'), s')) (hop : op.deletes = none) : path' = path := by
  cases op with
  | del k => cases hop
  | _ =>
    obtain ⟨_, _, _, e⟩ := bind_ok_inv e
    cases e
    rfl

theorem Inv.execS (ok : MapOk I sd H P ex lossy okS okM) {s s' : St K V} {t : T K Ptr V} {F : Nat → Prop}
    (hi : Inv I.cfg sd H ex s h t F) (hex : ex) (hf : 256 ≤ fuel) {ks : List K} (hn : ks.Nodup)
    (hk : ∀ x, x ∈ ks ↔ x ∈ (absT t).keys) {op : MOp K V} {path path' : List PathLink} (hp : path.length = 12) (hb : Blank path)
    {o : MOut K V} (e : I.execS fuel (some h) path op s = .ok ((o, path'), s')) :
    Blank path' ↔ ∀ k, op.deletes = some k → Tidy H ks k := by
  cases hop : op.deletes with
  | none =>
    rw [MapImpl.execS_other e hop]
    exact ⟨(fun _ k hk => by cases hk), fun _ => hb⟩
  | some k =>
    cases op <;> cases hop
    obtain ⟨h', s₁, e1, e⟩ := bind_ok_inv e
    cases e1
    obtain ⟨p₁, s₂, e2, e⟩ := bind_ok_inv e
    cases e
    rw [hi.deleteS ok.laws hex ok.skip hn (by rw [← absT_keys]; exact hk) hf hp hb e2]
    exact ⟨fun h k hk => by cases hk; exact h, fun h => h k rfl⟩

theorem Inv.runS (ok : MapOk I sd H P ex lossy okS okM) (hex : ex) (hf : 256 ≤ fuel) (ops : List (MOp K V)) :
    ∀ {s : St K V} {t : T K Ptr V} {F : Nat → Prop} {ks : List K} {path : List PathLink}, Inv I.cfg sd H ex s h t F →
    ks.Nodup → (∀ x, x ∈ ks ↔ x ∈ (absT t).keys) → EachNew P ks ops → AllTidy H ks ops → path.length = 12 → Blank path →
    ∃ os path' s', I.runS fuel (some h) path ops s = .ok ((os, path'), s') ∧ Blank path' := by
  induction ops with
  | nil =>
    intro s t F ks path hi hn hk h ht hp hb
    exact ⟨[], path, s, rfl, hb⟩
  | cons op ops ih =>
    intro s t F ks path hi hn hks hm ht hp hb
    have hop : NewOk P (absT t).keys op := fun k hk hk' =>
      ok.congr _ _ _ _ hks (hm.1 k hk (fun h => hk' ((hks k).1 h)))
    obtain ⟨o, s1, t1, F1, e1, i1, c1, ⟨m1, st1, p1⟩, k1⟩ := map_step ok hi hf op hop
    have hks1 : ∀ x, x ∈ op.after ks ↔ x ∈ (absT t1).keys := by
      intro x
      rw [← (FMap.keys_perm p1).mem_iff, st1.after_keys, mem_after hks]
    obtain ⟨path₁, e2, hp1⟩ := MapImpl.execS_of e1 hp
    have hb1 := (Inv.execS ok hi hex hf hn hks hp hb e2).2 ht.1
    obtain ⟨os, path', s', e3, hb2⟩ := ih i1 (nodup_after hn op) hks1 hm.2 ht.2 hp1 hb1
    exact ⟨o :: os, path', s', by rw [MapImpl.runS, bind_ok e2, bind_ok e3]; rfl, hb2⟩

theorem blank_blank : blank.length = 12 ∧ Blank blank := by
  refine ⟨rfl, fun e he => ?_⟩
  rw [List.eq_of_mem_replicate he]

/-- C65, maps, one call: after any covered history, a `Del` that finds the scratch area empty leaves it empty exactly if it
removes an entry that it reaches through at most twelve branches, or if no stored key has the first nibble of its argument. -/
theorem C65_map (hc : MapContainer I sd H P lossy ex) (hex : ex) {ops : List (MOp K V)} (h : EachNew P [] ops) (hf : 256 ≤ fuel) (s : St K V) :
    ∃ m os s₁, I.session fuel sd ops s = .ok ((m, os), s₁) ∧ ∀ k path, path.length = 12 → Blank path →
      ∃ path' s₂, I.execS fuel m path (.del k) s₁ = .ok ((.unit, path'), s₂) ∧ (Blank path' ↔ Tidy H (keysAfter [] ops) k) := by
  obtain ⟨os, s', t, F, m, e1, i1, e3, e4⟩ := hc.session h hf s
  obtain ⟨okS, okM, ok⟩ := hc.ok
  refine ⟨_, os, s', e1, fun k path hp hb => ?_⟩
  have hk : ∀ x, x ∈ keysAfter [] ops ↔ x ∈ (absT t).keys := fun x => by
    rw [← (FMap.keys_perm e4).mem_iff]
    exact (e3.keysAfter x).symm
  obtain ⟨o, s₂, _, _, e5, _, _, ⟨m', st, _⟩, _⟩ := map_step ok i1 hf (.del k) (fun k hk => by cases hk)
  obtain ⟨path', e6, hp'⟩ := MapImpl.execS_of e5 hp
  obtain rfl : o = .unit := st.1
  refine ⟨path', s₂, e6, ?_⟩
  rw [Inv.execS ok i1 hex hf (nodup_keysAfter (by simp) ops) hk hp hb e6]
  exact ⟨fun h => h k rfl, fun h k hk => by cases hk; exact h⟩

/-- C65, maps: if every `Del` of a covered history is of that kind, the scratch area is empty in the end. -/
theorem C65_map_history (hc : MapContainer I sd H P lossy ex) (hex : ex) {ops : List (MOp K V)} (h : EachNew P [] ops)
    (ht : AllTidy H [] ops) (hf : 256 ≤ fuel) (s : St K V) :
    ∃ m os path s₁, I.sessionS fuel sd ops s = .ok (((m, os), path), s₁) ∧ Blank path := by
  obtain ⟨okS, okM, ok⟩ := hc.ok
  obtain ⟨s1, e1, i1, _⟩ := Inv.new I.cfg sd H ex s
  obtain ⟨os, path, s2, e2, hb⟩ := Inv.runS ok hex hf ops (ks := []) i1 (by simp) (by rw [absT_new]; simp [FMap.keys]) h ht blank_blank.1 blank_blank.2
  exact ⟨_, os, path, s2, by rw [MapImpl.sessionS, MapImpl.New, bind_ok e1, bind_ok e2]; rfl, hb⟩

end

section
variable {K : Type} [DecidableEq K] {I : SetImpl K} {sd : Seed} {H : K → Nat → BitVec 64} {h : Nat}
  {P : List K → K → Prop} {ex : Prop} {fuel : Nat} {okA : K → K → Nat → Prop}

theorem SetImpl.execS_of {m : Handle} {op : SOp K} {s s' : St K Unit} {o : SOut K} (e : I.exec fuel m op s = .ok (o, s'))
    {path : List PathLink} (hp : path.length = 12) : ∃ path', I.execS fuel m path op s = .ok ((o, path'), s') ∧ path'.length = 12 := by
  have := I.execS_sim fuel m hp op s
  rw [e] at this
  revert this
  rcases I.execS fuel m path op s with e' | ⟨⟨o', path'⟩, s₁⟩ <;> intro h
  · exact False.elim h
  · obtain ⟨rfl, rfl, h2⟩ := h
    exact ⟨path', rfl, h2⟩

theorem SetImpl.execS_other {m : Handle} {op : SOp K} {s s' : St K Unit} {o : SOut K} {path path' : List PathLink}
    (e : I.execS fuel m path op s = .ok ((o, path'), s')) (hop : op.deletes = none) : path' = path := by
  cases op with
  | del k => cases hop
  | _ =>
    obtain ⟨_, _, _, e⟩ := bind_ok_inv e
    cases e
    rfl

theorem Inv.sexecS (ok : SetOk I sd H P ex false okA) {s s' : St K Unit} {t : T K Ptr Unit} {F : Nat → Prop}
    (hi : Inv I.cfg sd H ex s h t F) (hex : ex) (hf : 256 ≤ fuel) {ks : List K} (hn : ks.Nodup)
    (hk : ∀ x, x ∈ ks ↔ x ∈ absS t) {op : SOp K} {path path' : List PathLink} (hp : path.length = 12) (hb : Blank path)
    {o : SOut K} (e : I.execS fuel (some h) path op s = .ok ((o, path'), s')) :
    Blank path' ↔ ∀ k, op.deletes = some k → Tidy H ks k := by
  cases hop : op.deletes with
  | none =>
    rw [SetImpl.execS_other e hop]
    exact ⟨(fun _ k hk => by cases hk), fun _ => hb⟩
  | some k =>
    cases op <;> cases hop
    obtain ⟨h', s₁, e1, e⟩ := bind_ok_inv e
    cases e1
    obtain ⟨p₁, s₂, e2, e⟩ := bind_ok_inv e
    cases e
    rw [hi.deleteS ok.laws hex (fun b => by rw [ok.skip]; rfl) hn hk hf hp hb e2]
    exact ⟨fun h k hk => by cases hk; exact h, fun h => h k rfl⟩

theorem Inv.srunS (ok : SetOk I sd H P ex false okA) (hex : ex) (hf : 256 ≤ fuel) (ops : List (SOp K)) :
    ∀ {s : St K Unit} {t : T K Ptr Unit} {F : Nat → Prop} {ks : List K} {path : List PathLink}, Inv I.cfg sd H ex s h t F →
    ks.Nodup → (∀ x, x ∈ ks ↔ x ∈ absS t) → SEachNew H false P ks ops → SAllTidy H ks ops → path.length = 12 → Blank path →
    ∃ os path' s', I.runS fuel (some h) path ops s = .ok ((os, path'), s') ∧ Blank path' := by
  induction ops with
  | nil =>
    intro s t F ks path hi hn hk h ht hp hb
    exact ⟨[], path, s, rfl, hb⟩
  | cons op ops ih =>
    intro s t F ks path hi hn hks hm ht hp hb
    obtain ⟨o, s1, t1, F1, e1, i1, c1, ⟨m1, st1, p1⟩⟩ :=
      set_step ok hi hf op (fun k hk hk' => ok.congr _ _ _ hks (hm.1 k hk (fun h => hk' ((hks k).1 h))))
    obtain ⟨path₁, e2, hp1⟩ := SetImpl.execS_of e1 hp
    have hb1 := (Inv.sexecS ok hi hex hf hn hks hp hb e2).2 ht.1
    have hks1 : ∀ x, x ∈ op.afterX H false ks ↔ x ∈ absS t1 := fun x => by
      rw [← p1.mem_iff, st1.mem_afterX, Spec.mem_afterX hks]
    obtain ⟨os, path', s', e3, hb2⟩ := ih i1 (nodup_afterX false hn op) hks1 hm.2 (by rw [SOp.afterX_false]; exact ht.2) hp1 hb1
    exact ⟨o :: os, path', s', by rw [SetImpl.runS, bind_ok e2, bind_ok e3]; rfl, hb2⟩

/-- C65, sets whose `Del` does what it should, one call. -/
theorem C65_set (hc : SetContainer I sd H P false ex) (hex : ex) {ops : List (SOp K)} (h : SEachNew H false P [] ops) (hf : 256 ≤ fuel)
    (s : St K Unit) : ∃ m os s₁, I.session fuel sd ops s = .ok ((m, os), s₁) ∧ ∀ k path, path.length = 12 → Blank path →
      ∃ path' s₂, I.execS fuel m path (.del k) s₁ = .ok ((.unit, path'), s₂) ∧ (Blank path' ↔ Tidy H (elemsAfter [] ops) k) := by
  obtain ⟨os, s', t, F, m, e1, i1, e3, e4⟩ := hc.session h hf s
  obtain ⟨okA, ok⟩ := hc.ok
  refine ⟨_, os, s', e1, fun k path hp hb => ?_⟩
  have hk : ∀ x, x ∈ elemsAfter [] ops ↔ x ∈ absS t := fun x => by
    rw [← Spec.elemsAfterX_false H, ← e3.elemsAfterX x, e4.mem_iff]
  obtain ⟨o, s₂, _, _, e5, _, _, ⟨m', st, _⟩⟩ := set_step ok i1 hf (.del k) (fun k hk => by cases hk)
  obtain ⟨path', e6, hp'⟩ := SetImpl.execS_of e5 hp
  obtain rfl : o = .unit := st.1
  refine ⟨path', s₂, e6, ?_⟩
  rw [Inv.sexecS ok i1 hex hf (by rw [← Spec.elemsAfterX_false H]; exact nodup_elemsAfterX false (by simp) ops) hk hp hb e6]
  exact ⟨fun h => h k rfl, fun h k hk => by cases hk; exact h⟩

/-- C65, sets whose `Del` does what it should: if every `Del` of a covered history is of that kind, the scratch area is empty in the end. -/
theorem C65_set_history (hc : SetContainer I sd H P false ex) (hex : ex) {ops : List (SOp K)} (h : SEachNew H false P [] ops)
    (ht : SAllTidy H [] ops) (hf : 256 ≤ fuel) (s : St K Unit) :
    ∃ m os path s₁, I.sessionS fuel sd ops s = .ok (((m, os), path), s₁) ∧ Blank path := by
  obtain ⟨okA, ok⟩ := hc.ok
  obtain ⟨s1, e1, i1, _⟩ := Inv.new I.cfg sd H ex s
  obtain ⟨os, path, s2, e2, hb⟩ := Inv.srunS ok hex hf ops (ks := []) i1 (by simp)
    (by rw [absS, leaves_node]; simp [leaves]) h ht blank_blank.1 blank_blank.2
  exact ⟨_, os, path, s2, by rw [SetImpl.sessionS, SetImpl.New, bind_ok e1, bind_ok e2]; rfl, hb⟩

end

/-! ### C66 -/

/-- What the garbage collector can reach from the container with root `h` in the memory `s`, if `path` is in its scratch area. -/
inductive Reach {K V : Type} (s : St K V) (h : Nat) (path : List PathLink) : Nat → Prop where
  | root : Reach s h path h
  | path {r : Nat} {l : Ref} {b : Nat} : (r, some l) ∈ path → l.base = .blk b → Reach s h path b
  | link {a b : Nat} {xs : List Link} {x : Link} : Reach s h path a → s.mem a = some (.links xs) → x ∈ xs → x.ptr = .blk b →
      Reach s h path b

/-- Every key-value cell that can be reached holds one of the keys `ks`. -/
def NoGarbage {K V : Type} (s : St K V) (h : Nat) (path : List PathLink) (ks : List K) : Prop :=
  ∀ b k v, Reach s h path b → s.mem b = some (.kv (some k) v) → k ∈ ks

/-- What a container uses: the cell of an occupied slot, marked as holding a key, of one of its branches. -/
def InUse {K V : Type} (s : St K V) (h b : Nat) : Prop :=
  ∃ p lk r a xs x, BranchAt s h p lk ∧ lk.ptr = .blk a ∧ s.mem a = some (.links xs) ∧ r < 16 ∧ lk.pmap.getLsbD r = true ∧
    lk.tmap.getLsbD r = true ∧ xs[bitsBelow lk.pmap r]? = some x ∧ x.ptr = .blk b

theorem Inv.inUse {K V : Type} [DecidableEq K] {c : Cfg K} {sd : Seed} {H : K → Nat → BitVec 64} {cl : Prop} {s : St K V} {h : Nat}
    {t : T K Ptr V} {F : Nat → Prop} (hi : Inv c sd H cl s h t F) (hcl : cl) (hs : c.store ≠ .bare) {b : Nat} {o : Option K} {v : V}
    (hb : InUse s h b) (hm : s.mem b = some (.kv o v)) : ∃ k, (k, v) ∈ absT t ∧ ∀ k', o = some k' → k' = k := by
  obtain ⟨p, lk, r, a, xs, x, h1, h2, h3, h4, h5, h6, h7, h8⟩ := hb
  obtain ⟨st, ch, F', ⟨b', xs', G, ha, ho, hrep⟩, hw, hh, hc, hlv⟩ := hi.branch h1
  have hst : st = 0#32 := (hc hcl).1.1
  have := ha.ptr
  rw [h2] at this
  cases this
  have := ha.mem
  rw [h3] at this
  cases this
  rw [ha.tm.bit r, hst] at h6
  have hocc : occ ch r = true := by have := ha.pm r; rw [h5] at this; simpa [h4] using this.symm
  have hx : xs.getD (cnt (occ ch) r) {} = x := by
    rw [bitsBelow_eq ha.pm (by omega)] at h7
    rw [List.getD_eq_getElem?_getD, h7]
    rfl
  have hr := hrep r h4
  rw [hx] at hr
  cases hch : ch r with
  | empty => simp [occ, hch, isEmpty] at hocc
  | node => simp [lf, hch, isLeaf] at h6
  | leaf k' p' v' =>
    rw [hch] at hr
    obtain ⟨q, hr1, hr2, hr3, _⟩ := hr
    have hmem : (k', p', v') ∈ leaves t := ((hlv _).1 (mem_leaves_node.2 ⟨r, h4, by rw [hch]; simp [leaves]⟩)).1
    have hp : q = .blk b := by rw [← h8, hr1]; rfl
    subst hp
    have hkv : s.mem b = some (.kv none v') ∨ s.mem b = some (.kv (some k') v') := by
      unfold KvAt at hr2
      split at hr2
      · obtain ⟨a', g1, g2⟩ := hr2; cases g1; exact Or.inr g2
      · obtain ⟨a', g1, g2⟩ := hr2; cases g1; exact Or.inl g2
      · exact absurd (by assumption) hs
    have habs : (k', v') ∈ absT t := List.mem_map.2 ⟨_, hmem, rfl⟩
    rcases hkv with hkv | hkv
    · rw [hm] at hkv
      cases hkv
      exact ⟨k', habs, fun _ h => by cases h⟩
    · rw [hm] at hkv
      cases hkv
      exact ⟨k', habs, fun _ h => by cases h; rfl⟩

/-- C66, what holds, maps: after any covered history, a key-value cell in an occupied slot holds the value, and if it has a key
the key, of a stored entry. -/
theorem C66_map_partial {K V : Type} [DecidableEq K] [Inhabited V] {I : MapImpl K V} {sd : Seed} {H : K → Nat → BitVec 64}
    {P : Bool → List K → K → Prop} {lossy : V → V} {ex : Prop} {fuel : Nat} (hc : MapContainer I sd H P lossy ex) (hex : ex)
    {ops : List (MOp K V)} (h : EachNew P [] ops) (hf : 256 ≤ fuel) (s : St K V) :
    ∃ r os s₁ m, I.session fuel sd ops s = .ok ((some r, os), s₁) ∧ RunBy (MStepX H ex lossy) [] ops os m ∧
      ∀ b o v, InUse s₁ r b → s₁.mem b = some (.kv o v) → ∃ k, (k, v) ∈ m ∧ ∀ k', o = some k' → k' = k := by
  obtain ⟨os, s', t, F, m, e1, i1, e3, e4⟩ := hc.session h hf s
  obtain ⟨okS, okM, ok⟩ := hc.ok
  refine ⟨_, os, s', m, e1, e3, fun b o v hb hm => ?_⟩
  obtain ⟨k, h1, h2⟩ := i1.inUse hex ok.store hb hm
  exact ⟨k, e4.mem_iff.2 h1, h2⟩

/-- C66, what holds, sets (`IntSet` has no cells): a cell in an occupied slot holds an element. -/
theorem C66_set_partial {K : Type} [DecidableEq K] {I : SetImpl K} {sd : Seed} {H : K → Nat → BitVec 64}
    {P : List K → K → Prop} {inv : Bool} {ex : Prop} {fuel : Nat} (hc : SetContainer I sd H P inv ex) (hex : ex)
    (hs : I.cfg.store ≠ .bare) {ops : List (SOp K)} (h : SEachNew H inv P [] ops) (hf : 256 ≤ fuel) (s : St K Unit) :
    ∃ r os s₁, I.session fuel sd ops s = .ok ((some r, os), s₁) ∧
      ∀ b k, InUse s₁ r b → s₁.mem b = some (.kv (some k) ()) → k ∈ elemsAfterX H inv [] ops := by
  obtain ⟨os, s', t, F, m, e1, i1, e3, e4⟩ := hc.session h hf s
  refine ⟨_, os, s', e1, fun b k hb hm => ?_⟩
  obtain ⟨k', h1, h2⟩ := i1.inUse hex hs hb hm
  rw [h2 k rfl, ← e3.elemsAfterX, e4.mem_iff]
  obtain ⟨e, he, hee⟩ := List.mem_map.1 h1
  exact List.mem_map.2 ⟨e, he, congrArg Prod.fst hee⟩

/-! ### Refutations -/

/-- The state of the memory after a program of calls. -/
def memAfter (ops : List (MOp ByteStr Nat)) : St ByteStr Nat :=
  match (StringMap (V := Nat) toyHash).sessionS 256 0#64 ops St.init with
  | .ok r => r.2
  | .error _ => St.init

/-- The scratch area after it. -/
def pathAfter (ops : List (MOp ByteStr Nat)) : List PathLink :=
  match (StringMap (V := Nat) toyHash).sessionS 256 0#64 ops St.init with
  | .ok r => r.1.2
  | .error _ => []

theorem MapImpl.sessionS_of {K V : Type} [DecidableEq K] [Inhabited V] {I : MapImpl K V} {fuel : Nat} {sd : Seed} {ops : List (MOp K V)}
    {s s' : St K V} {m : Handle} {os : List (MOut K V)} (h : I.session fuel sd ops s = .ok ((m, os), s')) :
    ∃ path, I.sessionS fuel sd ops s = .ok (((m, os), path), s') := by
  rw [MapImpl.session] at h
  obtain ⟨m1, s1, e1, h⟩ := bind_ok_inv h
  obtain ⟨os1, s2, e2, h⟩ := bind_ok_inv h
  cases h
  have hc := C64_map I fuel m ops blank_blank.1 s1
  rw [e2] at hc
  rcases hr : I.runS fuel m blank ops s1 with e' | ⟨⟨os', path⟩, s3⟩
  · rw [hr] at hc; cases hc
  · rw [hr] at hc
    cases hc
    refine ⟨path, ?_⟩
    rw [MapImpl.sessionS, bind_ok e1, bind_ok hr]
    rfl

theorem session_after {ops : List (MOp ByteStr Nat)} (h : EachNew (fun _ => ByteFits (byteStream toyHash 0#64 id)) [] ops) :
    ∃ os, (StringMap (V := Nat) toyHash).sessionS 256 0#64 ops St.init = .ok (((some 0, os), pathAfter ops), memAfter ops) := by
  obtain ⟨os, s', t, F, m, e1, _⟩ := (MapContainer.string (V := Nat) toyHash 0#64).session h (Nat.le_refl 256) St.init
  obtain ⟨path, e4⟩ := MapImpl.sessionS_of e1
  refine ⟨os, ?_⟩
  have h1 : pathAfter ops = path := by rw [pathAfter, e4]
  have h2 : memAfter ops = s' := by rw [memAfter, e4]
  rw [h1, h2]
  exact e4

/-- C65 fails: after the `Del` of a key that is not stored, the scratch area holds pointers. -/
theorem C65_refuted : ¬ ∀ ops, EachNew (fun _ => ByteFits (byteStream toyHash 0#64 id)) [] ops → ∀ m os path s₁,
    (StringMap (V := Nat) toyHash).sessionS 256 0#64 ops St.init = .ok (((m, os), path), s₁) → Blank path := by
  intro h
  obtain ⟨os, e⟩ := session_after exOps_str
  have := h _ exOps_str _ _ _ _ e (1, some ⟨.blk 0, 0⟩) (by decide +kernel)
  cases this

/-- Two keys with the same first twelve nibbles, one of which is deleted. -/
def exDeep : List (MOp ByteStr Nat) := [.set [1, 1, 1, 1, 1, 1, 1] 1, .set [1, 1, 1, 1, 1, 1, 2] 2, .del [1, 1, 1, 1, 1, 1, 1]]

/-- The same after the `Del` of a stored key that is below more than twelve branches. -/
theorem C65_refuted_deep : EachNew (fun _ => ByteFits (byteStream toyHash 0#64 id)) [] exDeep ∧
    ¬ ∀ m os path s₁, (StringMap (V := Nat) toyHash).sessionS 256 0#64 exDeep St.init = .ok (((m, os), path), s₁) → Blank path := by
  have hc : EachNew (fun _ => ByteFits (byteStream toyHash 0#64 id)) [] exDeep := by decide +kernel
  refine ⟨hc, fun h => ?_⟩
  obtain ⟨os, e⟩ := session_after hc
  have := h _ _ _ _ e (1, some ⟨.blk 0, 0⟩) (by decide +kernel)
  cases this

/-- C66 fails: `Del` leaves the slot behind the last item as it was, and so the cell of a deleted key can still be reached. -/
theorem C66_refuted : ¬ ∀ ops, EachNew (fun _ => ByteFits (byteStream toyHash 0#64 id)) [] ops → ∀ h os path s₁,
    (StringMap (V := Nat) toyHash).sessionS 256 0#64 ops St.init = .ok (((some h, os), path), s₁) → NoGarbage s₁ h path (keysAfter [] ops) := by
  intro h
  have hc : EachNew (fun _ => ByteFits (byteStream toyHash 0#64 id)) [] [.set (strKey 1) 7, .del (strKey 1)] := by decide +kernel
  obtain ⟨os, e⟩ := session_after hc
  have := h _ hc _ _ _ _ e 2 (strKey 1) 7 (.link (a := 1) (xs := ⟨.blk 2, 0#32, 0#32⟩ :: List.replicate 15 {})
    (.link (a := 0) (xs := [⟨.blk 1, 0#32, 0#32⟩]) .root (by decide +kernel) (List.mem_singleton.2 rfl) rfl)
    (by decide +kernel) List.mem_cons_self rfl) (by decide +kernel)
  revert this
  decide +kernel

def exLeak : List (MOp ByteStr Nat) := [.set [0x21, 0x01] 1, .set [0x21, 0x02] 2, .set [0x11] 3, .del [0x21, 0x01, 0x05],
  .set [0x31] 4, .set [0x41] 5, .set [0x51] 6, .del [0x11]]

/-- What can be reached is in `S`, if `S` holds the root and is closed. -/
theorem Reach.mem {K V : Type} {s : St K V} {h : Nat} {S : List Nat} (hh : h ∈ S)
    (hS : (S.all fun a => match s.mem a with
      | some (.links xs) => xs.all fun x => match x.ptr with
        | .blk b => decide (b ∈ S)
        | .nil => true
      | _ => true) = true) {b : Nat} (hr : Reach s h blank b) : b ∈ S := by
  induction hr with
  | root => exact hh
  | path h1 h2 =>
    have := blank_blank.2 _ h1
    cases this
  | link _ h1 h2 h3 ih =>
    have := List.all_eq_true.1 hS _ ih
    rw [h1] at this
    have := List.all_eq_true.1 this _ h2
    rw [h3] at this
    exact of_decide_eq_true this

/-- The scratch area alone makes a difference: here everything that can be reached would be in use without it, and with it a
deleted entry can be reached. -/
theorem C66_refuted_path : EachNew (fun _ => ByteFits (byteStream toyHash 0#64 id)) [] exLeak ∧
    ∃ os path s₁, (StringMap (V := Nat) toyHash).sessionS 256 0#64 exLeak St.init = .ok (((some 0, os), path), s₁) ∧
      NoGarbage s₁ 0 blank (keysAfter [] exLeak) ∧ ¬ NoGarbage s₁ 0 path (keysAfter [] exLeak) := by
  have hc : EachNew (fun _ => ByteFits (byteStream toyHash 0#64 id)) [] exLeak := by decide +kernel
  obtain ⟨os, e⟩ := session_after hc
  refine ⟨hc, os, _, _, e, ?_, ?_⟩
  · intro b k v hr hm
    have hb := hr.mem (S := [0, 1, 2, 4, 5, 7, 8, 9, 11]) (by decide) (by decide +kernel)
    have hall : ([0, 1, 2, 4, 5, 7, 8, 9, 11].all fun b => match (memAfter exLeak).mem b with
      | some (.kv (some k) _) => decide (k ∈ keysAfter [] exLeak)
      | _ => true) = true := by decide +kernel
    have := List.all_eq_true.1 hall b hb
    rw [hm] at this
    exact of_decide_eq_true this
  · intro h
    have := h 6 [0x11] 3 (.link (a := 3) (xs := [⟨.blk 6, 0#32, 0#32⟩, ⟨.blk 4, 6#32, 6#32⟩, ⟨.blk 7, 0#32, 0#32⟩, ⟨.blk 8, 0#32, 0#32⟩])
      (.path (r := 1) (l := ⟨.blk 3, 1⟩) (by decide +kernel) rfl) (by decide +kernel) List.mem_cons_self rfl) (by decide +kernel)
    revert this
    decide +kernel

/-! ### Instances -/

example := C64_map (StringMap (V := Nat) toyHash) 256 (some 0) (exOps strKey) (path := List.replicate 12 (3, some ⟨.blk 7, 2⟩)) rfl St.init
example := C64_set (StringSet toyHash) 256 (some 0) (exOpsS strKey) (path := List.replicate 12 (3, some ⟨.blk 7, 2⟩)) rfl St.init
example := C65_map (MapContainer.string (V := Nat) toyHash 0#64) trivial exOps_str (Nat.le_refl 256) St.init
example := C65_set (SetContainer.string toyHash 0#64) trivial exOpsS_str (Nat.le_refl 256) St.init
example := C65_map_history (MapContainer.string (V := Nat) toyHash 0#64) trivial
  (ops := [.set (strKey 0x01) 1, .set (strKey 0x11) 2, .del (strKey 0x01), .del (strKey 0x02)]) (by decide +kernel)
  ⟨nofun, nofun,
    (fun _ h => by cases h; exact Or.inl ⟨by decide +kernel, by decide +kernel⟩),
    (fun _ h => by cases h; exact Or.inr ⟨by decide +kernel, by decide +kernel⟩), trivial⟩ (Nat.le_refl 256) St.init
example := C65_set_history (SetContainer.string toyHash 0#64) trivial
  (ops := [.add (strKey 0x01), .add (strKey 0x11), .del (strKey 0x01)]) (SEachNew'.toX _ (by decide +kernel))
  ⟨nofun, nofun,
    (fun _ h => by cases h; exact Or.inl ⟨by decide +kernel, by decide +kernel⟩), trivial⟩ (Nat.le_refl 256) St.init
example := C66_map_partial (MapContainer.string (V := Nat) toyHash 0#64) trivial exOps_str (Nat.le_refl 256) St.init
example := C66_set_partial (SetContainer.string toyHash 0#64) trivial (by decide) exOpsS_str (Nat.le_refl 256) St.init

end Amt
