/-
`Del` with the scratch area `root.path` (amt.go:69) in which it keeps the branches it has come through.  In `Model.lean` the
path is a local variable; here it is a Go slice of the array in the root, as in the code.  The theorem
`deleteS_sim` says that the two programs do the same, whatever is left in the array.
-/
import Verif.PropsRename

set_option linter.unusedVariables false
set_option linter.unusedSectionVars false

namespace Amt

/-! ### Slices -/

/-- `type pathLink struct` (amt.go:134-137). -/
abbrev PathLink := Nat × Option Ref

/-- The slice `path` of `Del` (string_map.go:324).  `arr` is the array `root.path`; `big` is the array that `append` has
allocated since, if there was no room in it; `len` is the length of the slice. -/
structure Slice where
  arr : List PathLink
  big : Option (List PathLink)
  len : Nat

namespace Slice

/-- `m.path[:0]` (string_map.go:324). -/
def empty (arr : List PathLink) : Slice := ⟨arr, none, 0⟩

/-- The elements. -/
def view (p : Slice) : List PathLink :=
  match p.big with
  | none => p.arr.take p.len
  | some b => b.take p.len

/-- `path = append(path, e)` (string_map.go:332): in place if the capacity allows it; else a new array is allocated, and the old
one stays as it is.  (How large the new array is makes no difference.) -/
def append (p : Slice) (e : PathLink) : Slice :=
  match p.big with
  | none =>
    if p.len < p.arr.length then { p with arr := p.arr.set p.len e, len := p.len + 1 }
    else { p with big := some (p.view ++ [e]), len := p.len + 1 }
  | some b => { p with big := some (p.view ++ [e]), len := p.len + 1 }

/-- `path[d].link = nil` (string_map.go:354, 360, 386, 392). -/
def clear {K V : Type} (p : Slice) (d : Nat) : M K V Slice :=
  if d < p.len then
    match p.big with
    | none => pure { p with arr := pathClear p.arr d }
    | some b => pure { p with big := some (pathClear b d) }
  else M.fail .outOfBounds

/-- `path[d].link, path[d].radix` (string_map.go:359, 385). -/
def at' {K V : Type} (p : Slice) (d : Nat) : M K V (Nat × Ref) := pathAt p.view d

/-- `for d != 0 { d--; path[d].link = nil }` (string_map.go:390-393). -/
def clearAll {K V : Type} : (d : Nat) → Slice → M K V Slice
  | 0, p => pure p
  | d + 1, p => do
    let p ← p.clear d
    clearAll d p

/-- The array in the root has twelve elements, and the slice is a part of its array. -/
structure Ok (p : Slice) : Prop where
  twelve : p.arr.length = 12
  fits : match p.big with
    | none => p.len ≤ 12
    | some b => b.length = p.len

end Slice

/-! ### `Del` -/

section
variable {K V : Type} (c : Cfg K)

/-- The search loop of `Del` (string_map.go:331-346). -/
def searchS (s : Seed) (key : K) : (fuel : Nat) → Cur → Slice → M K V (Cur × Slice × Bool)
  | 0, _, _ => M.fail .diverge
  | fuel + 1, cur, p => do
    let lk ← load cur.l
    let radix := radixOf cur.hd
    if lk.pmap &&& bitOf radix ≠ 0#32 then
      let p := p.append (radix, some cur.l)
      let item : Ref := ⟨lk.ptr, rankOf lk.pmap radix⟩
      if lk.tmap &&& bitOf radix = 0#32 then
        searchS s key fuel (descend c s key cur item) p
      else pure (cur, p, true)
    else pure (cur, p, false)

/-- string_map.go:380-393. -/
def collapseS (h : Nat) : (d : Nat) → Slice → (l : Ref) → (count : Nat) → M K V Slice
  | 0, p, _, _ => pure p
  | d + 1, p, l, count => do
    let lk ← load l
    if count = 1 ∧ lk.pmap = lk.tmap then
      let x ← load ⟨lk.ptr, 0⟩
      store l x
      modRoot h fun m => { m with dep := m.dep - 1 }
      let (radix, l') ← p.at' d
      let p ← p.clear d
      modLink l' fun y => { y with tmap := y.tmap ||| bitOf radix }
      let lk' ← load l'
      collapseS h d p l' (popcount lk'.pmap)
    else p.clearAll (d + 1)

/-- string_map.go:356-393. -/
def unlinkS (h : Nat) : (d : Nat) → Slice → (l : Ref) → (idx count : Nat) → M K V Slice
  | 0, p, l, idx, count => do
    shiftBack 0 l idx count
    collapseS h 0 p l count
  | d + 1, p, l, idx, count =>
    if count = 0 then do
      modLink l fun y => { y with ptr := .nil }
      let (radix, l') ← p.at' d
      let p ← p.clear d
      let lk ← load l'
      let idx' := rankOf lk.pmap radix
      modLink l' fun y => { y with pmap := y.pmap &&& ~~~bitOf radix, tmap := y.tmap &&& ~~~bitOf radix }
      let lk' ← load l'
      unlinkS h d p l' idx' (popcount lk'.pmap)
    else do
      shiftBack (d + 1) l idx count
      collapseS h (d + 1) p l count

/-- string_map.go:347-394.  If the key is missing (line 348) the path is left as it is. -/
def removeS (h : Nat) (skip : Bool → Bool) (key : K) (cur : Cur) (p : Slice) : M K V Slice := do
  let item ← itemRef cur
  let x ← load item
  let k ← readKey c x
  if skip (c.eq key k) then pure p
  else
    let lk ← load cur.l
    let radix := radixOf cur.hd
    modLink cur.l fun y => { y with pmap := y.pmap &&& ~~~bitOf radix, tmap := y.tmap &&& ~~~bitOf radix }
    modRoot h fun m => { m with len := m.len - 1, dep := m.dep - BitVec.ofNat 64 cur.d }
    let p ← p.clear cur.d
    let lk' ← load cur.l
    unlinkS h cur.d p cur.l (rankOf lk.pmap radix) (popcount lk'.pmap)

/-- `Del` (string_map.go:323-396), given the contents of `root.path`; it returns the contents afterwards. -/
def deleteS (h fuel : Nat) (skip : Bool → Bool) (key : K) (path : List PathLink) : M K V (List PathLink) := do
  let r ← getRoot h
  let x ← searchS c r.seed key fuel (start c r.seed key h) (Slice.empty path)
  if x.2.2 then do
    let p ← removeS c h skip key x.1 x.2.1
    pure p.arr
  else pure x.2.1.arr

end

/-! ### Slices behave as lists -/

namespace Slice
variable {K V : Type} {p q : Slice} {e : PathLink} {d : Nat}

theorem Ok.empty {arr : List PathLink} (h : arr.length = 12) : (Slice.empty arr).Ok := ⟨h, by simp [Slice.empty]⟩

theorem view_empty (arr : List PathLink) : (Slice.empty arr).view = [] := by simp [Slice.empty, view]

theorem Ok.length_view (h : p.Ok) : p.view.length = p.len := by
  obtain ⟨h1, h2⟩ := h
  cases hb : p.big with
  | none => rw [hb] at h2; simp only [view, hb, List.length_take]; omega
  | some b => rw [hb] at h2; simp only [view, hb, List.length_take]; omega

theorem Ok.append (h : p.Ok) (e : PathLink) : (p.append e).Ok := by
  have hl := h.length_view
  obtain ⟨h1, h2⟩ := h
  rw [Slice.append]
  cases hb : p.big with
  | none =>
    rw [hb] at h2
    dsimp only at h2 ⊢
    split
    · exact ⟨by simpa using h1, show p.len + 1 ≤ 12 by omega⟩
    · exact ⟨h1, by simp [hl]⟩
  | some b => exact ⟨h1, by simp [hl]⟩

theorem Ok.view_append (h : p.Ok) (e : PathLink) : (p.append e).view = p.view ++ [e] := by
  have hl := h.length_view
  obtain ⟨h1, h2⟩ := h
  rw [Slice.append]
  cases hb : p.big with
  | none =>
    rw [hb] at h2
    dsimp only at h2 ⊢
    split
    · rename_i hlt
      simp only [view, hb]
      rw [List.take_add_one, List.getElem?_set_self hlt, List.take_set_of_le (Nat.le_refl _)]
      rfl
    · simp only [view, hb] at hl ⊢
      exact List.take_of_length_le (by simp [hl])
  | some b =>
    simp only [view, hb] at hl ⊢
    exact List.take_of_length_le (by simp [hl])

theorem pathClear_take (l : List PathLink) (n d : Nat) (h : d < n) : pathClear (l.take n) d = (pathClear l d).take n := by
  apply List.ext_getElem?
  intro i
  simp only [pathClear, List.getElem?_modify, List.getElem?_take]
  by_cases h1 : i < n
  · simp [h1]
  · simp [h1]

theorem length_pathClear (l : List PathLink) (d : Nat) : (pathClear l d).length = l.length := by simp [pathClear]

theorem clear_eq (h : p.Ok) (hd : d < p.len) :
    ∃ q : Slice, (p.clear d : M K V Slice) = pure q ∧ q.Ok ∧ q.view = pathClear p.view d ∧ q.len = p.len := by
  obtain ⟨h1, h2⟩ := h
  rw [clear, if_pos hd]
  cases hb : p.big with
  | none =>
    rw [hb] at h2
    exact ⟨_, rfl, ⟨by simpa [length_pathClear] using h1, by simpa [hb] using h2⟩, by simp only [view, hb, pathClear_take _ _ _ hd], rfl⟩
  | some b =>
    rw [hb] at h2
    exact ⟨_, rfl, ⟨h1, by simpa [length_pathClear] using h2⟩, by simp only [view, hb, pathClear_take _ _ _ hd], rfl⟩

theorem clearAll_eq (h : p.Ok) (hd : d ≤ p.len) : ∃ q : Slice, (p.clearAll d : M K V Slice) = pure q ∧ q.Ok := by
  induction d generalizing p with
  | zero => exact ⟨p, rfl, h⟩
  | succ d ih =>
    obtain ⟨q, e, hq, _, hl⟩ := clear_eq (K := K) (V := V) h (show d < p.len by omega)
    obtain ⟨q', e', hq'⟩ := ih hq (by omega)
    exact ⟨q', by rw [clearAll, e, pure_bind_M, e'], hq'⟩

end Slice

/-! ### The two programs do the same -/

section
variable {K V : Type} {α β γ δ : Type}

/-- `x` and `y` do the same to the memory and fail in the same way; their results are related by `R`. -/
def Sims (R : α → β → Prop) (x : M K V α) (y : M K V β) : Prop :=
  ∀ s, match x s, y s with
    | .ok (a, s₁), .ok (b, s₂) => s₁ = s₂ ∧ R a b
    | .error e₁, .error e₂ => e₁ = e₂
    | _, _ => False

theorem Sims.bind {R : α → β → Prop} {Q : γ → δ → Prop} {x : M K V α} {y : M K V β} {f : α → M K V γ} {g : β → M K V δ}
    (h : Sims R x y) (hf : ∀ a b, R a b → Sims Q (f a) (g b)) : Sims Q (x >>= f) (y >>= g) := by
  intro s
  have h1 := h s
  rw [bind_run, bind_run]
  revert h1
  rcases x s with e | ⟨a, s₁⟩ <;> rcases y s with e' | ⟨b, s₂⟩ <;> intro h1
  · exact h1
  · exact False.elim h1
  · exact False.elim h1
  · obtain ⟨rfl, h2⟩ := h1
    exact hf a b h2 s₁

theorem Sims.refl (x : M K V α) : Sims Eq x x := by
  intro s
  rcases x s with e | ⟨a, s₁⟩
  · rfl
  · exact ⟨rfl, rfl⟩

theorem Sims.pure {R : α → β → Prop} {a : α} {b : β} (h : R a b) : Sims (K := K) (V := V) R (Pure.pure a) (Pure.pure b) :=
  fun s => ⟨rfl, h⟩

theorem Sims.same {Q : γ → δ → Prop} {x : M K V α} {f : α → M K V γ} {g : α → M K V δ} (hf : ∀ a, Sims Q (f a) (g a)) :
    Sims Q (x >>= f) (x >>= g) := (Sims.refl x).bind fun a b e => e ▸ hf a

theorem bind_pure_M (x : M K V α) : (x >>= fun a => Pure.pure a) = x := by
  funext s
  rw [bind_run]
  rcases x s with e | ⟨a, s₁⟩ <;> rfl

theorem collapseS_sim (h : Nat) (d : Nat) {p : Slice} (hp : p.Ok) (hd : d ≤ p.len) (l : Ref) (count : Nat) :
    Sims (K := K) (V := V) (fun q _ => q.Ok) (collapseS h d p l count) (collapse h d p.view l count) := by
  induction d generalizing p l count with
  | zero => exact Sims.pure hp
  | succ d ih =>
    rw [collapseS, collapse]
    refine Sims.same fun lk => ?_
    split
    · refine Sims.same fun x => Sims.same fun _ => Sims.same fun _ => Sims.same fun ⟨radix, l'⟩ => ?_
      dsimp only
      obtain ⟨q, e, hq, hv, hl⟩ := Slice.clear_eq (K := K) (V := V) hp (show d < p.len by omega)
      rw [e, pure_bind_M, ← hv]
      exact Sims.same fun _ => Sims.same fun _ => ih hq (by omega) _ _
    · obtain ⟨q, e, hq⟩ := Slice.clearAll_eq (K := K) (V := V) hp hd
      rw [e]
      exact Sims.pure hq

theorem unlinkS_sim (h : Nat) (d : Nat) {p : Slice} (hp : p.Ok) (hd : d ≤ p.len) (l : Ref) (idx count : Nat) :
    Sims (K := K) (V := V) (fun q _ => q.Ok) (unlinkS h d p l idx count) (unlink h d p.view l idx count) := by
  induction d generalizing p l idx count with
  | zero =>
    rw [unlinkS, unlink]
    exact Sims.same fun _ => collapseS_sim h 0 hp hd l count
  | succ d ih =>
    rw [unlinkS, unlink]
    split
    · refine Sims.same fun _ => Sims.same fun ⟨radix, l'⟩ => ?_
      dsimp only
      obtain ⟨q, e, hq, hv, hl⟩ := Slice.clear_eq (K := K) (V := V) hp (show d < p.len by omega)
      rw [e, pure_bind_M, ← hv]
      exact Sims.same fun _ => Sims.same fun _ => Sims.same fun _ => ih hq (by omega) _ _ _
    · exact Sims.same fun _ => collapseS_sim h (d + 1) hp hd l count

/-- The variables of the two search loops. -/
structure CurS (cur : Cur) (p : Slice) (cur' : Cur) : Prop where
  l : cur.l = cur'.l
  d : cur.d = cur'.d
  hd : cur.hd = cur'.hd
  w : cur.w = cur'.w
  ok : p.Ok
  view : p.view = cur'.path

variable (c : Cfg K)

theorem descend_S {s : Seed} {key : K} {cur cur' : Cur} {p : Slice} (h : CurS cur p cur') (item : Ref) :
    CurS (descend c s key cur item) p (descend c s key cur' item) := by
  simp only [descend, h.d, h.hd, h.w]
  split
  · exact ⟨rfl, rfl, rfl, rfl, h.ok, h.view⟩
  · exact ⟨rfl, rfl, rfl, rfl, h.ok, h.view⟩

theorem searchS_sim (s : Seed) (key : K) (fuel : Nat) {cur cur' : Cur} {p : Slice} (h : CurS cur p cur') (hd : cur'.d ≤ cur'.path.length) :
    Sims (K := K) (V := V) (fun a b => CurS a.1 a.2.1 b.1 ∧ a.2.2 = b.2 ∧ (b.2 = true → b.1.d < b.1.path.length))
      (searchS c s key fuel cur p) (search c s key fuel cur') := by
  induction fuel generalizing cur cur' p with
  | zero => exact fun _ => rfl
  | succ fuel ih =>
    rw [searchS, search, h.l]
    refine Sims.same fun lk => ?_
    rw [h.hd]
    have h1 : CurS cur (p.append (radixOf cur'.hd, some cur'.l)) { cur' with path := cur'.path ++ [(radixOf cur'.hd, some cur'.l)] } :=
      ⟨h.l, h.d, h.hd, h.w, h.ok.append _, by rw [h.ok.view_append, h.view]⟩
    dsimp only
    split
    · split
      · refine ih (descend_S c h1 _) ?_
        have : ∀ (C : Cur) (item : Ref), (descend c s key C item).path = C.path ∧ (descend c s key C item).d ≤ C.d + 1 := by
          intro C item
          rw [descend]
          split
          · exact ⟨rfl, Nat.mod_le _ _⟩
          · exact ⟨rfl, Nat.mod_le _ _⟩
        have := this { cur' with path := cur'.path ++ [(radixOf cur'.hd, some cur'.l)] } ⟨lk.ptr, rankOf lk.pmap (radixOf cur'.hd)⟩
        rw [this.1]
        simp only [List.length_append, List.length_cons, List.length_nil]
        have := this.2
        dsimp only at this
        omega
      · exact Sims.pure ⟨h1, rfl, fun _ => by simp; omega⟩
    · exact Sims.pure ⟨h, rfl, fun e => by cases e⟩

theorem removeS_sim (h : Nat) (skip : Bool → Bool) (key : K) {cur cur' : Cur} {p : Slice} (hc : CurS cur p cur') (hd : cur'.d < cur'.path.length) :
    Sims (K := K) (V := V) (fun q _ => q.Ok) (removeS c h skip key cur p) (remove c h skip key cur') := by
  have hlen : cur'.path.length = p.len := by rw [← hc.view]; exact hc.ok.length_view
  have hi : (itemRef cur : M K V Ref) = itemRef cur' := by rw [itemRef, itemRef, hc.l, hc.hd]
  rw [removeS, remove, hi]
  refine Sims.same fun item => Sims.same fun x => Sims.same fun k => ?_
  split
  · exact Sims.pure hc.ok
  · rw [hc.l, hc.hd, hc.d]
    refine Sims.same fun lk => Sims.same fun _ => Sims.same fun _ => ?_
    obtain ⟨q, e, hq, hv, hl⟩ := Slice.clear_eq (K := K) (V := V) hc.ok (show cur'.d < p.len by omega)
    rw [e, pure_bind_M, ← hc.view, ← hv]
    exact Sims.same fun _ => unlinkS_sim h cur'.d hq (by omega) _ _ _

/-- Whatever is left in `root.path`, `Del` does what it does with a path of its own, and there are twelve elements in it
afterwards. -/
theorem deleteS_sim (h fuel : Nat) (skip : Bool → Bool) (key : K) {path : List PathLink} (hp : path.length = 12) :
    Sims (K := K) (V := V) (fun path' _ => path'.length = 12) (deleteS c h fuel skip key path) (delete c h fuel skip key) := by
  rw [deleteS, delete]
  refine Sims.same fun r => ?_
  refine (searchS_sim c r.seed key fuel (cur' := start c r.seed key h) (cur := start c r.seed key h) (p := Slice.empty path)
    ⟨rfl, rfl, rfl, rfl, .empty hp, Slice.view_empty path⟩ (by simp [start])).bind ?_
  rintro ⟨cur, p, b⟩ ⟨cur', b'⟩ ⟨h1, h2, h3⟩
  dsimp only at h1 h2 h3 ⊢
  subst h2
  cases b with
  | false => exact Sims.pure h1.ok.twelve
  | true =>
    rw [if_pos rfl, if_pos rfl]
    have := removeS_sim (V := V) c h skip key h1 (h3 rfl)
    have e : (remove c h skip key cur' : M K V Unit) = (remove c h skip key cur' >>= fun a => Pure.pure a) := (bind_pure_M _).symm
    rw [e]
    exact this.bind fun q _ hq => Sims.pure hq.twelve

/-! ### What is left in the scratch area -/

/-- If `x` returns, its result satisfies `Q`. -/
def Post (x : M K V α) (Q : α → Prop) : Prop := ∀ s a s', x s = .ok (a, s') → Q a

theorem Post.bind {x : M K V α} {f : α → M K V β} {Q : β → Prop} (h : ∀ a, Post (f a) Q) : Post (x >>= f) Q := by
  intro s b s' e
  rw [bind_run] at e
  rcases hx : x s with e' | ⟨a, s₁⟩
  · rw [hx] at e; cases e
  · rw [hx] at e; exact h a _ _ _ e

theorem Post.seq {x : M K V α} {f : α → M K V β} {R : α → Prop} {Q : β → Prop} (hx : Post x R) (h : ∀ a, R a → Post (f a) Q) :
    Post (x >>= f) Q := by
  intro s b s' e
  rw [bind_run] at e
  rcases hx' : x s with e' | ⟨a, s₁⟩
  · rw [hx'] at e; cases e
  · rw [hx'] at e; exact h a (hx _ _ _ hx') _ _ _ e

theorem Post.pure {a : α} {Q : α → Prop} (h : Q a) : Post (K := K) (V := V) (Pure.pure a) Q := by
  intro s b s' e
  cases e
  exact h

theorem Post.fail {e : Fault} {Q : α → Prop} : Post (K := K) (V := V) (M.fail e) Q := by
  intro s b s' h
  cases h

/-- From index `d` on there is no link. -/
def NoLinksFrom (d : Nat) (l : List PathLink) : Prop := ∀ i, d ≤ i → ∀ r o, l[i]? = some (r, o) → o = none

theorem NoLinksFrom.clear {d : Nat} {l : List PathLink} (h : NoLinksFrom (d + 1) l) : NoLinksFrom d (pathClear l d) := by
  intro i hi r o e
  rw [pathClear, List.getElem?_modify] at e
  by_cases hid : d = i
  · subst hid
    cases hl : l[d]? with
    | none => rw [hl] at e; cases e
    | some x => rw [hl] at e; simp at e; exact e.2.symm
  · exact h i (by omega) r o (by simpa [hid] using e)

/-- What clearing does to the array in the root: it clears the elements from `d` on, or it has no effect because the slice
has another array by now. -/
structure Wipes (d : Nat) (p q : Slice) : Prop where
  here : p.big = none → NoLinksFrom d p.arr → q.big = none ∧ NoLinksFrom 0 q.arr
  there : p.big ≠ none → q.arr = p.arr ∧ q.big ≠ none

theorem clear_post (p : Slice) (d : Nat) : Post (K := K) (V := V) (p.clear d)
    (fun q => (p.big = none → q.big = none ∧ q.arr = pathClear p.arr d) ∧ (p.big ≠ none → q.arr = p.arr ∧ q.big ≠ none)) := by
  rw [Slice.clear]
  split
  · cases hb : p.big with
    | none => exact Post.pure ⟨fun _ => ⟨rfl, rfl⟩, fun h => absurd rfl h⟩
    | some b => exact Post.pure ⟨(fun h => by cases h), (fun _ => ⟨rfl, by simp⟩)⟩
  · exact Post.fail

theorem Wipes.clear {d : Nat} {p q q' : Slice}
    (h : (p.big = none → q.big = none ∧ q.arr = pathClear p.arr d) ∧ (p.big ≠ none → q.arr = p.arr ∧ q.big ≠ none))
    (h' : Wipes d q q') : Wipes (d + 1) p q' := by
  constructor
  · intro hb hn
    obtain ⟨h1, h2⟩ := h.1 hb
    exact h'.here h1 (h2 ▸ hn.clear)
  · intro hb
    obtain ⟨h1, h2⟩ := h.2 hb
    obtain ⟨h3, h4⟩ := h'.there h2
    exact ⟨h3.trans h1, h4⟩

theorem Wipes.refl (p : Slice) : Wipes 0 p p := ⟨fun h1 h2 => ⟨h1, h2⟩, fun h => ⟨rfl, h⟩⟩

theorem clearAll_post (d : Nat) (p : Slice) : Post (K := K) (V := V) (p.clearAll d) (Wipes d p) := by
  induction d generalizing p with
  | zero => exact Post.pure (.refl p)
  | succ d ih =>
    rw [Slice.clearAll]
    exact (clear_post p d).seq fun q hq s a s' e => Wipes.clear hq (ih q s a s' e)

theorem collapseS_post (h d : Nat) (p : Slice) (l : Ref) (count : Nat) :
    Post (K := K) (V := V) (collapseS h d p l count) (Wipes d p) := by
  induction d generalizing p l count with
  | zero => exact Post.pure (.refl p)
  | succ d ih =>
    rw [collapseS]
    refine Post.bind fun lk => ?_
    split
    · refine Post.bind fun x => Post.bind fun _ => Post.bind fun _ => Post.bind fun ⟨radix, l'⟩ => ?_
      exact (clear_post p d).seq fun q hq => Post.bind fun _ => Post.bind fun _ s a s' e => Wipes.clear hq (ih q _ _ s a s' e)
    · exact clearAll_post (d + 1) p

theorem unlinkS_post (h d : Nat) (p : Slice) (l : Ref) (idx count : Nat) :
    Post (K := K) (V := V) (unlinkS h d p l idx count) (Wipes d p) := by
  induction d generalizing p l idx count with
  | zero =>
    rw [unlinkS]
    exact Post.bind fun _ => collapseS_post h 0 p l count
  | succ d ih =>
    rw [unlinkS]
    split
    · refine Post.bind fun _ => Post.bind fun ⟨radix, l'⟩ => ?_
      exact (clear_post p d).seq fun q hq => Post.bind fun _ => Post.bind fun _ => Post.bind fun _ s a s' e =>
        Wipes.clear hq (ih q _ _ _ s a s' e)
    · exact Post.bind fun _ => collapseS_post h (d + 1) p l count

/-- The slice during the search: the array in the root holds its first elements, and what it held before behind them. -/
structure Fresh (path : List PathLink) (p : Slice) : Prop where
  ok : p.Ok
  arr : ∀ i, p.arr[i]? = if i < p.len ∧ i < 12 then p.view[i]? else path[i]?
  big : p.big = none ↔ p.len ≤ 12

theorem Fresh.empty {path : List PathLink} (h : path.length = 12) : Fresh path (Slice.empty path) :=
  ⟨.empty h, fun i => by simp [Slice.empty], by simp [Slice.empty]⟩

theorem Fresh.append {path : List PathLink} {p : Slice} (h : Fresh path p) (e : PathLink) : Fresh path (p.append e) := by
  have hl := h.ok.length_view
  have hv := h.ok.view_append e
  refine ⟨h.ok.append e, fun i => ?_, ?_⟩
  · rw [hv]
    have h1 := h.arr i
    rw [Slice.append]
    cases hb : p.big with
    | none =>
      have hle := h.big.1 hb
      have h12 := h.ok.twelve
      dsimp only
      split
      · rename_i hlt
        dsimp only
        by_cases hi : i = p.len
        · subst hi
          rw [List.getElem?_set_self hlt, if_pos (by omega), List.getElem?_append_right (by omega)]
          simp [hl]
        · rw [List.getElem?_set_ne (by omega), h1]
          by_cases hi' : i < p.len
          · rw [if_pos (by omega), if_pos (by omega), List.getElem?_append_left (by omega)]
          · rw [if_neg (by omega), if_neg (by omega)]
      · dsimp only
        rw [h1]
        by_cases hi' : i < 12
        · rw [if_pos (by omega), if_pos (by omega), List.getElem?_append_left (by omega)]
        · rw [if_neg (by omega), if_neg (by omega)]
    | some b =>
      have hgt : 12 < p.len := Nat.lt_of_not_le fun hle => by
        have := h.big.2 hle
        rw [hb] at this
        cases this
      dsimp only
      rw [h1]
      by_cases hi' : i < 12
      · rw [if_pos (by omega), if_pos (by omega), List.getElem?_append_left (by omega)]
      · rw [if_neg (by omega), if_neg (by omega)]
  · rw [Slice.append]
    have h12 := h.ok.twelve
    cases hb : p.big with
    | none =>
      dsimp only
      split
      · simp; omega
      · simp; omega
    | some b =>
      have hgt : 12 < p.len := Nat.lt_of_not_le fun hle => by
        have := h.big.2 hle
        rw [hb] at this
        cases this
      simp
      omega

theorem searchS_post (s : Seed) (key : K) (fuel : Nat) (cur : Cur) {p : Slice} {path : List PathLink} (h : Fresh path p) :
    Post (K := K) (V := V) (searchS c s key fuel cur p) (fun a => Fresh path a.2.1) := by
  induction fuel generalizing cur p with
  | zero => exact Post.fail
  | succ fuel ih =>
    rw [searchS]
    refine Post.bind fun lk => ?_
    dsimp only
    split
    · split
      · exact ih _ (h.append _)
      · exact Post.pure (h.append _)
    · exact Post.pure h

theorem descend_path (sd : Seed) (key : K) (C : Cur) (item : Ref) :
    (descend c sd key C item).path = C.path ∧ (descend c sd key C item).d = (C.d + 1) % 256 := by
  rw [descend]
  split
  · exact ⟨rfl, rfl⟩
  · exact ⟨rfl, rfl⟩

/-- The path has one element for each branch visited; but at a free slot the search stops before it appends one. -/
structure Found (c : Cfg K) (sd : Seed) (key : K) (fuel : Nat) (cur : Cur) (s : St K V) (cur' : Cur) (b : Bool) : Prop where
  deep : b = true → cur'.d = (cur'.path.length - 1) % 256
  links : ∀ e ∈ cur'.path, e.2 ≠ none
  rounds : ∃ n, n ≤ fuel ∧ search c sd key n cur s = .ok ((cur', b), s) ∧
    cur'.path.length + (if b = true then 0 else 1) = cur.path.length + n

theorem search_found {sd : Seed} {key : K} {fuel : Nat} {cur cur' : Cur} {b : Bool} {s s' : St K V}
    (h : search c sd key fuel cur s = .ok ((cur', b), s')) (hd : cur.d = cur.path.length % 256) (hl : ∀ e ∈ cur.path, e.2 ≠ none) :
    s' = s ∧ Found c sd key fuel cur s cur' b := by
  induction fuel generalizing cur with
  | zero => cases h
  | succ fuel ih =>
    rw [search, bind_run] at h
    rcases hlk : load cur.l s with e | ⟨lk, s₁⟩
    · rw [hlk] at h; cases h
    have hs : s₁ = s := by
      rw [load] at hlk
      revert hlk
      repeat' split
      all_goals intro e; cases e
      rfl
    subst hs
    have hstep : ∀ n, search c sd key (n + 1) cur s₁ = (if lk.pmap &&& bitOf (radixOf cur.hd) ≠ 0#32 then
        if lk.tmap &&& bitOf (radixOf cur.hd) = 0#32 then
          search c sd key n (descend c sd key { cur with path := cur.path ++ [(radixOf cur.hd, some cur.l)] }
            ⟨lk.ptr, rankOf lk.pmap (radixOf cur.hd)⟩)
        else pure ({ cur with path := cur.path ++ [(radixOf cur.hd, some cur.l)] }, true)
      else pure (cur, false)) s₁ := by
      intro n
      rw [search, bind_run, hlk]
    rw [hlk] at h
    dsimp only at h
    have hl' : ∀ e ∈ cur.path ++ [(radixOf cur.hd, some cur.l)], e.2 ≠ none := by
      intro e he
      rcases List.mem_append.1 he with he | he
      · exact hl e he
      · rw [List.mem_singleton.1 he]; simp
    split at h
    · rename_i hp
      split at h
      · rename_i ht
        have hdp := descend_path c sd key { cur with path := cur.path ++ [(radixOf cur.hd, some cur.l)] } ⟨lk.ptr, rankOf lk.pmap (radixOf cur.hd)⟩
        dsimp only at hdp
        obtain ⟨h1, h2, h3, n, h4, h5, h6⟩ := ih h (by rw [hdp.1, hdp.2, hd]; simp) (by rw [hdp.1]; exact hl')
        refine ⟨h1, h2, h3, n + 1, by omega, ?_, ?_⟩
        · rw [hstep, if_pos hp, if_pos ht, h5]
        · rw [hdp.1, List.length_append] at h6
          simp only [List.length_cons, List.length_nil] at h6
          omega
      · rename_i ht
        cases h
        refine ⟨rfl, fun _ => by simp [hd], hl', 1, by omega, ?_, by simp⟩
        rw [hstep, if_pos hp, if_neg ht]
        rfl
    · rename_i hp
      cases h
      refine ⟨rfl, (by intro h; cases h), hl, 1, by omega, ?_, by simp⟩
      rw [hstep, if_neg hp]
      rfl

/-- The scratch area holds the first twelve elements of the path, and what was there before behind them. -/
def Left (path : List PathLink) (cur : Cur) (path' : List PathLink) : Prop :=
  ∀ i, path'[i]? = if i < cur.path.length ∧ i < 12 then cur.path[i]? else path[i]?

/-- `x` leaves the length of the container `h` as it is. -/
def KeepsLen (h : Nat) (x : M K V α) : Prop := ∀ s a s', x s = .ok (a, s') → (s'.roots h).len = (s.roots h).len

theorem KeepsLen.bind {h : Nat} {x : M K V α} {f : α → M K V β} (hx : KeepsLen h x) (hf : ∀ a, KeepsLen h (f a)) : KeepsLen h (x >>= f) := by
  intro s b s' e
  rw [bind_run] at e
  rcases hx' : x s with e' | ⟨a, s₁⟩
  · rw [hx'] at e; cases e
  · rw [hx'] at e; exact (hf a _ _ _ e).trans (hx _ _ _ hx')

theorem KeepsLen.pure {h : Nat} (a : α) : KeepsLen (K := K) (V := V) h (Pure.pure a) := by
  intro s b s' e
  cases e
  rfl

theorem KeepsLen.fail {h : Nat} (e : Fault) : KeepsLen (K := K) (V := V) (α := α) h (M.fail e) := by
  intro s b s' e
  cases e

theorem KeepsLen.load {h : Nat} (r : Ref) : KeepsLen (K := K) (V := V) h (Amt.load r) := by
  intro s b s' e
  rw [Amt.load] at e
  revert e
  repeat' split
  all_goals intro e; cases e
  rfl

theorem KeepsLen.store {h : Nat} (r : Ref) (x : Link) : KeepsLen (K := K) (V := V) h (Amt.store r x) := by
  intro s b s' e
  rw [Amt.store] at e
  revert e
  repeat' split
  all_goals intro e; cases e
  rfl

theorem KeepsLen.modLink {h : Nat} (r : Ref) (f : Link → Link) : KeepsLen (K := K) (V := V) h (Amt.modLink r f) :=
  (load r).bind fun _ => store r _

theorem KeepsLen.modRoot {h : Nat} {f : Meta → Meta} (hf : ∀ m, (f m).len = m.len) : KeepsLen (K := K) (V := V) h (Amt.modRoot h f) := by
  intro s b s' e
  cases e
  simp [hf]

theorem KeepsLen.newLinkArray {h : Nat} (n : Nat) : KeepsLen (K := K) (V := V) h (Amt.newLinkArray n) := by
  intro s b s' e
  rw [Amt.newLinkArray] at e
  revert e
  repeat' split
  all_goals intro e; cases e; rfl

theorem KeepsLen.clear {h : Nat} (p : Slice) (d : Nat) : KeepsLen (K := K) (V := V) h (p.clear d) := by
  rw [Slice.clear]
  repeat' split
  · exact .pure _
  · exact .pure _
  · exact .fail _

theorem KeepsLen.clearAll {h : Nat} (p : Slice) (d : Nat) : KeepsLen (K := K) (V := V) h (p.clearAll d) := by
  induction d generalizing p with
  | zero => exact .pure _
  | succ d ih => exact (clear p d).bind fun q => ih q

theorem KeepsLen.pathAt {h : Nat} (p : List PathLink) (d : Nat) : KeepsLen (K := K) (V := V) h (pathAt p d) := by
  rw [Amt.pathAt]
  repeat' split
  · exact .fail _
  · exact .fail _
  · exact .pure _

theorem KeepsLen.copyUp {h : Nat} (dst src : Ptr) (a b n i : Nat) : KeepsLen (K := K) (V := V) h (copyUp dst src a b n i) := by
  induction n generalizing i with
  | zero => exact .pure _
  | succ n ih => exact (load _).bind fun _ => (store _ _).bind fun _ => ih _

theorem KeepsLen.shiftBack {h : Nat} (d : Nat) (l : Ref) (idx count : Nat) : KeepsLen (K := K) (V := V) h (shiftBack d l idx count) := by
  rw [Amt.shiftBack]
  refine (load _).bind fun _ => ?_
  split
  · exact (newLinkArray _).bind fun _ => (modLink _ _).bind fun _ => (copyUp _ _ _ _ _ _).bind fun _ => copyUp _ _ _ _ _ _
  · exact copyUp _ _ _ _ _ _

theorem KeepsLen.collapseS {h : Nat} (d : Nat) (p : Slice) (l : Ref) (count : Nat) :
    KeepsLen (K := K) (V := V) h (collapseS h d p l count) := by
  induction d generalizing p l count with
  | zero => exact .pure _
  | succ d ih =>
    rw [Amt.collapseS]
    refine (load _).bind fun _ => ?_
    split
    · exact (load _).bind fun _ => (store _ _).bind fun _ => (modRoot (f := fun m => { m with dep := m.dep - 1 }) fun _ => rfl).bind fun _ => (pathAt _ _).bind fun ⟨_, _⟩ =>
        (clear _ _).bind fun _ => (modLink _ _).bind fun _ => (load _).bind fun _ => ih _ _ _
    · exact clearAll _ _

theorem KeepsLen.unlinkS {h : Nat} (d : Nat) (p : Slice) (l : Ref) (idx count : Nat) :
    KeepsLen (K := K) (V := V) h (unlinkS h d p l idx count) := by
  induction d generalizing p l idx count with
  | zero => exact (shiftBack _ _ _ _).bind fun _ => collapseS _ _ _ _
  | succ d ih =>
    rw [Amt.unlinkS]
    split
    · exact (modLink _ _).bind fun _ => (pathAt _ _).bind fun ⟨_, _⟩ => (clear _ _).bind fun _ => (load _).bind fun _ =>
        (modLink _ _).bind fun _ => (load _).bind fun _ => ih _ _ _ _
    · exact (shiftBack _ _ _ _).bind fun _ => collapseS _ _ _ _

theorem Reader.same {x : M K V α} (hx : Reader x) {s s' : St K V} {a : α} (e : x s = .ok (a, s')) : s' = s := by
  obtain ⟨r, h1, _⟩ := hx s s (SameShape.refl s)
  rw [h1] at e
  cases r with
  | error => cases e
  | ok b => cases e; rfl

theorem bind_ok_inv {x : M K V α} {f : α → M K V β} {s s' : St K V} {b : β} (e : (x >>= f) s = .ok (b, s')) :
    ∃ a s₁, x s = .ok (a, s₁) ∧ f a s₁ = .ok (b, s') := by
  rw [bind_run] at e
  rcases hx : x s with e' | ⟨a, s₁⟩
  · rw [hx] at e; cases e
  · rw [hx] at e; exact ⟨a, s₁, rfl, e⟩

/-- What `removeS` leaves in the array of the root. -/
theorem removeS_left {h : Nat} {skip : Bool → Bool} {key : K} {cur : Cur} {p q : Slice} {s s' : St K V}
    (e : removeS c h skip key cur p s = .ok (q, s')) :
    ∃ item x k, itemRef cur s = .ok (item, s) ∧ load item s = .ok (x, s) ∧ readKey c x s = .ok (k, s) ∧
      if skip (c.eq key k) = true then q = p ∧ s' = s
      else Wipes (cur.d + 1) p q ∧ (s'.roots h).len = (s.roots h).len - 1 := by
  rw [removeS] at e
  obtain ⟨item, s₁, e1, e⟩ := bind_ok_inv e
  have hr : Reader (K := K) (V := V) (itemRef cur) := (Reader.load _).bind fun _ => Reader.pure _
  have hs := hr.same e1
  rw [hs] at e1 e
  obtain ⟨x, s₁, e2, e⟩ := bind_ok_inv e
  have hs := (Reader.load _).same e2
  rw [hs] at e2 e
  obtain ⟨k, s₁, e3, e⟩ := bind_ok_inv e
  have hs := (Reader.readKey c x).same e3
  rw [hs] at e3 e
  refine ⟨item, x, k, e1, e2, e3, ?_⟩
  split at e
  · rename_i hs
    rw [if_pos hs]
    cases e
    exact ⟨rfl, rfl⟩
  · rename_i hs
    rw [if_neg hs]
    obtain ⟨lk, s₂, e4, e⟩ := bind_ok_inv e
    rw [(Reader.load _).same e4] at e
    obtain ⟨_, s₃, e5, e⟩ := bind_ok_inv e
    obtain ⟨_, s₄, e6, e⟩ := bind_ok_inv e
    obtain ⟨p₁, s₅, e7, e⟩ := bind_ok_inv e
    obtain ⟨lk', s₆, e8, e⟩ := bind_ok_inv e
    have h1 := KeepsLen.modLink (h := h) _ _ _ _ _ e5
    have h2 : (s₄.roots h).len = (s₃.roots h).len - 1 := by cases e6; simp
    have h3 := KeepsLen.clear (h := h) _ _ _ _ _ e7
    have h4 := KeepsLen.load (h := h) _ _ _ _ e8
    have h5 := KeepsLen.unlinkS _ _ _ _ _ _ _ _ e
    exact ⟨Wipes.clear (clear_post p cur.d _ _ _ e7) (unlinkS_post h cur.d p₁ _ _ _ _ _ _ e), by rw [h5, h4, h3, h2, h1]⟩

/-- What `Del` leaves in the scratch area, in any memory: the links it has come through, unless it has removed an entry (that
is, unless the key at the slot is the one it looks for) and there were at most twelve of them. -/
theorem deleteS_left {h fuel : Nat} {skip : Bool → Bool} {key : K} {path path' : List PathLink} (hp : path.length = 12) {s s' : St K V}
    (e : deleteS c h fuel skip key path s = .ok (path', s')) :
    ∃ cur hit, search c (s.roots h).seed key fuel (start c (s.roots h).seed key h) s = .ok ((cur, hit), s) ∧
      if hit = true then
        ∃ item x k, itemRef cur s = .ok (item, s) ∧ load item s = .ok (x, s) ∧ readKey c x s = .ok (k, s) ∧
          if skip (c.eq key k) = true then Left path cur path' ∧ s' = s
          else (s'.roots h).len = (s.roots h).len - 1 ∧
            if cur.path.length ≤ 12 then NoLinksFrom 0 path → NoLinksFrom 0 path' else Left path cur path'
      else Left path cur path' ∧ s' = s := by
  rw [deleteS] at e
  obtain ⟨r, s₁, e1, e⟩ := bind_ok_inv e
  obtain rfl : s₁ = s := (Reader.getRoot h).same e1
  obtain rfl : s₁.roots h = r := by cases e1; rfl
  obtain ⟨⟨cur, p, hit⟩, s₂, e2, e⟩ := bind_ok_inv e
  have hpost := searchS_post c (s₁.roots h).seed key fuel (start c (s₁.roots h).seed key h) (Fresh.empty hp) _ _ _ e2
  have hsim := searchS_sim (V := V) c (s₁.roots h).seed key fuel (cur := start c (s₁.roots h).seed key h) (cur' := start c (s₁.roots h).seed key h)
    (p := Slice.empty path) ⟨rfl, rfl, rfl, rfl, .empty hp, Slice.view_empty path⟩ (by simp [start]) s₁
  rw [e2] at hsim
  rcases hse : search c (s₁.roots h).seed key fuel (start c (s₁.roots h).seed key h) s₁ with e' | ⟨⟨cur', hit'⟩, s₃⟩
  · rw [hse] at hsim; exact hsim.elim
  rw [hse] at hsim
  obtain ⟨rfl, hc, hh, hd⟩ := hsim
  dsimp only at hc hh hd hpost e
  subst hh
  obtain ⟨rfl, hfound⟩ := search_found c hse (by simp [start]) (by simp [start])
  have hlen : cur'.path.length = p.len := by rw [← hc.view]; exact hc.ok.length_view
  have hleft : ∀ q : Slice, q.arr = p.arr → Left path cur' q.arr := by
    intro q hq i
    rw [hq, hpost.arr, hc.view, hlen]
  refine ⟨cur', hit, rfl, ?_⟩
  cases hit with
  | false =>
    cases e
    exact ⟨hleft _ rfl, rfl⟩
  | true =>
    rw [if_pos rfl] at e ⊢
    obtain ⟨q, s₄, e3, e⟩ := bind_ok_inv e
    cases e
    obtain ⟨item, x, k, h1, h2, h3, h4⟩ := removeS_left c e3
    have hi : (itemRef cur : M K V Ref) = itemRef cur' := by rw [itemRef, itemRef, hc.l, hc.hd]
    refine ⟨item, x, k, hi ▸ h1, h2, h3, ?_⟩
    split
    · rename_i hs
      rw [if_pos hs] at h4
      exact ⟨hleft _ (by rw [h4.1]), h4.2⟩
    · rename_i hs
      rw [if_neg hs] at h4
      refine ⟨h4.2, ?_⟩
      split
      · rename_i hle
        intro hnl
        refine (h4.1.here (hpost.big.2 (by omega)) ?_).2
        intro i hi r o ho
        have hcd := hfound.deep rfl
        have := hd rfl
        rw [hpost.arr, if_neg (by rw [hc.d] at hi; omega)] at ho
        exact hnl i (by omega) r o ho
      · rename_i hle
        exact hleft _ (h4.1.there (fun hb => by have := hpost.big.1 hb; omega)).1

end

end Amt
