/- Stepping rules for the programs of `Verif/Model.lean`: how each primitive acts on a heap in which the
accessed object is known. -/
import Verif.Model

namespace Amt

variable {K V α β : Type}

/-- Replace the object at address `b`. -/
def St.put (s : St K V) (b : Nat) (o : Obj K V) : St K V :=
  { s with mem := fun a => if a = b then some o else s.mem a }

@[simp] theorem put_mem (s : St K V) (b : Nat) (o : Obj K V) (a : Nat) :
    (s.put b o).mem a = if a = b then some o else s.mem a := rfl

@[simp] theorem put_next (s : St K V) (b : Nat) (o : Obj K V) : (s.put b o).next = s.next := rfl

@[simp] theorem put_roots (s : St K V) (b : Nat) (o : Obj K V) : (s.put b o).roots = s.roots := rfl

theorem put_put (s : St K V) (b : Nat) (o o' : Obj K V) : (s.put b o).put b o' = s.put b o' := by
  unfold St.put
  congr 1
  funext a
  by_cases h : a = b <;> simp [h]

theorem put_self {s : St K V} {b : Nat} {o : Obj K V} (h : s.mem b = some o) : s.put b o = s := by
  unfold St.put
  cases s
  congr 1
  funext a
  by_cases h' : a = b
  · subst h'; simp only [if_true]; exact h.symm
  · simp [h']

@[simp] theorem pure_run (a : α) (s : St K V) : (pure a : M K V α) s = .ok (a, s) := rfl

theorem bind_run (x : M K V α) (f : α → M K V β) (s : St K V) :
    (x >>= f) s = match x s with
      | .error e => .error e
      | .ok (a, s') => f a s' := rfl

theorem bind_ok {x : M K V α} {f : α → M K V β} {s s' : St K V} {a : α} (h : x s = .ok (a, s')) :
    (x >>= f) s = f a s' := by rw [bind_run, h]

theorem bind_err {x : M K V α} {f : α → M K V β} {s : St K V} {e : Fault} (h : x s = .error e) :
    (x >>= f) s = .error e := by rw [bind_run, h]

theorem bind_assoc_run {γ : Type} (x : M K V α) (f : α → M K V β) (g : β → M K V γ) (s : St K V) :
    ((x >>= f) >>= g) s = (x >>= fun a => f a >>= g) s := by
  simp only [bind_run]
  cases x s <;> rfl

theorem bind_assoc_M {γ : Type} (x : M K V α) (f : α → M K V β) (g : β → M K V γ) :
    ((x >>= f) >>= g) = (x >>= fun a => f a >>= g) := by
  funext s; exact bind_assoc_run x f g s

theorem pure_bind_M (a : α) (f : α → M K V β) : ((pure a : M K V α) >>= f) = f a := rfl

theorem load_ok {s : St K V} {b i : Nat} {xs : List Link} {x : Link}
    (hm : s.mem b = some (.links xs)) (hx : xs[i]? = some x) :
    load ⟨.blk b, i⟩ s = .ok (x, s) := by
  simp [load, hm, hx]

theorem store_ok {s : St K V} {b i : Nat} {xs : List Link} {x : Link}
    (hm : s.mem b = some (.links xs)) (hi : i < xs.length) :
    store ⟨.blk b, i⟩ x s = .ok ((), s.put b (.links (xs.set i x))) := by
  simp [store, hm, hi, St.put]

theorem modLink_ok {s : St K V} {b i : Nat} {xs : List Link} {x : Link} {f : Link → Link}
    (hm : s.mem b = some (.links xs)) (hx : xs[i]? = some x) :
    modLink ⟨.blk b, i⟩ f s = .ok ((), s.put b (.links (xs.set i (f x)))) := by
  have hi : i < xs.length := by
    rcases Nat.lt_or_ge i xs.length with h | h
    · exact h
    · rw [List.getElem?_eq_none h] at hx; cases hx
  rw [modLink, bind_ok (load_ok hm hx), store_ok hm hi]

/-- The heap after an allocation. -/
def St.push (s : St K V) (o : Obj K V) : St K V :=
  { s with mem := fun a => if a = s.next then some o else s.mem a, next := s.next + 1 }

@[simp] theorem push_mem (s : St K V) (o : Obj K V) (a : Nat) :
    (s.push o).mem a = if a = s.next then some o else s.mem a := rfl

@[simp] theorem push_next (s : St K V) (o : Obj K V) : (s.push o).next = s.next + 1 := rfl

@[simp] theorem push_roots (s : St K V) (o : Obj K V) : (s.push o).roots = s.roots := rfl

theorem alloc_run (o : Obj K V) (s : St K V) : alloc o s = .ok (.blk s.next, s.push o) := rfl

theorem newLinkArray_run (n : Nat) (h1 : 1 ≤ n) (h2 : n ≤ 16) (s : St K V) :
    newLinkArray n s
      = .ok (.blk s.next, s.push (.links (List.replicate (4 * ((n + 3) / 4)) {}))) := by
  unfold newLinkArray
  split
  · rw [show 4 * ((n + 3) / 4) = 4 by omega]; rfl
  · split
    · rw [show 4 * ((n + 3) / 4) = 8 by omega]; rfl
    · split
      · rw [show 4 * ((n + 3) / 4) = 12 by omega]; rfl
      · rw [show 4 * ((n + 3) / 4) = 16 by omega]; rfl

theorem loadKv_ok {s : St K V} {b : Nat} {k : Option K} {v : V} (hm : s.mem b = some (.kv k v)) :
    loadKv (.blk b) s = .ok ((k, v), s) := by
  simp [loadKv, hm]

theorem storeVal_ok {s : St K V} {b : Nat} {k : Option K} {v w : V} (hm : s.mem b = some (.kv k v)) :
    storeVal (.blk b) w s = .ok ((), s.put b (.kv k w)) := by
  simp [storeVal, hm, St.put]

theorem getRoot_run (h : Nat) (s : St K V) : getRoot h s = .ok (s.roots h, s) := rfl

/-- The heap after an update of a root's scalar fields. -/
def St.root (s : St K V) (h : Nat) (f : Meta → Meta) : St K V :=
  { s with roots := fun a => if a = h then f (s.roots a) else s.roots a }

@[simp] theorem root_mem (s : St K V) (h : Nat) (f : Meta → Meta) : (s.root h f).mem = s.mem := rfl

@[simp] theorem root_next (s : St K V) (h : Nat) (f : Meta → Meta) : (s.root h f).next = s.next := rfl

@[simp] theorem root_roots (s : St K V) (h : Nat) (f : Meta → Meta) (a : Nat) :
    (s.root h f).roots a = if a = h then f (s.roots a) else s.roots a := rfl

theorem modRoot_run (h : Nat) (f : Meta → Meta) (s : St K V) :
    modRoot h f s = .ok ((), s.root h f) := rfl

theorem liftE_ok {x : Except Fault α} {a : α} (h : x = .ok a) (s : St K V) :
    liftE x s = .ok (a, s) := by subst h; rfl

/-! ### The element-moving loops -/

/-- `copyUp` between two different arrays. -/
theorem copyUp_ok {b b' : Nat} {doff soff : Nat} (hb : b ≠ b') {xs : List Link} :
    ∀ (n i : Nat) (ds : List Link) (s : St K V), s.mem b = some (.links ds) → s.mem b' = some (.links xs) →
    i + doff + n ≤ ds.length → i + soff + n ≤ xs.length →
    ∃ ys, copyUp (.blk b) (.blk b') doff soff n i s = .ok ((), s.put b (.links ys)) ∧
      ys.length = ds.length ∧
      ∀ j, ys[j]? = if i + doff ≤ j ∧ j < i + doff + n then xs[j - doff + soff]? else ds[j]? := by
  intro n
  induction n with
  | zero =>
    intro i ds s hd _ _ _
    refine ⟨ds, by rw [copyUp, put_self hd]; rfl, rfl, fun j => ?_⟩
    rw [if_neg (by omega)]
  | succ n ih =>
    intro i ds s hd hs h1 h2
    rw [copyUp]
    have hx : xs[i + soff]? = some xs[i + soff] := List.getElem?_eq_getElem (by omega)
    rw [bind_ok (load_ok hs hx), bind_ok (store_ok hd (by omega))]
    obtain ⟨ys, e, hl, hj⟩ := ih (i + 1) (ds.set (i + doff) xs[i + soff])
      (s.put b (.links (ds.set (i + doff) xs[i + soff]))) (by simp)
      (by simp [Ne.symm hb, hs]) (by simp; omega) (by omega)
    refine ⟨ys, by rw [e, put_put], by simpa using hl, fun j => ?_⟩
    rw [hj j, List.getElem?_set]
    by_cases hji : j = i + doff
    · subst hji
      rw [if_neg (by omega), if_pos rfl, if_pos (by omega), if_pos (by omega),
        show i + doff - doff + soff = i + soff by omega, hx]
    · by_cases hc : i + 1 + doff ≤ j ∧ j < i + 1 + doff + n
      · rw [if_pos hc, if_pos (by omega)]
      · rw [if_neg hc, if_neg (by omega), if_neg (by omega)]

/-- `copyUp` within one array, moving items back by one. -/
theorem copyDown_ok {b : Nat} :
    ∀ (n i : Nat) (xs : List Link) (s : St K V), s.mem b = some (.links xs) →
    i + 1 + n ≤ xs.length →
    ∃ ys, copyUp (.blk b) (.blk b) 0 1 n i s = .ok ((), s.put b (.links ys)) ∧
      ys.length = xs.length ∧
      ∀ j, ys[j]? = if i ≤ j ∧ j < i + n then xs[j + 1]? else xs[j]? := by
  intro n
  induction n with
  | zero =>
    intro i xs s hs _
    refine ⟨xs, by rw [copyUp, put_self hs]; rfl, rfl, fun j => ?_⟩
    rw [if_neg (by omega)]
  | succ n ih =>
    intro i xs s hs h1
    rw [copyUp]
    have hx : xs[i + 1]? = some xs[i + 1] := List.getElem?_eq_getElem (by omega)
    rw [bind_ok (load_ok hs hx), bind_ok (store_ok hs (by omega))]
    obtain ⟨ys, e, hl, hj⟩ := ih (i + 1) (xs.set (i + 0) xs[i + 1])
      (s.put b (.links (xs.set (i + 0) xs[i + 1]))) (by simp) (by simp; omega)
    refine ⟨ys, by rw [e, put_put], by simpa using hl, fun j => ?_⟩
    rw [hj j]
    simp only [List.getElem?_set]
    by_cases hji : j = i
    · subst hji
      rw [if_neg (by omega), if_pos (by omega), if_pos (by omega), if_pos (by omega), hx]
    · by_cases hc : i + 1 ≤ j ∧ j < i + 1 + n
      · rw [if_pos hc, if_neg (by omega), if_pos (by omega)]
      · rw [if_neg hc, if_neg (by omega), if_neg (by omega)]

theorem shiftUp_ok {b idx : Nat} :
    ∀ (n : Nat) (xs : List Link) (s : St K V), s.mem b = some (.links xs) → n < xs.length →
    ∃ ys, shiftUp (.blk b) idx n s = .ok ((), s.put b (.links ys)) ∧
      ys.length = xs.length ∧
      ∀ j, ys[j]? = if idx < j ∧ j ≤ n then xs[j - 1]? else xs[j]? := by
  intro n
  induction n with
  | zero =>
    intro xs s hs _
    refine ⟨xs, by rw [shiftUp, put_self hs]; rfl, rfl, fun j => ?_⟩
    rw [if_neg (by omega)]
  | succ n ih =>
    intro xs s hs h1
    rw [shiftUp]
    split
    · rename_i hle
      have hx : xs[n]? = some xs[n] := List.getElem?_eq_getElem (by omega)
      rw [bind_ok (load_ok hs hx), bind_ok (store_ok hs (by omega))]
      obtain ⟨ys, e, hl, hj⟩ := ih (xs.set (n + 1) xs[n])
        (s.put b (.links (xs.set (n + 1) xs[n]))) (by simp) (by simp; omega)
      refine ⟨ys, by rw [e, put_put], by simpa using hl, fun j => ?_⟩
      rw [hj j]
      simp only [List.getElem?_set]
      by_cases hji : j = n + 1
      · subst hji
        rw [if_neg (by omega), if_pos (by omega), if_pos (by omega), if_pos (by omega),
          show n + 1 - 1 = n by omega, hx]
      · by_cases hc : idx < j ∧ j ≤ n
        · rw [if_pos hc, if_neg (by omega), if_pos (by omega)]
        · rw [if_neg hc, if_neg (by omega), if_neg (by omega)]
    · rename_i hle
      refine ⟨xs, by rw [put_self hs]; rfl, rfl, fun j => ?_⟩
      rw [if_neg (by omega)]

end Amt
