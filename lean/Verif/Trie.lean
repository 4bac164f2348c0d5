/-
A pure trie, used only in proofs: the memory of a container represents one of these
(`Verif/Rep.lean`), and each program simulates an operation on it.

`nb k d` is the nibble of key `k` at depth `d`.
-/
set_option linter.unusedSectionVars false
set_option linter.unusedVariables false

namespace Amt

theorem flatMap_congr' {α β : Type} {f g : α → List β} {l : List α} (h : ∀ x ∈ l, f x = g x) :
    l.flatMap f = l.flatMap g := by
  induction l with
  | nil => rfl
  | cons a l ih => rw [List.flatMap_cons, List.flatMap_cons, h a (by simp), ih (fun x hx => h x (by simp [hx]))]

/-- A slot of a link array: absent, a key with its value cell and value, or a branch.  `st` is the set of type
bits of a branch that are set although they should not be (int_map.go:166-176 leaves some behind). -/
inductive T (K P V : Type) where
  | empty
  | leaf (k : K) (p : P) (v : V)
  | node (st : BitVec 32) (ch : Nat → T K P V)

namespace T
variable {K P V : Type}

def isEmpty : T K P V → Bool
  | empty => true
  | _ => false

def isLeaf : T K P V → Bool
  | leaf _ _ _ => true
  | _ => false

def isNode : T K P V → Bool
  | node _ _ => true
  | _ => false

theorem isEmpty_iff {t : T K P V} : t.isEmpty = true ↔ t = empty := by
  cases t <;> simp [isEmpty]

/-- Replace one child. -/
def upd (ch : Nat → T K P V) (i : Nat) (x : T K P V) : Nat → T K P V :=
  fun j => if j = i then x else ch j

@[simp] theorem upd_same (ch : Nat → T K P V) (i : Nat) (x : T K P V) : upd ch i x i = x := by
  simp [upd]

theorem upd_other (ch : Nat → T K P V) {i j : Nat} (x : T K P V) (h : j ≠ i) : upd ch i x j = ch j := by
  simp [upd, h]

theorem upd_self (ch : Nat → T K P V) (i : Nat) : upd ch i (ch i) = ch := by
  funext j; by_cases h : j = i
  · subst h; simp
  · simp [upd, h]

/-- Stored entries, in slot order. -/
def leaves : T K P V → List (K × P × V)
  | empty => []
  | leaf k p v => [(k, p, v)]
  | node st ch => (List.range 16).flatMap (fun i => leaves (ch i))

/-- Sum of `g level` over the stored entries, where an item of a branch at depth `d` is at level `d+1`. -/
def tsum (g : Nat → Nat) : T K P V → Nat → Nat
  | empty, _ => 0
  | leaf _ _ _, d => g d
  | node st ch, d => ((List.range 16).map (fun i => tsum g (ch i) (d + 1))).sum

/-- Number of entries. -/
def size (t : T K P V) (d : Nat) : Nat := tsum (fun _ => 1) t d

/-- Sum of the depths of the entries (depth = level - 1). -/
def dsum (t : T K P V) (d : Nat) : Nat := tsum (fun l => l - 1) t d

section ops
variable [DecidableEq K] (nb : K → Nat → Nat)

/-- Look a key up by following its nibbles. -/
def find (key : K) : T K P V → Nat → Option (P × V)
  | empty, _ => none
  | leaf k p v, _ => if key = k then some (p, v) else none
  | node st ch, d => find key (ch (nb key d)) (d + 1)

/-- Branches separating two keys, starting at depth `d`; `n` bounds the number of levels.  The first one gets
the wrong type bits `st`, unless it separates the keys. -/
def splitT (k : K) (p : P) (v : V) (k' : K) (p' : P) (v' : V) : (st : BitVec 32) → (n d : Nat) → T K P V
  | _, 0, _ => empty
  | st, n + 1, d =>
    if nb k d = nb k' d then
      node st (upd (fun _ => empty) (nb k d) (splitT k p v k' p' v' 0#32 n (d + 1)))
    else
      node 0#32 (upd (upd (fun _ => empty) (nb k' d) (leaf k' p' v')) (nb k d) (leaf k p v))

/-- Insert or update: a new key gets cell `p` and value `v` (`vs` if it collides with a stored key), a
present key keeps its cell and its value goes through `f`.  `sb k'` are the wrong type bits left behind when
the key `k'` is pushed down. -/
def ins (sb : K → BitVec 32) (n : Nat) (key : K) (p : P) (v vs : V) (f : V → V) : T K P V → Nat → T K P V
  | empty, _ => leaf key p v
  | leaf k' p' v', d =>
    if key = k' then leaf k' p' (f v') else splitT nb key p vs k' p' v' (sb k') n d
  | node st ch, d => node (st &&& ~~~(1#32 <<< nb key d)) (upd ch (nb key d) (ins sb n key p v vs f (ch (nb key d)) (d + 1)))

/-- A branch below the root that became empty disappears; one left with a single key is replaced by it, unless
it has wrong type bits. -/
def mk (st : BitVec 32) (ch : Nat → T K P V) : T K P V :=
  match (List.range 16).filter (fun i => !(ch i).isEmpty) with
  | [] => empty
  | [i] => if (ch i).isLeaf = true ∧ st = 0#32 then ch i else node st ch
  | _ => node st ch

/-- Remove a key below the root. -/
def del (key : K) : T K P V → Nat → T K P V
  | empty, _ => empty
  | leaf k p v, _ => if key = k then empty else leaf k p v
  | node st ch, d => mk st (upd ch (nb key d) (del key (ch (nb key d)) (d + 1)))

/-- Remove a key from the root, which is never collapsed. -/
def delRoot (key : K) : T K P V → T K P V
  | node st ch => node st (upd ch (nb key 0) (del nb key (ch (nb key 0)) 1))
  | t => t

/-- Every entry sits where its nibbles say; slots beyond 16 do not exist. -/
def WF : T K P V → Nat → Prop
  | empty, _ => True
  | leaf _ _ _, _ => True
  | node st ch, d => (∀ i, 16 ≤ i → ch i = empty) ∧
      ∀ i, i < 16 → (∀ e ∈ leaves (ch i), nb e.1 d = i) ∧ WF (ch i) (d + 1)

/-- Branches exist down to depth `B` at most. -/
def Ht (B : Nat) : T K P V → Nat → Prop
  | empty, _ => True
  | leaf _ _ _, _ => True
  | node st ch, d => d ≤ B ∧ ∀ i, i < 16 → Ht B (ch i) (d + 1)

/-- Every branch holds at least two entries and has no wrong type bits. -/
def Canon : T K P V → Prop
  | empty => True
  | leaf _ _ _ => True
  | node st ch => (st = 0#32 ∧ 2 ≤ (leaves (node st ch)).length) ∧ ∀ i, i < 16 → Canon (ch i)

/-- Every branch below the root holds at least two entries, and no branch has wrong type bits. -/
def CanonRoot : T K P V → Prop
  | node st ch => st = 0#32 ∧ ∀ i, i < 16 → Canon (ch i)
  | _ => False

end ops

/-! ### Replacing one child -/

theorem range_split {i : Nat} (hi : i < 16) :
    ∃ A B : List Nat, List.range 16 = A ++ i :: B ∧ i ∉ A ∧ i ∉ B := by
  obtain ⟨A, B, h⟩ := List.append_of_mem (List.mem_range.2 hi)
  have hn := List.nodup_range (n := 16)
  rw [h, List.nodup_append] at hn
  refine ⟨A, B, h, fun hA => hn.2.2 i hA i (by simp) rfl, (List.nodup_cons.1 hn.2.1).1⟩

theorem leaves_node (st : BitVec 32) (ch : Nat → T K P V) :
    leaves (node st ch) = (List.range 16).flatMap (fun i => leaves (ch i)) := rfl

theorem leaves_upd (ch : Nat → T K P V) {i : Nat} (hi : i < 16) :
    ∃ A B, ∀ st x, leaves (node st (upd ch i x)) = A ++ leaves x ++ B := by
  obtain ⟨A, B, h, hA, hB⟩ := range_split hi
  refine ⟨A.flatMap (fun j => leaves (ch j)), B.flatMap (fun j => leaves (ch j)), fun st x => ?_⟩
  rw [leaves_node, h, List.flatMap_append, List.flatMap_cons]
  rw [List.append_assoc]
  congr 1
  · apply flatMap_congr'
    intro j hj
    rw [upd_other]; intro hji; exact hA (hji ▸ hj)
  · congr 1
    · simp
    · apply flatMap_congr'
      intro j hj
      rw [upd_other]; intro hji; exact hB (hji ▸ hj)

theorem tsum_node (g : Nat → Nat) (st : BitVec 32) (ch : Nat → T K P V) (d : Nat) :
    tsum g (node st ch) d = ((List.range 16).map (fun i => tsum g (ch i) (d + 1))).sum := rfl

theorem tsum_upd (g : Nat → Nat) (ch : Nat → T K P V) {i : Nat} (hi : i < 16) (d : Nat) :
    ∃ c, ∀ st x, tsum g (node st (upd ch i x)) d = c + tsum g x (d + 1) := by
  obtain ⟨A, B, h, hA, hB⟩ := range_split hi
  refine ⟨(A.map (fun j => tsum g (ch j) (d + 1))).sum + (B.map (fun j => tsum g (ch j) (d + 1))).sum,
    fun st x => ?_⟩
  rw [tsum_node, h, List.map_append, List.map_cons, List.sum_append, List.sum_cons]
  have e1 : A.map (fun j => tsum g (upd ch i x j) (d + 1)) = A.map (fun j => tsum g (ch j) (d + 1)) :=
    List.map_congr_left (fun j hj => by rw [upd_other]; intro hji; exact hA (hji ▸ hj))
  have e2 : B.map (fun j => tsum g (upd ch i x j) (d + 1)) = B.map (fun j => tsum g (ch j) (d + 1)) :=
    List.map_congr_left (fun j hj => by rw [upd_other]; intro hji; exact hB (hji ▸ hj))
  rw [e1, e2, upd_same]; omega

theorem tsum_replace (g : Nat → Nat) (st : BitVec 32) (ch : Nat → T K P V) {i : Nat} (hi : i < 16) (d : Nat) (x : T K P V) :
    tsum g (node st (upd ch i x)) d + tsum g (ch i) (d + 1) = tsum g (node st ch) d + tsum g x (d + 1) := by
  obtain ⟨c, h⟩ := tsum_upd g ch hi d
  have h1 := h st x
  have h2 := h st (ch i)
  rw [upd_self] at h2
  omega

theorem mem_leaves_node {st : BitVec 32} {ch : Nat → T K P V} {e : K × P × V} :
    e ∈ leaves (node st ch) ↔ ∃ i, i < 16 ∧ e ∈ leaves (ch i) := by
  simp [leaves_node, List.mem_flatMap]

theorem size_eq_length (t : T K P V) (d : Nat) : size t d = (leaves t).length := by
  induction t generalizing d with
  | empty => rfl
  | leaf => rfl
  | node st ch ih =>
    unfold size
    rw [tsum_node, leaves_node, List.length_flatMap]
    congr 1
    apply List.map_congr_left
    intro i _
    exact ih i (d + 1)

section ops
variable [DecidableEq K] (nb : K → Nat → Nat)

/-! ### Lookup -/

theorem find_eq_some {nb : K → Nat → Nat} (hnb : ∀ k d, nb k d < 16) {key : K} {t : T K P V} {d : Nat} {p : P} {v : V}
    (hwf : WF nb t d) : find nb key t d = some (p, v) ↔ (key, p, v) ∈ leaves t := by
  induction t generalizing d with
  | empty => simp [find, leaves]
  | leaf k p' v' =>
    simp only [find, leaves, List.mem_singleton, Prod.mk.injEq]
    by_cases h : key = k
    · simp only [h, if_true, Option.some.injEq, Prod.mk.injEq, true_and]
      constructor <;> (rintro ⟨a, b⟩; exact ⟨a.symm, b.symm⟩)
    · simp [h]
  | node st ch ih =>
    rw [find, ih _ (hwf.2 _ (hnb key d)).2, mem_leaves_node]
    constructor
    · intro h; exact ⟨_, hnb key d, h⟩
    · rintro ⟨i, hi, h⟩
      have := (hwf.2 i hi).1 _ h
      simp only at this
      rw [this]; exact h

theorem find_eq_none {nb : K → Nat → Nat} (hnb : ∀ k d, nb k d < 16) {key : K} {t : T K P V} {d : Nat}
    (hwf : WF nb t d) : find nb key t d = none ↔ ∀ e ∈ leaves t, e.1 ≠ key := by
  constructor
  · rintro h ⟨k, p, v⟩ he rfl
    rw [(find_eq_some hnb hwf).2 he] at h; cases h
  · intro h
    cases hf : find nb key t d with
    | none => rfl
    | some pv =>
      obtain ⟨p, v⟩ := pv
      exact absurd rfl (h _ ((find_eq_some hnb hwf).1 hf))

/-- No key is stored twice. -/
theorem nodup_keys {nb : K → Nat → Nat} {t : T K P V} {d : Nat} (hwf : WF nb t d) :
    ((leaves t).map (fun e => e.1)).Nodup := by
  induction t generalizing d with
  | empty => simp [leaves]
  | leaf => simp [leaves]
  | node st ch ih =>
    rw [leaves_node, List.map_flatMap]
    have key : ∀ l : List Nat, (∀ i ∈ l, i < 16) → l.Nodup →
        (l.flatMap (fun i => (leaves (ch i)).map (fun e => e.1))).Nodup := by
      intro l
      induction l with
      | nil => simp
      | cons a l ihl =>
        intro hl hn
        rw [List.flatMap_cons, List.nodup_append]
        have hn' := List.nodup_cons.1 hn
        refine ⟨ih a (hwf.2 a (hl a (by simp))).2, ihl (fun i hi => hl i (by simp [hi])) hn'.2, ?_⟩
        intro k hk k' hk' hkk
        subst hkk
        obtain ⟨e, he, rfl⟩ := List.mem_map.1 hk
        obtain ⟨j, hj, hj2⟩ := List.mem_flatMap.1 hk'
        obtain ⟨e', he', hee⟩ := List.mem_map.1 hj2
        have h1 := (hwf.2 a (hl a (by simp))).1 e he
        have h2 := (hwf.2 j (hl j (by simp [hj]))).1 e' he'
        rw [hee, h1] at h2
        exact hn'.1 (h2 ▸ hj)
    exact key _ (fun i hi => List.mem_range.1 hi) List.nodup_range

/-! ### Insertion -/

/-- Everything stored in `t` agrees with `key` on the nibbles above depth `d`. -/
def Pre (key : K) (t : T K P V) (d : Nat) : Prop := ∀ e ∈ leaves t, ∀ j, j < d → nb e.1 j = nb key j

variable {nb}

theorem Pre.child {key : K} {st : BitVec 32} {ch : Nat → T K P V} {d : Nat} (hnb : ∀ k d, nb k d < 16)
    (h : Pre nb key (node st ch) d) (hwf : WF nb (node st ch) d) : Pre nb key (ch (nb key d)) (d + 1) := by
  intro e he j hj
  rcases Nat.lt_or_ge j d with h1 | h1
  · exact h e (mem_leaves_node.2 ⟨_, hnb key d, he⟩) j h1
  · have : j = d := by omega
    subst this
    exact (hwf.2 _ (hnb key j)).1 e he

theorem upd2_comm (k k' : K) (p p' : P) (v v' : V) {i j : Nat} (h : i ≠ j) :
    upd (upd (fun _ => empty) j (leaf k' p' v')) i (leaf k p v)
      = upd (upd (fun _ => empty) i (leaf k p v)) j (leaf k' p' v') := by
  funext x
  simp only [upd]
  by_cases h1 : x = i
  · subst h1; simp [h]
  · simp [h1]

theorem leaves_upd_empty (st : BitVec 32) (x : T K P V) {i : Nat} (hi : i < 16) :
    leaves (node st (upd (fun _ => empty) i x)) = leaves x := by
  obtain ⟨A, B, h⟩ := leaves_upd (fun _ => (empty : T K P V)) hi
  have h0 := h st empty
  have : upd (fun _ => (empty : T K P V)) i empty = fun _ => empty := upd_self _ _
  rw [this] at h0
  have he : leaves (node st (fun _ => (empty : T K P V))) = [] := by
    simp [leaves]
  rw [he] at h0
  simp [leaves] at h0
  rw [h st x, h0.1, h0.2]; simp

theorem leaves_splitT (hnb : ∀ k d, nb k d < 16) (k : K) (p : P) (v : V) (k' : K) (p' : P) (v' : V) (st : BitVec 32) (n d : Nat)
    (hs : ∃ j, d ≤ j ∧ j < d + n ∧ nb k j ≠ nb k' j) :
    (leaves (splitT nb k p v k' p' v' st n d)).Perm [(k, p, v), (k', p', v')] := by
  induction n generalizing d st with
  | zero => obtain ⟨j, h1, h2, _⟩ := hs; omega
  | succ n ih =>
    rw [splitT]
    split
    · rename_i heq
      rw [leaves_upd_empty _ _ (hnb k d)]
      apply ih
      obtain ⟨j, h1, h2, h3⟩ := hs
      refine ⟨j, ?_, by omega, h3⟩
      rcases Nat.lt_or_ge d j with h | h
      · omega
      · have : j = d := by omega
        subst this; exact absurd heq h3
    · rename_i hne
      obtain ⟨A, B, h⟩ := leaves_upd (upd (fun _ => (empty : T K P V)) (nb k' d) (leaf k' p' v')) (hnb k d)
      have h0 := h 0#32 empty
      have e : upd (upd (fun _ => (empty : T K P V)) (nb k' d) (leaf k' p' v')) (nb k d) empty
          = upd (fun _ => (empty : T K P V)) (nb k' d) (leaf k' p' v') := by
        funext x; simp only [upd]
        by_cases h1 : x = nb k d
        · subst h1; simp [hne]
        · simp [h1]
      rw [e, leaves_upd_empty _ _ (hnb k' d)] at h0
      rw [h]
      simp only [leaves, List.append_nil] at h0 ⊢
      have : (A ++ [(k, p, v)] ++ B).Perm ((k, p, v) :: (A ++ B)) := by
        simp
      rw [← h0] at this
      exact this

theorem WF_upd {st st' : BitVec 32} {ch : Nat → T K P V} {d i : Nat} {x : T K P V} (h : WF nb (node st ch) d) (hi : i < 16)
    (hx : ∀ e ∈ leaves x, nb e.1 d = i) (hw : WF nb x (d + 1)) : WF nb (node st' (upd ch i x)) d := by
  refine ⟨fun j hj => ?_, fun j hj => ?_⟩
  · rw [upd_other]
    · exact h.1 j hj
    · omega
  · by_cases hji : j = i
    · subst hji; simp only [upd_same]; exact ⟨hx, hw⟩
    · rw [upd_other _ _ hji]; exact h.2 j hj

theorem WF_empty_node (st : BitVec 32) (d : Nat) : WF nb (node st (fun _ => (empty : T K P V))) d :=
  ⟨fun _ _ => rfl, fun _ _ => ⟨by simp [leaves], trivial⟩⟩

theorem mem_splitT {k : K} {p : P} {v : V} {k' : K} {p' : P} {v' : V} {st : BitVec 32} {n d : Nat} {e : K × P × V}
    (hnb : ∀ k d, nb k d < 16)
    (h : e ∈ leaves (splitT nb k p v k' p' v' st n d)) : e = (k, p, v) ∨ e = (k', p', v') := by
  induction n generalizing d st with
  | zero => simp [splitT, leaves] at h
  | succ n ih =>
    rw [splitT] at h
    split at h
    · rw [leaves_upd_empty _ _ (hnb k d)] at h; exact ih h
    · obtain ⟨i, hi, he⟩ := mem_leaves_node.1 h
      simp only [upd] at he
      split at he
      · simp [leaves] at he; exact Or.inl he
      · split at he
        · simp [leaves] at he; exact Or.inr he
        · simp [leaves] at he

theorem WF_splitT (hnb : ∀ k d, nb k d < 16) (k : K) (p : P) (v : V) (k' : K) (p' : P) (v' : V) (st : BitVec 32) (n d : Nat) :
    WF nb (splitT nb k p v k' p' v' st n d) d := by
  induction n generalizing d st with
  | zero => trivial
  | succ n ih =>
    rw [splitT]
    split
    · rename_i heq
      apply WF_upd (WF_empty_node st d) (hnb k d)
      · intro e he
        rcases mem_splitT hnb he with rfl | rfl
        · rfl
        · exact heq.symm
      · exact ih _ (d + 1)
    · exact WF_upd (st := 0#32) (x := leaf k p v) (WF_upd (x := leaf k' p' v') (WF_empty_node 0#32 d) (hnb k' d)
        (by simp [leaves]) trivial) (hnb k d) (by simp [leaves]) trivial

theorem mem_ins {sb : K → BitVec 32} {n : Nat} {key : K} {p : P} {v vs : V} {f : V → V} {t : T K P V} {d : Nat} {e : K × P × V}
    (hnb : ∀ k d, nb k d < 16)
    (h : e ∈ leaves (ins nb sb n key p v vs f t d)) : e.1 = key ∨ e ∈ leaves t := by
  induction t generalizing d with
  | empty => simp [ins, leaves] at h; exact Or.inl (by rw [h])
  | leaf k' p' v' =>
    rw [ins] at h
    split at h
    · rename_i heq; simp [leaves] at h; left; rw [h]; exact heq.symm
    · rcases mem_splitT hnb h with rfl | rfl
      · exact Or.inl rfl
      · right; simp [leaves]
  | node st ch ih =>
    rw [ins] at h
    obtain ⟨i, hi, he⟩ := mem_leaves_node.1 h
    by_cases hji : i = nb key d
    · subst hji
      rw [upd_same] at he
      rcases ih _ he with h1 | h1
      · exact Or.inl h1
      · exact Or.inr (mem_leaves_node.2 ⟨_, hi, h1⟩)
    · rw [upd_other _ _ hji] at he
      exact Or.inr (mem_leaves_node.2 ⟨_, hi, he⟩)

theorem WF_ins (hnb : ∀ k d, nb k d < 16) {sb : K → BitVec 32} {n : Nat} {key : K} {p : P} {v vs : V} {f : V → V}
    {t : T K P V} {d : Nat} (h : WF nb t d) : WF nb (ins nb sb n key p v vs f t d) d := by
  induction t generalizing d with
  | empty => trivial
  | leaf k' p' v' =>
    rw [ins]; split
    · trivial
    · exact WF_splitT hnb ..
  | node st ch ih =>
    rw [ins]
    apply WF_upd h (hnb key d)
    · intro e he
      rcases mem_ins hnb he with h1 | h1
      · rw [h1]
      · exact (h.2 _ (hnb key d)).1 e h1
    · exact ih _ (h.2 _ (hnb key d)).2

theorem Ht_upd {B : Nat} {st st' : BitVec 32} {ch : Nat → T K P V} {d i : Nat} {x : T K P V} (h : Ht B (node st ch) d)
    (hx : Ht B x (d + 1)) : Ht B (node st' (upd ch i x)) d := by
  refine ⟨h.1, fun j hj => ?_⟩
  by_cases hji : j = i
  · subst hji; simpa using hx
  · rw [upd_other _ _ hji]; exact h.2 j hj

theorem Ht_empty_node {st : BitVec 32} {B d : Nat} (h : d ≤ B) : Ht B (node st (fun _ => (empty : T K P V))) d :=
  ⟨h, fun _ _ => trivial⟩

theorem Ht_splitT {B : Nat} (k : K) (p : P) (v : V) (k' : K) (p' : P) (v' : V) (st : BitVec 32) (n d : Nat)
    (hs : ∃ j, d ≤ j ∧ j ≤ B ∧ nb k j ≠ nb k' j) :
    Ht B (splitT nb k p v k' p' v' st n d) d := by
  induction n generalizing d st with
  | zero => trivial
  | succ n ih =>
    obtain ⟨j, h1, h2, h3⟩ := hs
    rw [splitT]
    split
    · rename_i heq
      apply Ht_upd (st := st) (Ht_empty_node (by omega))
      apply ih
      refine ⟨j, ?_, h2, h3⟩
      rcases Nat.lt_or_ge d j with h | h
      · omega
      · have : j = d := by omega
        subst this; exact absurd heq h3
    · exact Ht_upd (st := 0#32) (Ht_upd (st := 0#32) (Ht_empty_node (by omega)) trivial) trivial

/-- The new key can be told apart from every other stored key, within `B` nibbles. -/
def SepFrom (nb : K → Nat → Nat) (B : Nat) (key : K) (t : T K P V) : Prop :=
  ∀ e ∈ leaves t, e.1 ≠ key → ∃ j, j ≤ B ∧ nb key j ≠ nb e.1 j

theorem SepFrom.child {B : Nat} {key : K} {st : BitVec 32} {ch : Nat → T K P V} {i : Nat} (hi : i < 16)
    (h : SepFrom nb B key (node st ch)) : SepFrom nb B key (ch i) :=
  fun e he hne => h e (mem_leaves_node.2 ⟨i, hi, he⟩) hne

/-- Stored keys differ in the nibbles above the branches. -/
theorem leaves_sep {B : Nat} {t : T K P V} {d : Nat} (hw : WF nb t d) (hh : Ht B t d) :
    ∀ e ∈ leaves t, ∀ e' ∈ leaves t, e.1 ≠ e'.1 → ∃ j, j ≤ B ∧ nb e.1 j ≠ nb e'.1 j := by
  induction t generalizing d with
  | empty => intro e he; simp [leaves] at he
  | leaf k p v =>
    intro e he e' he' hne
    simp only [leaves, List.mem_singleton] at he he'
    subst he; subst he'; exact absurd rfl hne
  | node st ch ih =>
    intro e he e' he' hne
    obtain ⟨i, hi, h1⟩ := mem_leaves_node.1 he
    obtain ⟨i', hi', h1'⟩ := mem_leaves_node.1 he'
    by_cases hii : i = i'
    · subst hii
      exact ih i (hw.2 i hi).2 (hh.2 i hi) e h1 e' h1' hne
    · exact ⟨d, hh.1, by rw [(hw.2 i hi).1 e h1, (hw.2 i' hi').1 e' h1']; exact hii⟩

theorem SepFrom.of_mem {B : Nat} {t : T K P V} {d : Nat} (hw : WF nb t d) (hh : Ht B t d) {key : K} {p : P} {v : V}
    (h : (key, p, v) ∈ leaves t) : SepFrom nb B key t :=
  fun e he hne => leaves_sep hw hh (key, p, v) h e he (Ne.symm hne)

theorem sep_leaf {B : Nat} {key k' : K} {p' : P} {v' : V} {d : Nat} (hne : key ≠ k')
    (hs : SepFrom nb B key (leaf k' p' v')) (hp : Pre nb key (leaf k' p' v') d) :
    ∃ j, d ≤ j ∧ j ≤ B ∧ nb key j ≠ nb k' j := by
  obtain ⟨j, h1, h2⟩ := hs (k', p', v') (by simp [leaves]) (fun h => hne h.symm)
  refine ⟨j, ?_, h1, h2⟩
  rcases Nat.lt_or_ge j d with h | h
  · exact absurd (hp (k', p', v') (by simp [leaves]) j h).symm h2
  · exact h

/-- Pushing a stored key down to make room for `key` leaves no wrong type bit on a slot in use. -/
def SafeFor (nb : K → Nat → Nat) (sb : K → BitVec 32) (key : K) (t : T K P V) : Prop :=
  ∀ e ∈ leaves t, e.1 ≠ key → ∀ j, 1 ≤ j → (∀ i, i ≤ j → nb e.1 i = nb key i) → (sb e.1).getLsbD (nb key j) = false

theorem SafeFor.child {sb : K → BitVec 32} {key : K} {st : BitVec 32} {ch : Nat → T K P V} {i : Nat} (hi : i < 16)
    (h : SafeFor nb sb key (node st ch)) : SafeFor nb sb key (ch i) :=
  fun e he hne => h e (mem_leaves_node.2 ⟨i, hi, he⟩) hne

theorem safe_leaf {sb : K → BitVec 32} {key k' : K} {p' : P} {v' : V} {d : Nat} (hd : 1 ≤ d) (hne : key ≠ k')
    (hs : SafeFor nb sb key (leaf k' p' v')) (hp : Pre nb key (leaf k' p' v') d) (heq : nb key d = nb k' d) :
    (sb k').getLsbD (nb key d) = false := by
  refine hs (k', p', v') (by simp [leaves]) (fun h => hne h.symm) d hd (fun i hi => ?_)
  rcases Nat.lt_or_ge i d with h | h
  · exact hp (k', p', v') (by simp [leaves]) i h
  · have : i = d := by omega
    subst this; exact heq.symm

theorem Ht_ins (hnb : ∀ k d, nb k d < 16) {sb : K → BitVec 32} {B n : Nat} {key : K} {p : P} {v vs : V} {f : V → V}
    {t : T K P V} {d : Nat} (hs : SepFrom nb B key t) (hp : Pre nb key t d) (hw : WF nb t d)
    (h : Ht B t d) : Ht B (ins nb sb n key p v vs f t d) d := by
  induction t generalizing d with
  | empty => trivial
  | leaf k' p' v' =>
    rw [ins]; split
    · trivial
    · rename_i hne
      exact Ht_splitT _ _ _ _ _ _ _ _ _ (sep_leaf hne hs hp)
  | node st ch ih =>
    rw [ins]
    exact Ht_upd h (ih _ (hs.child (hnb key d)) (hp.child hnb hw) (hw.2 _ (hnb key d)).2
      (h.2 _ (hnb key d)))

/-- Inserting a new key. -/
theorem leaves_ins_new (hnb : ∀ k d, nb k d < 16) {sb : K → BitVec 32} {B n : Nat} {key : K} {p : P} {v vs : V} {f : V → V}
    {t : T K P V} {d : Nat} (hn : B < n) (hs : SepFrom nb B key t) (hp : Pre nb key t d) (hw : WF nb t d)
    (h : find nb key t d = none) :
    ∃ w, (w = v ∨ w = vs) ∧
      (leaves (ins nb sb n key p v vs f t d)).Perm ((key, p, w) :: leaves t) := by
  induction t generalizing d with
  | empty => exact ⟨v, Or.inl rfl, by simp [ins, leaves]⟩
  | leaf k' p' v' =>
    have hne : key ≠ k' := by
      intro hk; rw [find, if_pos hk] at h; cases h
    refine ⟨vs, Or.inr rfl, ?_⟩
    rw [ins, if_neg hne]
    obtain ⟨j, h1, h2, h3⟩ := sep_leaf hne hs hp
    exact leaves_splitT hnb _ _ _ _ _ _ _ _ _ ⟨j, h1, by omega, h3⟩
  | node st ch ih =>
    rw [ins]
    obtain ⟨w, hw1, hw2⟩ := ih _ (hs.child (hnb key d)) (hp.child hnb hw) (hw.2 _ (hnb key d)).2 h
    refine ⟨w, hw1, ?_⟩
    obtain ⟨A, C, hu⟩ := leaves_upd ch (hnb key d)
    have h0 := hu st (ch (nb key d))
    rw [upd_self] at h0
    rw [hu, h0]
    refine ((hw2.append_left A).append_right C).trans ?_
    simp

/-- Updating a present key changes its value and nothing else. -/
theorem leaves_ins_old (hnb : ∀ k d, nb k d < 16) {sb : K → BitVec 32} {n : Nat} {key : K} {p : P} {v vs : V} {f : V → V}
    {t : T K P V} {d : Nat} {p' : P} {v' : V} (h : find nb key t d = some (p', v')) :
    ∃ A C, leaves t = A ++ (key, p', v') :: C ∧
      leaves (ins nb sb n key p v vs f t d) = A ++ (key, p', f v') :: C := by
  induction t generalizing d with
  | empty => cases h
  | leaf k q w =>
    rw [find] at h
    split at h
    · rename_i hk; cases h; subst hk
      exact ⟨[], [], rfl, by simp [ins, leaves]⟩
    · cases h
  | node st ch ih =>
    obtain ⟨A', C', h1, h2⟩ := ih _ h
    obtain ⟨A, C, hu⟩ := leaves_upd ch (hnb key d)
    have h0 := hu st (ch (nb key d))
    rw [upd_self] at h0
    refine ⟨A ++ A', C' ++ C, ?_, ?_⟩
    · rw [h0, h1]; simp
    · rw [ins, hu, h2]; simp

/-! ### Canonical form -/

theorem Canon_splitT (hnb : ∀ k d, nb k d < 16) (k : K) (p : P) (v : V) (k' : K) (p' : P) (v' : V) (n d : Nat)
    (hs : ∃ j, d ≤ j ∧ j < d + n ∧ nb k j ≠ nb k' j) : Canon (splitT nb k p v k' p' v' 0#32 n d) := by
  induction n generalizing d with
  | zero => obtain ⟨j, h1, h2, _⟩ := hs; omega
  | succ n ih =>
    have hl := (leaves_splitT hnb k p v k' p' v' 0#32 (n + 1) d hs).length_eq
    rw [splitT] at hl ⊢
    split
    · rename_i heq
      rw [if_pos heq] at hl
      refine ⟨⟨rfl, by simp [hl]⟩, fun i _ => ?_⟩
      simp only [upd]; split
      · apply ih
        obtain ⟨j, h1, h2, h3⟩ := hs
        refine ⟨j, ?_, by omega, h3⟩
        rcases Nat.lt_or_ge d j with h | h
        · omega
        · have : j = d := by omega
          subst this; exact absurd heq h3
      · trivial
    · rename_i hne
      rw [if_neg hne] at hl
      refine ⟨⟨rfl, by simp [hl]⟩, fun i _ => ?_⟩
      simp only [upd]; split
      · trivial
      · split <;> trivial

theorem length_ins_ge (hnb : ∀ k d, nb k d < 16) {sb : K → BitVec 32} {B n : Nat} {key : K} {p : P} {v vs : V} {f : V → V}
    {t : T K P V} {d : Nat} (hn : B < n) (hs : SepFrom nb B key t) (hp : Pre nb key t d) (hw : WF nb t d) :
    (leaves t).length ≤ (leaves (ins nb sb n key p v vs f t d)).length := by
  cases h : find nb key t d with
  | none =>
    obtain ⟨w, _, h2⟩ := leaves_ins_new (p := p) (v := v) (vs := vs) (f := f) hnb hn hs hp hw h
    rw [h2.length_eq]; simp
  | some pv =>
    obtain ⟨A, C, h1, h2⟩ := leaves_ins_old (n := n) (p := p) (v := v) (vs := vs) (f := f) hnb h
    rw [h1, h2]; simp

theorem Canon_ins (hnb : ∀ k d, nb k d < 16) {sb : K → BitVec 32} {B n : Nat} {key : K} {p : P} {v vs : V} {f : V → V}
    {t : T K P V} {d : Nat} (hn : B < n) (hs : SepFrom nb B key t) (hp : Pre nb key t d) (hw : WF nb t d)
    (hsb : ∀ e ∈ leaves t, sb e.1 = 0#32) (h : Canon t) : Canon (ins nb sb n key p v vs f t d) := by
  induction t generalizing d with
  | empty => trivial
  | leaf k' p' v' =>
    rw [ins]; split
    · trivial
    · rename_i hne
      obtain ⟨j, h1, h2, h3⟩ := sep_leaf hne hs hp
      rw [hsb (k', p', v') (by simp [leaves])]
      exact Canon_splitT hnb _ _ _ _ _ _ _ _ ⟨j, h1, by omega, h3⟩
  | node st ch ih =>
    have hl := length_ins_ge (sb := sb) (p := p) (v := v) (vs := vs) (f := f) hnb hn hs hp hw
    rw [ins] at hl ⊢
    refine ⟨⟨by rw [h.1.1]; simp, Nat.le_trans h.1.2 hl⟩, fun i hi => ?_⟩
    by_cases hji : i = nb key d
    · subst hji
      rw [upd_same]
      exact ih _ (hs.child hi) (hp.child hnb hw) (hw.2 _ hi).2
        (fun e he => hsb e (mem_leaves_node.2 ⟨_, hi, he⟩)) (h.2 _ hi)
    · rw [upd_other _ _ hji]; exact h.2 i hi

theorem CanonRoot_ins (hnb : ∀ k d, nb k d < 16) {sb : K → BitVec 32} {B n : Nat} {key : K} {p : P} {v vs : V} {f : V → V}
    {t : T K P V} (hn : B < n) (hs : SepFrom nb B key t) (hp : Pre nb key t 0) (hw : WF nb t 0)
    (hsb : ∀ e ∈ leaves t, sb e.1 = 0#32) (h : CanonRoot t) : CanonRoot (ins nb sb n key p v vs f t 0) := by
  cases t with
  | empty => cases h
  | leaf => cases h
  | node st ch =>
    refine ⟨by rw [h.1]; simp, fun i hi => ?_⟩
    by_cases hji : i = nb key 0
    · subst hji
      rw [upd_same]
      exact Canon_ins hnb hn (hs.child hi) (hp.child hnb hw) (hw.2 _ hi).2
        (fun e he => hsb e (mem_leaves_node.2 ⟨_, hi, he⟩)) (h.2 _ hi)
    · rw [upd_other _ _ hji]; exact h.2 i hi

/-! ### Removal -/

theorem flatMap_filter_nonempty (ch : Nat → T K P V) (l : List Nat) :
    l.flatMap (fun i => leaves (ch i))
      = (l.filter (fun i => !(ch i).isEmpty)).flatMap (fun i => leaves (ch i)) := by
  induction l with
  | nil => rfl
  | cons a l ih =>
    rw [List.flatMap_cons, ih, List.filter_cons]
    cases h : (ch a).isEmpty with
    | true => rw [isEmpty_iff.1 h]; simp [leaves]
    | false => simp

theorem leaves_mk (st : BitVec 32) (ch : Nat → T K P V) : leaves (mk st ch) = leaves (node st ch) := by
  rw [leaves_node, flatMap_filter_nonempty, mk]
  split
  · rename_i h; rw [h]; rfl
  · rename_i i h
    split
    · rw [h]; simp
    · rw [← flatMap_filter_nonempty, leaves_node]
  · rw [← flatMap_filter_nonempty, leaves_node]

theorem mk_cases (st : BitVec 32) (ch : Nat → T K P V) :
    mk st ch = empty ∨ mk st ch = node st ch ∨ ∃ i, i < 16 ∧ mk st ch = ch i ∧ (ch i).isLeaf = true := by
  rw [mk]
  split
  · exact Or.inl rfl
  · rename_i i h
    split
    · rename_i hl
      refine Or.inr (Or.inr ⟨i, ?_, rfl, hl.1⟩)
      have : i ∈ (List.range 16).filter (fun i => !(ch i).isEmpty) := by rw [h]; simp
      exact List.mem_range.1 (List.mem_filter.1 this).1
    · exact Or.inr (Or.inl rfl)
  · exact Or.inr (Or.inl rfl)

/-- Removing a present key removes its entry and nothing else. -/
theorem leaves_del (hnb : ∀ k d, nb k d < 16) {key : K} {t : T K P V} {d : Nat} {p : P} {v : V}
    (h : find nb key t d = some (p, v)) :
    ∃ A C, leaves t = A ++ (key, p, v) :: C ∧ leaves (del nb key t d) = A ++ C := by
  induction t generalizing d with
  | empty => cases h
  | leaf k q w =>
    rw [find] at h
    split at h
    · rename_i hk; cases h; subst hk
      exact ⟨[], [], rfl, by simp [del, leaves]⟩
    · cases h
  | node st ch ih =>
    obtain ⟨A', C', h1, h2⟩ := ih _ h
    obtain ⟨A, C, hu⟩ := leaves_upd ch (hnb key d)
    have h0 := hu st (ch (nb key d))
    rw [upd_self] at h0
    refine ⟨A ++ A', C' ++ C, ?_, ?_⟩
    · rw [h0, h1]; simp
    · rw [del, leaves_mk, hu, h2]; simp

theorem mem_del (hnb : ∀ k d, nb k d < 16) {key : K} {t : T K P V} {d : Nat} {e : K × P × V}
    (h : e ∈ leaves (del nb key t d)) : e ∈ leaves t := by
  induction t generalizing d with
  | empty => exact h
  | leaf k q w =>
    rw [del] at h
    split at h
    · cases h
    · exact h
  | node st ch ih =>
    rw [del, leaves_mk] at h
    obtain ⟨i, hi, he⟩ := mem_leaves_node.1 h
    by_cases hji : i = nb key d
    · subst hji; rw [upd_same] at he
      exact mem_leaves_node.2 ⟨_, hi, ih _ he⟩
    · rw [upd_other _ _ hji] at he
      exact mem_leaves_node.2 ⟨_, hi, he⟩

theorem WF_mk {st : BitVec 32} {ch : Nat → T K P V} {d : Nat} (h : WF nb (node st ch) d) : WF nb (mk st ch) d := by
  rcases mk_cases st ch with h1 | h1 | ⟨i, _, h1, h2⟩
  · rw [h1]; trivial
  · rw [h1]; exact h
  · rw [h1]; cases hc : ch i <;> simp [hc, isLeaf] at h2; trivial

theorem WF_del (hnb : ∀ k d, nb k d < 16) {key : K} {t : T K P V} {d : Nat} (h : WF nb t d) :
    WF nb (del nb key t d) d := by
  induction t generalizing d with
  | empty => trivial
  | leaf => rw [del]; split <;> trivial
  | node st ch ih =>
    rw [del]
    apply WF_mk
    apply WF_upd h (hnb key d)
    · intro e he; exact (h.2 _ (hnb key d)).1 e (mem_del hnb he)
    · exact ih _ (h.2 _ (hnb key d)).2

theorem Ht_mk {B : Nat} {st : BitVec 32} {ch : Nat → T K P V} {d : Nat} (h : Ht B (node st ch) d) : Ht B (mk st ch) d := by
  rcases mk_cases st ch with h1 | h1 | ⟨i, _, h1, h2⟩
  · rw [h1]; trivial
  · rw [h1]; exact h
  · rw [h1]; cases hc : ch i <;> simp [hc, isLeaf] at h2; trivial

theorem Ht_del (hnb : ∀ k d, nb k d < 16) {B : Nat} {key : K} {t : T K P V} {d : Nat} (h : Ht B t d) :
    Ht B (del nb key t d) d := by
  induction t generalizing d with
  | empty => trivial
  | leaf => rw [del]; split <;> trivial
  | node st ch ih => rw [del]; exact Ht_mk (Ht_upd h (ih _ (h.2 _ (hnb key d))))

theorem Canon.length_pos {t : T K P V} (h : Canon t) (hne : t.isEmpty = false) :
    1 ≤ (leaves t).length := by
  cases t with
  | empty => cases hne
  | leaf => simp [leaves]
  | node st ch => exact Nat.le_trans (by omega) h.1.2

theorem Canon_mk {st : BitVec 32} {ch : Nat → T K P V} (hst : st = 0#32) (h : ∀ i, i < 16 → Canon (ch i)) : Canon (mk st ch) := by
  have hleaves := leaves_mk st ch
  have hmem : ∀ i, i ∈ (List.range 16).filter (fun i => !(ch i).isEmpty) →
      i < 16 ∧ (ch i).isEmpty = false := by
    intro i hi
    rw [List.mem_filter] at hi
    exact ⟨List.mem_range.1 hi.1, by simpa using hi.2⟩
  have hl : leaves (node st ch) = ((List.range 16).filter (fun i => !(ch i).isEmpty)).flatMap
      (fun i => leaves (ch i)) := by rw [leaves_node, flatMap_filter_nonempty]
  rw [mk] at hleaves ⊢
  split
  · trivial
  · rename_i i hi
    have hi' := hmem i (by rw [hi]; simp)
    split
    · exact h i hi'.1
    · rename_i hnl
      refine ⟨⟨hst, ?_⟩, h⟩
      rw [hl, hi]
      simp only [List.flatMap_cons, List.flatMap_nil, List.append_nil]
      have hc := h i hi'.1
      cases hci : ch i with
      | empty => rw [hci] at hi'; simp [isEmpty] at hi'
      | leaf => rw [hci] at hnl; simp [isLeaf, hst] at hnl
      | node c => rw [hci] at hc; exact hc.1.2
  · rename_i l hl0 hl1
    refine ⟨⟨hst, ?_⟩, h⟩
    rw [hl]
    match hm : (List.range 16).filter (fun i => !(ch i).isEmpty) with
    | [] => exact absurd hm hl0
    | [i] => exact absurd hm (hl1 i)
    | i :: j :: r =>
      have hi := hmem i (by rw [hm]; simp)
      have hj := hmem j (by rw [hm]; simp)
      have h1 := (h i hi.1).length_pos hi.2
      have h2 := (h j hj.1).length_pos hj.2
      simp only [List.flatMap_cons, List.length_append]
      omega

theorem Canon_del (hnb : ∀ k d, nb k d < 16) {key : K} {t : T K P V} {d : Nat} (h : Canon t) :
    Canon (del nb key t d) := by
  induction t generalizing d with
  | empty => trivial
  | leaf => rw [del]; split <;> trivial
  | node st ch ih =>
    rw [del]
    apply Canon_mk h.1.1
    intro i hi
    by_cases hji : i = nb key d
    · subst hji; rw [upd_same]; exact ih _ (h.2 _ hi)
    · rw [upd_other _ _ hji]; exact h.2 i hi

end ops
end T
end Amt
