/-
Goroutines that share a container guarded by a `sync.RWMutex`: calls that only read hold the read lock and overlap, the others hold
the lock and run alone.  Every execution is a sequence of calls, one after the other.
-/
import Verif.ParRead

set_option linter.unusedVariables false

namespace Amt.Par
open Amt

/-! ### One access at a time -/

section
variable {K V α β : Type}

/-- A program that performs the access `x` goes on with `k`; if the access is a panic the program stops. -/
def after (x : M K V β) (k : β → T K V α) (s : St K V) : T K V α × St K V :=
  match x s with
  | .ok (b, s') => (k b, s')
  | .error e => (.fail e, s)

/-- The first access of a program. -/
def T.step : T K V α → St K V → T K V α × St K V
  | .ret a, s => (.ret a, s)
  | .fail e, s => (.fail e, s)
  | .load r k, s => after (Amt.load r) k s
  | .store r x k, s => after (Amt.store r x) (fun _ => k) s
  | .put r w k, s => after (modLink r w.put) (fun _ => k) s
  | .alloc o k, s => after (Amt.alloc o) k s
  | .loadKv p k, s => after (Amt.loadKv p) k s
  | .storeVal p v k, s => after (Amt.storeVal p v) (fun _ => k) s
  | .getRoot h k, s => after (Amt.getRoot h) k s
  | .modRoot h f k, s => after (Amt.modRoot h f) (fun _ => k) s

theorem after_denote (x : M K V β) (k : β → T K V α) (s : St K V) : (after x k s).1.denote (after x k s).2 = (x >>= fun b => (k b).denote) s := by
  rw [bind_run]
  unfold after
  cases x s with
  | error e => rfl
  | ok r => rfl

/-- What is left to do gives what the whole would have given. -/
theorem T.step_denote (t : T K V α) (s : St K V) : (t.step s).1.denote (t.step s).2 = t.denote s := by
  cases t <;> first | rfl | exact after_denote _ _ _

theorem load_mem {r : Ref} {s : St K V} {x : Link} {s' : St K V} (h : Amt.load r s = .ok (x, s')) : s' = s := by
  unfold Amt.load at h
  split at h
  · cases h
  · split at h
    · cases h
    · cases h
    · split at h
      · cases h
      · cases h; rfl

theorem loadKv_mem {p : Ptr} {s : St K V} {x : Option K × V} {s' : St K V} (h : Amt.loadKv p s = .ok (x, s')) : s' = s := by
  unfold Amt.loadKv at h
  split at h
  · cases h
  · split at h
    · cases h
    · cases h
    · cases h; rfl

theorem RO.after {x : M K V β} {k : β → T K V α} {s : St K V} (hx : ∀ b s', x s = .ok (b, s') → s' = s) (hk : ∀ b, (k b).RO) :
    (after x k s).1.RO ∧ (after x k s).2 = s := by
  unfold Par.after
  cases h : x s with
  | error e => exact ⟨trivial, rfl⟩
  | ok r => exact ⟨hk _, hx _ _ h⟩

/-- A program that only reads leaves the memory alone at every step. -/
theorem RO.step {t : T K V α} (h : t.RO) (s : St K V) : (t.step s).1.RO ∧ (t.step s).2 = s := by
  cases t with
  | ret a => exact ⟨trivial, rfl⟩
  | fail e => exact ⟨trivial, rfl⟩
  | load r k => exact RO.after (fun _ _ h => load_mem h) h
  | loadKv r k => exact RO.after (fun _ _ h => loadKv_mem h) h
  | getRoot r k => exact RO.after (fun _ _ h => by cases h; rfl) h
  | store => exact h.elim
  | put => exact h.elim
  | alloc => exact h.elim
  | storeVal => exact h.elim
  | modRoot => exact h.elim

end

/-! ### Readers only -/

section
variable {ι K V α : Type} [DecidableEq ι]

/-- Replace one element of a family. -/
def upd {β : Type} (f : ι → β) (i : ι) (b : β) : ι → β := fun j => if j = i then b else f j

@[simp] theorem upd_same {β : Type} (f : ι → β) (i : ι) (b : β) : upd f i b i = b := if_pos rfl
theorem upd_other {β : Type} (f : ι → β) {i j : ι} (b : β) (h : j ≠ i) : upd f i b j = f j := if_neg h

/-- Goroutines `ts` in the order given by a schedule: each element of the list is one access of that goroutine. -/
def interleave : List ι → (ι → T K V α) → St K V → (ι → T K V α) × St K V
  | [], ts, s => (ts, s)
  | i :: sched, ts, s => interleave sched (upd ts i ((ts i).step s).1) ((ts i).step s).2

/-- Goroutines that only read, in any order: the memory does not change, and each is always on the way to the result that it
has when it runs alone. -/
theorem interleave_ro (sched : List ι) : ∀ (ts : ι → T K V α) (s : St K V), (∀ i, (ts i).RO) →
    (interleave sched ts s).2 = s ∧ ∀ i, ((interleave sched ts s).1 i).RO ∧ ((interleave sched ts s).1 i).denote s = (ts i).denote s := by
  induction sched with
  | nil => intro ts s h; exact ⟨rfl, fun i => ⟨h i, rfl⟩⟩
  | cons i sched ih =>
    intro ts s h
    have h1 := RO.step (h i) s
    have h2 := ih (upd ts i ((ts i).step s).1) s (fun j => by
      by_cases hj : j = i
      · subst hj; rw [upd_same]; exact h1.1
      · rw [upd_other _ _ hj]; exact h j)
    rw [interleave, h1.2]
    refine ⟨h2.1, fun j => ⟨(h2.2 j).1, (h2.2 j).2.trans ?_⟩⟩
    by_cases hj : j = i
    · subst hj; rw [upd_same]
      have h3 := T.step_denote (ts j) s
      rw [h1.2] at h3
      exact h3
    · rw [upd_other _ _ hj]

/-- A program has ended. -/
def T.Done : T K V α → Prop
  | .ret _ => True
  | .fail _ => True
  | _ => False

theorem Done.step {t : T K V α} (h : t.Done) (s : St K V) : t.step s = (t, s) := by
  cases t <;> first | rfl | exact h.elim

/-- A reader ends after a number of accesses that does not depend on the other goroutines. -/
theorem interleave_ends (t : T K V α) (s : St K V) (h : t.RO) : ∃ N, ∀ (sched : List ι) (ts : ι → T K V α) (i : ι), (∀ i, (ts i).RO) → ts i = t →
    N ≤ sched.count i → ((interleave sched ts s).1 i).Done := by
  -- one access, then the rest
  have one : ∀ t : T K V α, t.RO → (∃ N, ∀ (sched : List ι) (ts : ι → T K V α) (i : ι), (∀ i, (ts i).RO) → ts i = (t.step s).1 → N ≤ sched.count i →
      ((interleave sched ts s).1 i).Done) → ∃ N, ∀ (sched : List ι) (ts : ι → T K V α) (i : ι), (∀ i, (ts i).RO) → ts i = t → N ≤ sched.count i →
      ((interleave sched ts s).1 i).Done := by
    rintro t ht ⟨N, hN⟩
    refine ⟨N + 1, fun sched => ?_⟩
    induction sched with
    | nil => intro ts i _ _ h; simp at h
    | cons j sched ih =>
      intro ts i hts he hc
      have h1 := RO.step (hts j) s
      rw [interleave, h1.2]
      have h2 : ∀ k, (upd ts j ((ts j).step s).1 k).RO := fun k => by
        by_cases hk : k = j
        · subst hk; rw [upd_same]; exact h1.1
        · rw [upd_other _ _ hk]; exact hts k
      by_cases hj : i = j
      · subst hj
        refine hN sched _ i h2 (by rw [upd_same, he]) ?_
        simpa using hc
      · refine ih _ i h2 (by rw [upd_other _ _ hj, he]) ?_
        rw [List.count_cons_of_ne (Ne.symm hj)] at hc
        exact hc
  have zero : ∀ t : T K V α, t.Done → ∃ N, ∀ (sched : List ι) (ts : ι → T K V α) (i : ι), (∀ i, (ts i).RO) → ts i = t → N ≤ sched.count i →
      ((interleave sched ts s).1 i).Done := by
    intro t ht
    refine ⟨0, fun sched => ?_⟩
    induction sched with
    | nil => intro ts i _ he _; show (ts i).Done; rw [he]; exact ht
    | cons j sched ih =>
      intro ts i hts he _
      have h1 := RO.step (hts j) s
      rw [interleave, h1.2]
      have h2 : ∀ k, (upd ts j ((ts j).step s).1 k).RO := fun k => by
        by_cases hk : k = j
        · subst hk; rw [upd_same]; exact h1.1
        · rw [upd_other _ _ hk]; exact hts k
      refine ih _ i h2 ?_ (Nat.zero_le _)
      by_cases hj : i = j
      · subst hj; rw [upd_same, he, Done.step ht]
      · rw [upd_other _ _ hj, he]
  induction t with
  | ret a => exact zero _ trivial
  | fail e => exact zero _ trivial
  | load r k ih =>
    refine one _ h ?_
    show ∃ N, ∀ (sched : List ι) (ts : ι → T K V α) (i : ι), (∀ i, (ts i).RO) → ts i = (Par.after (Amt.load r) k s).1 → _
    unfold Par.after
    cases Amt.load r s with
    | error e => exact zero _ trivial
    | ok x => exact ih _ (h _)
  | loadKv r k ih =>
    refine one _ h ?_
    show ∃ N, ∀ (sched : List ι) (ts : ι → T K V α) (i : ι), (∀ i, (ts i).RO) → ts i = (Par.after (Amt.loadKv r) k s).1 → _
    unfold Par.after
    cases Amt.loadKv r s with
    | error e => exact zero _ trivial
    | ok x => exact ih _ (h _)
  | getRoot r k ih => exact one _ h (ih _ (h _))
  | store => exact h.elim
  | put => exact h.elim
  | alloc => exact h.elim
  | storeVal => exact h.elim
  | modRoot => exact h.elim

end

/-! ### Readers and writers with a lock -/

/-- The calls on one container: the program of each, given the scratch area of the root, and whether it takes the read lock only. -/
structure Guarded (K V Op Out : Type) where
  call : List PathLink → Op → T K V (Out × List PathLink)
  read : Op → Bool
  ro : ∀ path op, read op = true → (call path op).RO
  keep : ∀ path op, read op = true → ∀ s o p s', (call path op).denote s = .ok ((o, p), s') → p = path

/-- Goroutines `ι`: the memory, the scratch area, the calls that are being executed, and the calls that have returned, in the order in
which they did. -/
structure World (ι K V Op Out : Type) where
  mem : St K V
  path : List PathLink
  now : ι → Option (Op × T K V (Out × List PathLink))
  log : List (ι × Op × Out)

section
variable {ι K V Op Out : Type} [DecidableEq ι]

/-- What the calls of goroutine `i` have returned. -/
def answersOf (i : ι) (log : List (ι × Op × Out)) : List Out := (log.filter fun x => decide (x.1 = i)).map fun x => x.2.2

/-- One step of one goroutine.  `prog i os` is the next call of goroutine `i` when its calls so far have returned `os`.  A call begins
when the lock permits it: a reading call if no other call than reading ones is being executed, any other call if no call at all is. -/
inductive Step (G : Guarded K V Op Out) (prog : ι → List Out → Option Op) : World ι K V Op Out → World ι K V Op Out → Prop where
  | start (w : World ι K V Op Out) (i : ι) (op : Op) (idle : w.now i = none) (next : prog i (answersOf i w.log) = some op)
      (rlock : G.read op = true → ∀ j op' t, w.now j = some (op', t) → G.read op' = true) (lock : G.read op = false → ∀ j, w.now j = none) :
      Step G prog w { w with now := upd w.now i (some (op, G.call w.path op)) }
  | access (w : World ι K V Op Out) (i : ι) (op : Op) (t : T K V (Out × List PathLink)) (busy : w.now i = some (op, t)) :
      Step G prog w { w with mem := (t.step w.mem).2, now := upd w.now i (some (op, (t.step w.mem).1)) }
  | finish (w : World ι K V Op Out) (i : ι) (op : Op) (o : Out) (p : List PathLink) (ends : w.now i = some (op, .ret (o, p))) :
      Step G prog w { w with path := if G.read op = true then w.path else p, now := upd w.now i none, log := w.log ++ [(i, op, o)] }

/-- What the goroutines can bring about. -/
inductive Reach (G : Guarded K V Op Out) (prog : ι → List Out → Option Op) (w₀ : World ι K V Op Out) : World ι K V Op Out → Prop where
  | refl : Reach G prog w₀ w₀
  | step {w w' : World ι K V Op Out} : Reach G prog w₀ w → Step G prog w w' → Reach G prog w₀ w'

/-- The calls one after the other. -/
def Guarded.seq (G : Guarded K V Op Out) : List PathLink → List Op → M K V (List Out × List PathLink)
  | path, [] => pure ([], path)
  | path, op :: ops => do
    let r ← (G.call path op).denote
    let r' ← G.seq r.2 ops
    pure (r.1 :: r'.1, r'.2)

theorem Guarded.seq_snoc (G : Guarded K V Op Out) (op : Op) : ∀ (ops : List Op) (path : List PathLink),
    G.seq path (ops ++ [op]) = (G.seq path ops >>= fun r => (G.call r.2 op).denote >>= fun r' => pure (r.1 ++ [r'.1], r'.2)) := by
  intro ops
  have pure_bind' : ∀ {α β : Type} (a : α) (f : α → M K V β), ((pure a : M K V α) >>= f) = f a := fun _ _ => rfl
  induction ops with
  | nil => intro path; simp only [List.nil_append, Guarded.seq, pure_bind']
  | cons o ops ih => intro path; simp only [List.cons_append, Guarded.seq, ih, M.bind_assoc', pure_bind']

/-- Nothing is being executed, nothing has returned. -/
def World.start (s : St K V) (path : List PathLink) : World ι K V Op Out := ⟨s, path, fun _ => none, []⟩

/-- What is kept by all steps. -/
structure Inv (G : Guarded K V Op Out) (prog : ι → List Out → Option Op) (s₀ : St K V) (path₀ : List PathLink) (w : World ι K V Op Out) : Prop where
  main : ∃ s, G.seq path₀ (w.log.map fun x => x.2.1) s₀ = .ok ((w.log.map fun x => x.2.2, w.path), s) ∧
    (∀ i op t, w.now i = some (op, t) → t.denote w.mem = (G.call w.path op).denote s) ∧
    ((∀ i op t, w.now i = some (op, t) → G.read op = true) → w.mem = s)
  alone : ∀ i op t, w.now i = some (op, t) → G.read op = false → ∀ j, j ≠ i → w.now j = none
  ro : ∀ i op t, w.now i = some (op, t) → G.read op = true → t.RO
  next : ∀ i op t, w.now i = some (op, t) → prog i (answersOf i w.log) = some op
  order : ∀ l₁ i op o l₂, w.log = l₁ ++ (i, op, o) :: l₂ → prog i (answersOf i l₁) = some op

theorem Inv.start (G : Guarded K V Op Out) (prog : ι → List Out → Option Op) (s₀ : St K V) (path₀ : List PathLink) :
    Inv G prog s₀ path₀ (World.start s₀ path₀) where
  main := ⟨s₀, rfl, fun _ _ _ h => (by cases h), fun _ => rfl⟩
  alone _ _ _ h := by cases h
  ro _ _ _ h := by cases h
  next _ _ _ h := by cases h
  order l₁ i op o l₂ h := by simp [World.start] at h

theorem upd_some {β : Type} {f : ι → Option β} {i j : ι} {a b : β} (h : upd f i (some a) j = some b) : (j = i ∧ b = a) ∨ (j ≠ i ∧ f j = some b) := by
  by_cases hj : j = i
  · subst hj; rw [upd_same] at h; exact Or.inl ⟨rfl, (Option.some.inj h).symm⟩
  · rw [upd_other _ _ hj] at h; exact Or.inr ⟨hj, h⟩

theorem upd_none {β : Type} {f : ι → Option β} {i j : ι} {b : β} (h : upd f i none j = some b) : j ≠ i ∧ f j = some b := by
  by_cases hj : j = i
  · subst hj; rw [upd_same] at h; cases h
  · rw [upd_other _ _ hj] at h; exact ⟨hj, h⟩

theorem answersOf_other {i j : ι} (h : j ≠ i) (log : List (ι × Op × Out)) (op : Op) (o : Out) : answersOf j (log ++ [(i, op, o)]) = answersOf j log := by
  unfold answersOf
  rw [List.filter_append, List.filter_cons_of_neg (by simpa using Ne.symm h)]
  simp

theorem snoc_cases {α : Type} {l l₁ l₂ : List α} {x y : α} (h : l ++ [x] = l₁ ++ y :: l₂) : (l = l₁ ∧ x = y) ∨ ∃ l₂', l = l₁ ++ y :: l₂' := by
  rcases List.eq_nil_or_concat l₂ with rfl | ⟨l₂', z, rfl⟩
  · have := List.append_inj' h rfl
    exact Or.inl ⟨this.1, (List.cons.inj this.2).1⟩
  · right
    refine ⟨l₂', ?_⟩
    have h' : l ++ [x] = (l₁ ++ y :: l₂') ++ [z] := by simpa using h
    exact (List.append_inj' h' rfl).1

theorem Inv.step {G : Guarded K V Op Out} {prog : ι → List Out → Option Op} {s₀ : St K V} {path₀ : List PathLink} {w w' : World ι K V Op Out}
    (h : Inv G prog s₀ path₀ w) (hs : Step G prog w w') : Inv G prog s₀ path₀ w' := by
  obtain ⟨⟨s, h1, h2, h3⟩, hal, hro, hnx, hor⟩ := h
  cases hs with
  | start i op idle next rlock lock =>
    have hmem : w.mem = s := by
      refine h3 fun j op' t hj => ?_
      cases hr : G.read op with
      | true => exact rlock hr j op' t hj
      | false => rw [lock hr j] at hj; cases hj
    refine ⟨⟨s, h1, fun j op' t hj => ?_, fun _ => hmem⟩, fun j op' t hj hr k hk => ?_, fun j op' t hj hr => ?_, fun j op' t hj => ?_, hor⟩
    · rcases upd_some hj with ⟨rfl, e⟩ | ⟨_, e⟩
      · cases e; rw [hmem]
      · exact h2 _ _ _ e
    · rcases upd_some hj with ⟨rfl, e⟩ | ⟨hji, e⟩
      · cases e
        show upd w.now j _ k = none
        rw [upd_other _ _ hk]; exact lock hr k
      · cases hr' : G.read op with
        | true => rw [rlock hr' j op' t e] at hr; cases hr
        | false => rw [lock hr' j] at e; cases e
    · rcases upd_some hj with ⟨rfl, e⟩ | ⟨_, e⟩
      · cases e; exact G.ro _ _ hr
      · exact hro _ _ _ e hr
    · rcases upd_some hj with ⟨rfl, e⟩ | ⟨_, e⟩
      · cases e; exact next
      · exact hnx _ _ _ e
  | access i op t busy =>
    cases hr : G.read op with
    | true =>
      have hst := RO.step (hro _ _ _ busy hr) w.mem
      have hall : (∀ i op t, w.now i = some (op, t) → G.read op = true) := fun j op' t' hj => by
        cases hr' : G.read op' with
        | true => rfl
        | false =>
          by_cases hji : i = j
          · subst hji; rw [busy] at hj; cases hj; rw [hr] at hr'; cases hr'
          · rw [hal j op' t' hj hr' i hji] at busy; cases busy
      refine ⟨⟨s, h1, fun j op' t' hj => ?_, fun _ => ?_⟩, fun j op' t' hj hr' k hk => ?_, fun j op' t' hj hr' => ?_, fun j op' t' hj => ?_, hor⟩
      · show t'.denote (t.step w.mem).2 = _
        rcases upd_some hj with ⟨rfl, e⟩ | ⟨_, e⟩
        · cases e; rw [T.step_denote]; exact h2 _ _ _ busy
        · rw [hst.2]; exact h2 _ _ _ e
      · show (t.step w.mem).2 = s
        rw [hst.2]; exact h3 hall
      · rcases upd_some hj with ⟨rfl, e⟩ | ⟨_, e⟩
        · cases e; rw [hr] at hr'; cases hr'
        · rw [hall _ _ _ e] at hr'; cases hr'
      · rcases upd_some hj with ⟨rfl, e⟩ | ⟨_, e⟩
        · cases e; exact hst.1
        · exact hro _ _ _ e hr'
      · rcases upd_some hj with ⟨rfl, e⟩ | ⟨_, e⟩
        · cases e; exact hnx _ _ _ busy
        · exact hnx _ _ _ e
    | false =>
      have hnone := hal _ _ _ busy hr
      refine ⟨⟨s, h1, fun j op' t' hj => ?_, fun hc => ?_⟩, fun j op' t' hj hr' k hk => ?_, fun j op' t' hj hr' => ?_, fun j op' t' hj => ?_, hor⟩
      · show t'.denote (t.step w.mem).2 = _
        rcases upd_some hj with ⟨rfl, e⟩ | ⟨hji, e⟩
        · cases e; rw [T.step_denote]; exact h2 _ _ _ busy
        · rw [hnone j hji] at e; cases e
      · have := hc i op _ (upd_same _ _ _)
        rw [hr] at this; cases this
      · rcases upd_some hj with ⟨rfl, e⟩ | ⟨hji, e⟩
        · show upd w.now j _ k = none
          rw [upd_other _ _ hk]; exact hnone k hk
        · rw [hnone j hji] at e; cases e
      · rcases upd_some hj with ⟨rfl, e⟩ | ⟨hji, e⟩
        · cases e; rw [hr] at hr'; cases hr'
        · exact hro _ _ _ e hr'
      · rcases upd_some hj with ⟨rfl, e⟩ | ⟨_, e⟩
        · cases e; exact hnx _ _ _ busy
        · exact hnx _ _ _ e
  | finish i op o p ends =>
    have hd : (G.call w.path op).denote s = .ok ((o, p), w.mem) := (h2 _ _ _ ends).symm.trans rfl
    have hpath : (if G.read op = true then w.path else p) = p := by
      cases hr : G.read op with
      | true => rw [if_pos rfl]; exact (G.keep _ _ hr _ _ _ _ hd).symm
      | false => rfl
    have hseq : G.seq path₀ ((w.log ++ [(i, op, o)]).map fun x => x.2.1) s₀ = .ok (((w.log ++ [(i, op, o)]).map fun x => x.2.2, p), w.mem) := by
      rw [List.map_append, List.map_append]
      show G.seq path₀ ((w.log.map fun x => x.2.1) ++ [op]) s₀ = _
      rw [Guarded.seq_snoc, bind_run, h1]
      dsimp only
      rw [bind_run, hd]
      rfl
    have hrest : ∀ j op' t', upd w.now i none j = some (op', t') → G.read op = true ∧ w.mem = s ∧ w.now j = some (op', t') ∧ j ≠ i := by
      intro j op' t' hj
      obtain ⟨hji, e⟩ := upd_none hj
      have hr : G.read op = true := by
        cases hr : G.read op with
        | true => rfl
        | false => rw [hal _ _ _ ends hr j hji] at e; cases e
      refine ⟨hr, h3 fun k op'' t'' hk => ?_, e, hji⟩
      cases hr' : G.read op'' with
      | true => rfl
      | false =>
        by_cases hki : i = k
        · subst hki; rw [ends] at hk; cases hk; rw [hr] at hr'; cases hr'
        · rw [hal _ _ _ hk hr' i hki] at ends; cases ends
    refine ⟨⟨w.mem, ?_, fun j op' t' hj => ?_, fun _ => rfl⟩, fun j op' t' hj hr' k hk => ?_, fun j op' t' hj hr' => ?_, fun j op' t' hj => ?_, ?_⟩
    · show _ = Except.ok ((_, if G.read op = true then w.path else p), w.mem)
      rw [hpath]; exact hseq
    · obtain ⟨hr, hm, e, _⟩ := hrest j op' t' hj
      show t'.denote w.mem = (G.call (if G.read op = true then w.path else p) op').denote w.mem
      rw [if_pos hr, h2 _ _ _ e, hm]
    · obtain ⟨hr, hm, e, _⟩ := hrest j op' t' hj
      show upd w.now i none k = none
      by_cases hki : k = i
      · subst hki; exact upd_same _ _ _
      · rw [upd_other _ _ hki]; exact hal _ _ _ e hr' k hk
    · obtain ⟨hr, hm, e, _⟩ := hrest j op' t' hj
      exact hro _ _ _ e hr'
    · obtain ⟨hr, hm, e, hji⟩ := hrest j op' t' hj
      show prog j (answersOf j (w.log ++ [(i, op, o)])) = some op'
      rw [answersOf_other hji]; exact hnx _ _ _ e
    · intro l₁ i' op' o' l₂ he
      rcases snoc_cases he with ⟨rfl, e⟩ | ⟨l₂', e⟩
      · cases e; exact hnx _ _ _ ends
      · exact hor _ _ _ _ _ e

theorem Inv.reach {G : Guarded K V Op Out} {prog : ι → List Out → Option Op} {s₀ : St K V} {path₀ : List PathLink} {w : World ι K V Op Out}
    (h : Reach G prog (World.start s₀ path₀) w) : Inv G prog s₀ path₀ w := by
  induction h with
  | refl => exact Inv.start G prog s₀ path₀
  | step _ hs ih => exact ih.step hs

/-- Every execution is a sequence of calls: those that have returned, in the order in which they did. -/
theorem lock_linear {G : Guarded K V Op Out} {prog : ι → List Out → Option Op} {s₀ : St K V} {path₀ : List PathLink} {w : World ι K V Op Out}
    (h : Reach G prog (World.start s₀ path₀) w) : ∃ s, G.seq path₀ (w.log.map fun x => x.2.1) s₀ = .ok ((w.log.map fun x => x.2.2, w.path), s) ∧
      ((∀ i, w.now i = none) → w.mem = s) := by
  obtain ⟨s, h1, _, h3⟩ := (Inv.reach h).main
  exact ⟨s, h1, fun hi => h3 fun i op t e => by rw [hi i] at e; cases e⟩

/-- A call that panics would have panicked after the calls that have returned. -/
theorem lock_fails {G : Guarded K V Op Out} {prog : ι → List Out → Option Op} {s₀ : St K V} {path₀ : List PathLink} {w : World ι K V Op Out}
    (h : Reach G prog (World.start s₀ path₀) w) {i : ι} {op : Op} {e : Fault} (hi : w.now i = some (op, .fail e)) :
    G.seq path₀ ((w.log.map fun x => x.2.1) ++ [op]) s₀ = .error e := by
  obtain ⟨s, h1, h2, _⟩ := (Inv.reach h).main
  have hd : (G.call w.path op).denote s = .error e := (h2 _ _ _ hi).symm.trans rfl
  rw [Guarded.seq_snoc, bind_run, h1]
  dsimp only
  rw [bind_run, hd]

end

/-! ### Every sequence of calls is an execution -/

section
variable {ι K V Op Out : Type} [DecidableEq ι]

/-- A call that is being executed can be brought to its end. -/
theorem Reach.runs {G : Guarded K V Op Out} {prog : ι → List Out → Option Op} {w₀ : World ι K V Op Out} {i : ι} {op : Op} {r : Out × List PathLink} {s' : St K V}
    (t : T K V (Out × List PathLink)) : ∀ {w : World ι K V Op Out}, Reach G prog w₀ w → w.now i = some (op, t) → t.denote w.mem = .ok (r, s') →
    Reach G prog w₀ { w with mem := s', now := upd w.now i (some (op, .ret r)) } := by
  have same : ∀ {w : World ι K V Op Out} {x : Option (Op × T K V (Out × List PathLink))}, w.now i = x → upd w.now i x = w.now := by
    intro w x h
    funext j
    by_cases hj : j = i
    · subst hj; rw [upd_same, h]
    · rw [upd_other _ _ hj]
  -- one access, then the rest
  have one : ∀ {t : T K V (Out × List PathLink)} {w : World ι K V Op Out}, Reach G prog w₀ w → w.now i = some (op, t) → t.denote w.mem = .ok (r, s') →
      (∀ {w' : World ι K V Op Out}, Reach G prog w₀ w' → w'.now i = some (op, (t.step w.mem).1) → (t.step w.mem).1.denote w'.mem = .ok (r, s') →
        Reach G prog w₀ { w' with mem := s', now := upd w'.now i (some (op, .ret r)) }) →
      Reach G prog w₀ { w with mem := s', now := upd w.now i (some (op, .ret r)) } := by
    intro t w hr hn hd rest
    have h1 := Reach.step hr (Step.access w i op t hn)
    have h2 := rest h1 (upd_same _ _ _) ((T.step_denote t w.mem).trans hd)
    have h3 : upd (upd w.now i (some (op, (t.step w.mem).1))) i (some (op, T.ret r)) = upd w.now i (some (op, .ret r)) := by
      funext j
      by_cases hj : j = i
      · subst hj; rw [upd_same, upd_same]
      · rw [upd_other _ _ hj, upd_other _ _ hj, upd_other _ _ hj]
    dsimp only at h2
    rw [h3] at h2
    exact h2
  induction t with
  | ret a =>
    intro w hr hn hd
    cases hd
    rw [same hn]
    exact hr
  | fail e => intro w hr hn hd; cases hd
  | load a k ih =>
    intro w hr hn hd
    refine one hr hn hd fun h1 h2 h3 => ?_
    revert h2 h3
    show _ = some (op, (Par.after (Amt.load a) k w.mem).1) → (Par.after (Amt.load a) k w.mem).1.denote _ = _ → _
    unfold Par.after
    cases Amt.load a w.mem with
    | error e => intro _ h; cases h
    | ok x => exact fun h2 h3 => ih _ h1 h2 h3
  | loadKv a k ih =>
    intro w hr hn hd
    refine one hr hn hd fun h1 h2 h3 => ?_
    revert h2 h3
    show _ = some (op, (Par.after (Amt.loadKv a) k w.mem).1) → (Par.after (Amt.loadKv a) k w.mem).1.denote _ = _ → _
    unfold Par.after
    cases Amt.loadKv a w.mem with
    | error e => intro _ h; cases h
    | ok x => exact fun h2 h3 => ih _ h1 h2 h3
  | getRoot a k ih =>
    intro w hr hn hd
    refine one hr hn hd fun h1 h2 h3 => ih _ h1 h2 h3
  | alloc a k ih =>
    intro w hr hn hd
    refine one hr hn hd fun h1 h2 h3 => ih _ h1 h2 h3
  | store a x k ih =>
    intro w hr hn hd
    refine one hr hn hd fun h1 h2 h3 => ?_
    revert h2 h3
    show _ = some (op, (Par.after (Amt.store a x) (fun _ => k) w.mem).1) → (Par.after (Amt.store a x) (fun _ => k) w.mem).1.denote _ = _ → _
    unfold Par.after
    cases Amt.store a x w.mem with
    | error e => intro _ h; cases h
    | ok x => exact fun h2 h3 => ih h1 h2 h3
  | put a x k ih =>
    intro w hr hn hd
    refine one hr hn hd fun h1 h2 h3 => ?_
    revert h2 h3
    show _ = some (op, (Par.after (modLink a x.put) (fun _ => k) w.mem).1) → (Par.after (modLink a x.put) (fun _ => k) w.mem).1.denote _ = _ → _
    unfold Par.after
    cases modLink a x.put w.mem with
    | error e => intro _ h; cases h
    | ok x => exact fun h2 h3 => ih h1 h2 h3
  | storeVal a x k ih =>
    intro w hr hn hd
    refine one hr hn hd fun h1 h2 h3 => ?_
    revert h2 h3
    show _ = some (op, (Par.after (Amt.storeVal a x) (fun _ => k) w.mem).1) → (Par.after (Amt.storeVal a x) (fun _ => k) w.mem).1.denote _ = _ → _
    unfold Par.after
    cases Amt.storeVal a x w.mem with
    | error e => intro _ h; cases h
    | ok x => exact fun h2 h3 => ih h1 h2 h3
  | modRoot a x k ih =>
    intro w hr hn hd
    refine one hr hn hd fun h1 h2 h3 => ih h1 h2 h3

/-- Each sequence of calls that is in the order of the goroutines that make them is an execution. -/
theorem lock_complete {G : Guarded K V Op Out} {prog : ι → List Out → Option Op} {s₀ : St K V} {path₀ : List PathLink} (log : List (ι × Op × Out)) :
    ∀ {path : List PathLink} {s : St K V}, G.seq path₀ (log.map fun x => x.2.1) s₀ = .ok ((log.map fun x => x.2.2, path), s) →
    (∀ l₁ i op o l₂, log = l₁ ++ (i, op, o) :: l₂ → prog i (answersOf i l₁) = some op) →
    Reach G prog (World.start s₀ path₀) ⟨s, path, fun _ => none, log⟩ := by
  induction h : log.length generalizing log with
  | zero =>
    intro path s h1 h2
    obtain rfl := List.length_eq_zero_iff.1 h
    cases h1
    exact Reach.refl
  | succ n ih =>
    intro path s h1 h2
    rcases List.eq_nil_or_concat log with rfl | ⟨l, ⟨i, op, o⟩, rfl⟩
    · cases h
    rw [List.concat_eq_append] at h h1 h2 ⊢
    rw [List.length_append] at h
    rw [List.map_append, List.map_append] at h1
    replace h1 : G.seq path₀ ((l.map fun x => x.2.1) ++ [op]) s₀ = .ok (((l.map fun x => x.2.2) ++ [o], path), s) := h1
    rw [Guarded.seq_snoc, bind_run] at h1
    cases hl : G.seq path₀ (l.map fun x => x.2.1) s₀ with
    | error e => rw [hl] at h1; cases h1
    | ok r =>
      obtain ⟨⟨os, p⟩, s₁⟩ := r
      rw [hl] at h1
      dsimp only at h1
      rw [bind_run] at h1
      cases hc : (G.call p op).denote s₁ with
      | error e => rw [hc] at h1; cases h1
      | ok r =>
        obtain ⟨⟨o', p'⟩, s₂⟩ := r
        rw [hc] at h1
        replace h1 : (Except.ok ((os ++ [o'], p'), s₂) : Except Fault _) = .ok (((l.map fun x => x.2.2) ++ [o], path), s) := h1
        obtain ⟨h3, rfl⟩ := Prod.mk.inj (Except.ok.inj h1)
        obtain ⟨h4, rfl⟩ := Prod.mk.inj h3
        obtain ⟨rfl, h5⟩ := List.append_inj' h4 rfl
        cases h5
        have h6 := ih l (by simpa using h) hl (fun l₁ j op' o' l₂ e => h2 l₁ j op' o' (l₂ ++ [(i, op, o)]) (by rw [e]; simp))
        have h7 := Reach.step h6 (Step.start ⟨s₁, p, fun _ => none, l⟩ i op rfl (h2 l i op o [] rfl) (fun _ j op' t e => by cases e) (fun _ _ => rfl))
        have h8 := Reach.runs _ h7 (upd_same _ _ _) hc
        have h9 := Reach.step h8 (Step.finish _ i op o p' (upd_same _ _ _))
        have e1 : (if G.read op = true then p else p') = p' := by
          cases hr : G.read op with
          | true => rw [if_pos rfl]; exact (G.keep _ _ hr _ _ _ _ hc).symm
          | false => rfl
        have e2 : upd (upd (upd (fun _ => none) i (some (op, G.call p op))) i (some (op, T.ret (o, p')))) i none = fun _ => none := by
          funext j
          by_cases hj : j = i
          · subst hj; rw [upd_same]
          · rw [upd_other _ _ hj, upd_other _ _ hj, upd_other _ _ hj]
        dsimp only at h9
        rw [e1, e2] at h9
        exact h9

end

end Amt.Par
