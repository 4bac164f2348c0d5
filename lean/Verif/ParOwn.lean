/-
Goroutines that share the memory, but no objects in it: every one does what it does solo.
-/
import Verif.ParNatMap
import Verif.ParNatMap2
import Verif.ParNatSet

set_option linter.unusedVariables false
set_option linter.unusedSectionVars false

namespace Amt.Par
open Amt
open Rn (mp)

/-! ### The same part of two memories -/

section
variable {K V α β : Type} {f : Nat → Nat}

/-- The memory `L` is found in `R`, at the addresses given by `f`. -/
def Part (f : Nat → Nat) (L R : St K V) : Prop := ∀ p, R.mem (f p) = (L.mem p).map (mp f) ∧ R.roots (f p) = L.roots p

/-- Nothing has changed at other addresses than those given by `f`. -/
def Keeps (f : Nat → Nat) (R R' : St K V) : Prop := ∀ a, (∀ p, a ≠ f p) → R'.mem a = R.mem a ∧ R'.roots a = R.roots a

theorem Keeps.refl (f : Nat → Nat) (R : St K V) : Keeps f R R := fun _ _ => ⟨rfl, rfl⟩

/-- An access has the same effect on both memories. -/
def Same {β' : Type} (f : Nat → Nat) (g : β → β') (R : St K V) : Except Fault (β × St K V) → Except Fault (β' × St K V) → Prop
  | .error e, .error e' => e' = e
  | .ok (b, L'), .ok (b', R') => b' = g b ∧ Part f L' R' ∧ Keeps f R R'
  | _, _ => False

theorem Same.load {L R : St K V} (h : Part f L R) (r : Ref) : Same f (mp f) R (Amt.load r L) (Amt.load (mp f r) R) := by
  obtain ⟨base, idx⟩ := r
  cases base with
  | nil => exact rfl
  | blk b =>
    show Same f (mp f) R (Amt.load ⟨.blk b, idx⟩ L) (Amt.load ⟨.blk (f b), idx⟩ R)
    unfold Amt.load
    dsimp only
    rw [(h b).1]
    rcases L.mem b with _ | xs | ⟨k, v⟩
    · exact rfl
    · show Same f (mp f) R _ (match (xs.map (mp f))[idx]? with | none => .error .outOfBounds | some x => .ok (x, R))
      dsimp only
      rw [List.getElem?_map]
      rcases xs[idx]? with _ | x
      · exact rfl
      · exact ⟨rfl, h, Keeps.refl f R⟩
    · exact rfl

theorem Part.write (hf : Function.Injective f) {L R : St K V} (h : Part f L R) (b : Nat) {o o' : Obj K V} (ho : o' = mp f o) :
    Part f { L with mem := fun a => if a = b then some o else L.mem a } { R with mem := fun a => if a = f b then some o' else R.mem a } ∧
    Keeps f R { R with mem := fun a => if a = f b then some o' else R.mem a } := by
  subst ho
  refine ⟨fun p => ⟨?_, (h p).2⟩, fun a ha => ⟨if_neg (ha b), rfl⟩⟩
  show (if f p = f b then some (mp f o) else R.mem (f p)) = (if p = b then some o else L.mem p).map (mp f)
  by_cases hp : p = b
  · rw [if_pos hp, if_pos (congrArg f hp)]; rfl
  · rw [if_neg hp, if_neg fun e => hp (hf e)]; exact (h p).1

theorem Same.store (hf : Function.Injective f) {L R : St K V} (h : Part f L R) (r : Ref) (x : Link) :
    Same f id R (Amt.store r x L) (Amt.store (mp f r) (mp f x) R) := by
  obtain ⟨base, idx⟩ := r
  cases base with
  | nil => exact rfl
  | blk b =>
    show Same f id R (Amt.store ⟨.blk b, idx⟩ x L) (Amt.store ⟨.blk (f b), idx⟩ (mp f x) R)
    unfold Amt.store
    dsimp only
    rw [(h b).1]
    rcases L.mem b with _ | xs | ⟨k, v⟩
    · exact rfl
    · show Same f id R _ (if idx < (xs.map (mp f)).length then .ok ((), { R with mem := fun a => if a = f b then some (.links ((xs.map (mp f)).set idx (mp f x))) else R.mem a })
        else .error .outOfBounds)
      dsimp only
      rw [List.length_map]
      by_cases hi : idx < xs.length
      · rw [if_pos hi, if_pos hi]
        exact ⟨rfl, Part.write hf h b (congrArg Obj.links List.map_set.symm)⟩
      · rw [if_neg hi, if_neg hi]; exact rfl
    · exact rfl

theorem Word.put_mp (w : Word) (x : Link) : (mp f w).put (mp f x) = mp f (w.put x) := by
  cases w <;> rfl

theorem Same.put (hf : Function.Injective f) {L R : St K V} (h : Part f L R) (r : Ref) (w : Word) :
    Same f id R (modLink r w.put L) (modLink (mp f r) (mp f w).put R) := by
  show Same f id R ((Amt.load r >>= fun x => Amt.store r (w.put x)) L) ((Amt.load (mp f r) >>= fun x => Amt.store (mp f r) ((mp f w).put x)) R)
  rw [bind_run, bind_run]
  have h1 := Same.load h r
  rcases h2 : Amt.load r L with e | ⟨x, L'⟩ <;> rcases h3 : Amt.load (mp f r) R with e' | ⟨x', R'⟩ <;> rw [h2, h3] at h1
  · exact h1
  · exact h1.elim
  · exact h1.elim
  · obtain ⟨rfl, hp, hk⟩ := h1
    cases load_mem h2
    cases load_mem h3
    dsimp only
    rw [Word.put_mp]
    exact Same.store hf h r _

theorem Same.alloc (hf : Function.Injective f) {L R : St K V} (h : Part f L R) (hn : f L.next = R.next) (o : Obj K V) :
    Same f (mp f) R (Amt.alloc o L) (Amt.alloc (mp f o) R) := by
  have h1 := Part.write hf h L.next (o := o) rfl
  rw [hn] at h1
  exact ⟨congrArg Ptr.blk hn.symm, h1.1, h1.2⟩

theorem Same.loadKv {L R : St K V} (h : Part f L R) (p : Ptr) : Same f id R (Amt.loadKv p L) (Amt.loadKv (mp f p) R) := by
  cases p with
  | nil => exact rfl
  | blk b =>
    show Same f id R (Amt.loadKv (.blk b) L) (Amt.loadKv (.blk (f b)) R)
    unfold Amt.loadKv
    dsimp only
    rw [(h b).1]
    rcases L.mem b with _ | xs | ⟨k, v⟩
    · exact rfl
    · exact rfl
    · exact ⟨rfl, h, Keeps.refl f R⟩

theorem Same.storeVal (hf : Function.Injective f) {L R : St K V} (h : Part f L R) (p : Ptr) (v : V) :
    Same f id R (Amt.storeVal p v L) (Amt.storeVal (mp f p) v R) := by
  cases p with
  | nil => exact rfl
  | blk b =>
    show Same f id R (Amt.storeVal (.blk b) v L) (Amt.storeVal (.blk (f b)) v R)
    unfold Amt.storeVal
    dsimp only
    rw [(h b).1]
    rcases L.mem b with _ | xs | ⟨k, v'⟩
    · exact rfl
    · exact rfl
    · exact ⟨rfl, Part.write hf h b (o := .kv k v) rfl⟩

theorem Same.getRoot {L R : St K V} (h : Part f L R) (b : Nat) : Same f id R (Amt.getRoot b L) (Amt.getRoot (f b) R) :=
  ⟨(h b).2, h, Keeps.refl f R⟩

theorem Same.modRoot (hf : Function.Injective f) {L R : St K V} (h : Part f L R) (b : Nat) (g : Meta → Meta) :
    Same f id R (Amt.modRoot b g L) (Amt.modRoot (f b) g R) := by
  refine ⟨rfl, fun p => ⟨(h p).1, ?_⟩, fun a ha => ⟨rfl, if_neg (ha b)⟩⟩
  show (if f p = f b then g (R.roots (f p)) else R.roots (f p)) = if p = b then g (L.roots p) else L.roots p
  rw [(h p).2]
  by_cases hp : p = b
  · rw [if_pos hp, if_pos (congrArg f hp)]
  · rw [if_neg hp, if_neg fun e => hp (hf e)]

/-- The next access makes an object. -/
def T.isAlloc : T K V α → Bool
  | .alloc .. => true
  | _ => false

theorem Nrel.isAlloc [Rn α] {t t' : T K V α} (h : Nrel f t t') : t'.isAlloc = t.isAlloc := by cases h <;> rfl

theorem Nrel.after {β' : Type} [Rn α] {g : β → β'} {L R : St K V} {x : M K V β} {x' : M K V β'} {k : β → T K V α} {k' : β' → T K V α} (h : Part f L R)
    (hx : Same f g R (x L) (x' R)) (hk : ∀ b, Nrel f (k b) (k' (g b))) :
    Nrel f (after x k L).1 (after x' k' R).1 ∧ Part f (after x k L).2 (after x' k' R).2 ∧ Keeps f R (after x' k' R).2 := by
  unfold Par.after
  rcases h2 : x L with e | ⟨b, L'⟩ <;> rcases h3 : x' R with e' | ⟨b', R'⟩ <;> rw [h2, h3] at hx
  · cases hx; exact ⟨.fail _, h, Keeps.refl f R⟩
  · exact hx.elim
  · exact hx.elim
  · obtain ⟨rfl, h4, h5⟩ := hx
    exact ⟨hk b, h4, h5⟩

/-- One access. -/
theorem Nrel.step [Rn α] (hf : Function.Injective f) {t t' : T K V α} (h : Nrel f t t') {L R : St K V} (hp : Part f L R) (hn : t.isAlloc = true → f L.next = R.next) :
    Nrel f (t.step L).1 (t'.step R).1 ∧ Part f (t.step L).2 (t'.step R).2 ∧ Keeps f R (t'.step R).2 := by
  cases h with
  | ret a => exact ⟨.ret a, hp, Keeps.refl f R⟩
  | fail e => exact ⟨.fail e, hp, Keeps.refl f R⟩
  | load r hk => exact Nrel.after hp (Same.load hp r) hk
  | store r x hk => exact Nrel.after hp (Same.store hf hp r x) fun _ => hk
  | put r w hk => exact Nrel.after hp (Same.put hf hp r w) fun _ => hk
  | alloc o hk => exact Nrel.after hp (Same.alloc hf hp (hn rfl) o) hk
  | loadKv p hk => exact Nrel.after hp (Same.loadKv hp p) hk
  | storeVal p v hk => exact Nrel.after hp (Same.storeVal hf hp p v) fun _ => hk
  | getRoot b hk => exact Nrel.after hp (Same.getRoot hp b) hk
  | modRoot b g hk => exact Nrel.after hp (Same.modRoot hf hp b g) fun _ => hk

theorem store_next {r : Ref} {x : Link} {s s' : St K V} {u : Unit} (h : Amt.store r x s = .ok (u, s')) : s'.next = s.next := by
  unfold Amt.store at h
  split at h
  · cases h
  · split at h
    · cases h
    · cases h
    · split at h
      · cases h; rfl
      · cases h

theorem storeVal_next {p : Ptr} {v : V} {s s' : St K V} {u : Unit} (h : Amt.storeVal p v s = .ok (u, s')) : s'.next = s.next := by
  unfold Amt.storeVal at h
  split at h
  · cases h
  · split at h
    · cases h
    · cases h
    · cases h; rfl

theorem after_next {x : M K V β} {k : β → T K V α} {s : St K V} (hx : ∀ b s', x s = .ok (b, s') → s'.next = s.next) : (after x k s).2.next = s.next := by
  unfold Par.after
  cases h : x s with
  | error e => rfl
  | ok r => exact hx _ _ h

/-- An access makes at most one object. -/
theorem step_next (t : T K V α) (s : St K V) : (t.step s).2.next = s.next + (if t.isAlloc = true then 1 else 0) := by
  cases t with
  | ret a => rfl
  | fail e => rfl
  | alloc o k => rfl
  | load r k => exact after_next fun _ _ h => by rw [load_mem h]
  | store r x k => exact after_next fun _ _ h => store_next h
  | put r w k =>
    refine after_next fun _ _ h => ?_
    replace h : (Amt.load r >>= fun x => Amt.store r (w.put x)) s = _ := h
    rw [bind_run] at h
    cases h1 : Amt.load r s with
    | error e => rw [h1] at h; cases h
    | ok x =>
      rw [h1] at h
      rw [store_next h, load_mem h1]
  | loadKv p k => exact after_next fun _ _ h => by rw [loadKv_mem h]
  | storeVal p v k => exact after_next fun _ _ h => storeVal_next h
  | getRoot b k => exact after_next fun _ _ h => by cases h; rfl
  | modRoot b g k => exact after_next fun _ _ h => by cases h; rfl

/-- `n` accesses of a program that runs alone. -/
def solo : Nat → T K V α → St K V → T K V α × St K V
  | 0, t, s => (t, s)
  | n + 1, t, s => solo n (t.step s).1 (t.step s).2

theorem solo_denote : ∀ (n : Nat) (t : T K V α) (s : St K V), (solo n t s).1.denote (solo n t s).2 = t.denote s
  | 0, t, s => rfl
  | n + 1, t, s => (solo_denote n _ _).trans (T.step_denote t s)

theorem solo_done {t : T K V α} (h : t.Done) (s : St K V) : ∀ n, solo n t s = (t, s)
  | 0 => rfl
  | n + 1 => by rw [solo, Done.step h]; exact solo_done h s n

/-- A program ends, with a result or in a panic: the loops are bounded. -/
theorem solo_ends (t : T K V α) : ∀ s : St K V, ∃ N, ∀ n, N ≤ n → (solo n t s).1.Done := by
  have zero : ∀ (t : T K V α) (s : St K V), t.Done → ∃ N, ∀ n, N ≤ n → (solo n t s).1.Done := fun t s ht => ⟨0, fun n _ => by rw [solo_done ht]; exact ht⟩
  have one : ∀ (t : T K V α) (s : St K V), (∃ N, ∀ n, N ≤ n → (solo n (t.step s).1 (t.step s).2).1.Done) → ∃ N, ∀ n, N ≤ n → (solo n t s).1.Done := by
    rintro t s ⟨N, hN⟩
    refine ⟨N + 1, fun n hn => ?_⟩
    cases n with
    | zero => cases hn
    | succ n => exact hN n (Nat.le_of_succ_le_succ hn)
  have aft : ∀ {β : Type} (x : M K V β) (k : β → T K V α) (s : St K V), (∀ b s, ∃ N, ∀ n, N ≤ n → (solo n (k b) s).1.Done) →
      ∃ N, ∀ n, N ≤ n → (solo n (after x k s).1 (after x k s).2).1.Done := by
    intro β x k s hk
    unfold after
    cases x s with
    | error e => exact zero _ _ trivial
    | ok r => exact hk _ _
  induction t with
  | ret a => exact fun s => zero _ _ trivial
  | fail e => exact fun s => zero _ _ trivial
  | load r k ih => exact fun s => one _ _ (aft _ _ _ ih)
  | store r x k ih => exact fun s => one _ _ (aft _ _ _ fun _ => ih)
  | put r x k ih => exact fun s => one _ _ (aft _ _ _ fun _ => ih)
  | alloc o k ih => exact fun s => one _ _ (aft _ _ _ ih)
  | loadKv p k ih => exact fun s => one _ _ (aft _ _ _ ih)
  | storeVal p v k ih => exact fun s => one _ _ (aft _ _ _ fun _ => ih)
  | getRoot b k ih => exact fun s => one _ _ (aft _ _ _ ih)
  | modRoot b g k ih => exact fun s => one _ _ (aft _ _ _ fun _ => ih)

end

/-! ### Any number of goroutines -/

section
variable {ι K V α : Type} [DecidableEq ι] [Rn α]

/-- The addresses of the objects that goroutine `i` makes, in this order. -/
def allocs (i : ι) : List ι → (ι → T K V α) → St K V → List Nat
  | [], _, _ => []
  | j :: sched, ts, s => (if j = i ∧ (ts j).isAlloc = true then [s.next] else []) ++ allocs i sched (upd ts j ((ts j).step s).1) ((ts j).step s).2

theorem interleave_next (sched : List ι) : ∀ (ts : ι → T K V α) (s : St K V), s.next ≤ (interleave sched ts s).2.next := by
  induction sched with
  | nil => intro ts s; exact Nat.le_refl _
  | cons j sched ih =>
    intro ts s
    refine Nat.le_trans ?_ (ih _ _)
    rw [step_next]
    exact Nat.le_add_right _ _

theorem allocs_mem (i : ι) (sched : List ι) : ∀ (ts : ι → T K V α) (s : St K V) (a : Nat), a ∈ allocs i sched ts s →
    s.next ≤ a ∧ a < (interleave sched ts s).2.next := by
  induction sched with
  | nil => intro ts s a h; cases h
  | cons j sched ih =>
    intro ts s a h
    rw [allocs, List.mem_append] at h
    have hn := step_next (ts j) s
    rcases h with h | h
    · split at h
      · next hc =>
        cases List.mem_singleton.1 h
        refine ⟨Nat.le_refl _, Nat.lt_of_lt_of_le ?_ (interleave_next sched _ _)⟩
        rw [hn, if_pos hc.2]; exact Nat.lt_succ_self _
      · cases h
    · have := ih _ _ a h
      exact ⟨Nat.le_trans (by rw [hn]; exact Nat.le_add_right _ _) this.1, this.2⟩

theorem allocs_sorted (i : ι) (sched : List ι) : ∀ (ts : ι → T K V α) (s : St K V), (allocs i sched ts s).Pairwise (· < ·) := by
  induction sched with
  | nil => intro ts s; exact List.Pairwise.nil
  | cons j sched ih =>
    intro ts s
    rw [allocs]
    split
    · next hc =>
      refine List.Pairwise.cons (fun a ha => ?_) (ih _ _)
      have h1 := (allocs_mem i sched _ _ a ha).1
      rw [step_next, if_pos hc.2] at h1
      exact h1
    · exact ih _ _

theorem allocs_apart {i i' : ι} (hi : i ≠ i') (sched : List ι) : ∀ (ts : ι → T K V α) (s : St K V) (a : Nat), a ∈ allocs i sched ts s → a ∉ allocs i' sched ts s := by
  induction sched with
  | nil => intro ts s a h; cases h
  | cons j sched ih =>
    intro ts s a h h'
    rw [allocs, List.mem_append] at h h'
    -- the object made now is made by one goroutine, later ones have larger addresses
    have key : ∀ k k' : ι, k ≠ k' → a ∈ (if j = k ∧ (ts j).isAlloc = true then [s.next] else []) →
        (a ∈ (if j = k' ∧ (ts j).isAlloc = true then [s.next] else []) ∨ a ∈ allocs k' sched (upd ts j ((ts j).step s).1) ((ts j).step s).2) → False := by
      intro k k' hk h1 h2
      split at h1
      · next hc =>
        cases List.mem_singleton.1 h1
        rcases h2 with h2 | h2
        · split at h2
          · next hc' => exact hk (hc.1.symm.trans hc'.1)
          · cases h2
        · have h3 := (allocs_mem k' sched _ _ _ h2).1
          rw [step_next, if_pos hc.2] at h3
          exact absurd h3 (Nat.not_succ_le_self _)
      · cases h1
    rcases h with h | h
    · exact key i i' hi h h'
    · rcases h' with h' | h'
      · exact key i' i (Ne.symm hi) h' (Or.inr h)
      · exact ih _ _ a h h'

/-- The goroutines in one memory, each of them alone in a memory of its own, and how the memories are related. -/
structure Own (fs : ι → Nat → Nat) (sched : List ι) (tl : ι → T K V α) (L : ι → St K V) (ts : ι → T K V α) (R : St K V) : Prop where
  prog : ∀ i, Nrel (fs i) (tl i) (ts i)
  part : ∀ i, Part (fs i) (L i) R
  names : ∀ i k a, (allocs i sched ts R)[k]? = some a → fs i ((L i).next + k) = a

theorem Own.run (fs : ι → Nat → Nat) (hf : ∀ i, Function.Injective (fs i)) (hd : ∀ i j p q, i ≠ j → fs i p ≠ fs j q) (sched : List ι) :
    ∀ (tl : ι → T K V α) (L : ι → St K V) (ts : ι → T K V α) (R : St K V), Own fs sched tl L ts R →
      (∀ i, Nrel (fs i) (solo (sched.count i) (tl i) (L i)).1 ((interleave sched ts R).1 i) ∧ Part (fs i) (solo (sched.count i) (tl i) (L i)).2 (interleave sched ts R).2) ∧
      ∀ a, (∀ i p, a ≠ fs i p) → (interleave sched ts R).2.mem a = R.mem a ∧ (interleave sched ts R).2.roots a = R.roots a := by
  induction sched with
  | nil => intro tl L ts R h; exact ⟨fun i => ⟨h.prog i, h.part i⟩, fun a _ => ⟨rfl, rfl⟩⟩
  | cons j sched ih =>
    intro tl L ts R h
    have hal : (tl j).isAlloc = true → fs j (L j).next = R.next := by
      intro hc
      have h1 := h.names j 0 R.next (by rw [allocs, if_pos ⟨rfl, by rw [(h.prog j).isAlloc, hc]⟩]; rfl)
      exact h1
    have hs := Nrel.step (hf j) (h.prog j) (h.part j) hal
    have h1 := ih (upd tl j ((tl j).step (L j)).1) (upd L j ((tl j).step (L j)).2) (upd ts j ((ts j).step R).1) ((ts j).step R).2 ⟨?_, ?_, ?_⟩
    · refine ⟨fun i => ?_, fun a ha => ?_⟩
      · have h2 := h1.1 i
        by_cases hij : i = j
        · subst hij
          rw [List.count_cons_self, interleave]
          rw [upd_same, upd_same] at h2
          exact h2
        · rw [List.count_cons_of_ne (Ne.symm hij), interleave]
          rw [upd_other _ _ hij, upd_other _ _ hij] at h2
          exact h2
      · have h2 := h1.2 a ha
        have h3 := hs.2.2 a (ha j)
        rw [interleave]
        exact ⟨h2.1.trans h3.1, h2.2.trans h3.2⟩
    · intro i
      by_cases hij : i = j
      · subst hij; rw [upd_same, upd_same]; exact hs.1
      · rw [upd_other _ _ hij, upd_other _ _ hij]; exact h.prog i
    · intro i
      by_cases hij : i = j
      · subst hij; rw [upd_same]; exact hs.2.1
      · rw [upd_other _ _ hij]
        intro p
        have h3 := hs.2.2 (fs i p) (fun q => hd i j p q hij)
        exact ⟨h3.1.trans (h.part i p).1, h3.2.trans (h.part i p).2⟩
    · intro i k a ha
      by_cases hij : i = j
      · subst hij
        rw [upd_same, step_next]
        have hia := (h.prog i).isAlloc
        by_cases hc : (tl i).isAlloc = true
        · have h2 := h.names i (k + 1) a (by rw [allocs, if_pos ⟨rfl, hia.trans hc⟩]; exact ha)
          rw [if_pos hc, Nat.add_assoc, Nat.add_comm 1 k]
          exact h2
        · have h2 := h.names i k a (by rw [allocs, if_neg fun e => hc (hia.symm.trans e.2)]; exact ha)
          rw [if_neg hc]
          exact h2
      · rw [upd_other _ _ hij]
        exact h.names i k a (by rw [allocs, if_neg fun e => hij e.1.symm]; exact ha)

end

/-! ### Goroutines that start with nothing -/

section
variable {K V α : Type} [Rn α] {n : Nat}

/-- The goroutine gives no address away, and does the same wherever its objects are. -/
def Natural (t : T K V α) : Prop := ∀ f, Nrel f t t

/-- Nothing is in the memory that is yet to be allocated. -/
def Clean (s : St K V) : Prop := ∀ a, s.next ≤ a → s.mem a = none ∧ s.roots a = {}

theorem Clean.init : Clean (St.init : St K V) := fun _ _ => ⟨rfl, rfl⟩

/-- Where the objects of goroutine `i` are: the `j`th object that it makes when it is alone. -/
def place (sched : List (Fin n)) (ts : Fin n → T K V α) (s : St K V) (i : Fin n) (j : Nat) : Nat :=
  ((allocs i sched ts s)[j]?).getD ((interleave sched ts s).2.next + (j * n + i.val))

theorem place_cases (sched : List (Fin n)) (ts : Fin n → T K V α) (s : St K V) (i : Fin n) (j : Nat) :
    (∃ h : j < (allocs i sched ts s).length, place sched ts s i j = (allocs i sched ts s)[j] ∧ place sched ts s i j ∈ allocs i sched ts s) ∨
    ((allocs i sched ts s).length ≤ j ∧ place sched ts s i j = (interleave sched ts s).2.next + (j * n + i.val)) := by
  unfold place
  by_cases h : j < (allocs i sched ts s).length
  · left
    refine ⟨h, ?_⟩
    rw [List.getElem?_eq_getElem h]
    exact ⟨rfl, List.getElem_mem h⟩
  · right
    refine ⟨Nat.le_of_not_lt h, ?_⟩
    rw [List.getElem?_eq_none (Nat.le_of_not_lt h)]
    rfl

theorem pair_inj {j j' : Nat} {i i' : Fin n} (h : j * n + i.val = j' * n + i'.val) : j = j' ∧ i = i' := by
  have hn : 0 < n := Nat.lt_of_le_of_lt (Nat.zero_le _) i.isLt
  have h1 : (j * n + i.val) / n = j := by rw [Nat.add_comm, Nat.add_mul_div_right _ _ hn, Nat.div_eq_of_lt i.isLt, Nat.zero_add]
  have h2 : (j' * n + i'.val) / n = j' := by rw [Nat.add_comm, Nat.add_mul_div_right _ _ hn, Nat.div_eq_of_lt i'.isLt, Nat.zero_add]
  have h3 : j = j' := by rw [← h1, h, h2]
  subst h3
  exact ⟨rfl, Fin.ext (Nat.add_left_cancel h)⟩

theorem place_eq (sched : List (Fin n)) (ts : Fin n → T K V α) (s : St K V) (i i' : Fin n) (j j' : Nat) (h : place sched ts s i j = place sched ts s i' j') :
    i = i' ∧ j = j' := by
  rcases place_cases sched ts s i j with ⟨h1, h2, h3⟩ | ⟨h1, h2⟩ <;> rcases place_cases sched ts s i' j' with ⟨h1', h2', h3'⟩ | ⟨h1', h2'⟩
  · by_cases hi : i = i'
    · subst hi
      refine ⟨rfl, ?_⟩
      have hp := allocs_sorted i sched ts s
      rw [List.pairwise_iff_getElem] at hp
      have he : (allocs i sched ts s)[j] = (allocs i sched ts s)[j'] := h2.symm.trans (h.trans h2')
      rcases Nat.lt_trichotomy j j' with hlt | heq | hgt
      · have := hp j j' h1 h1' hlt; omega
      · exact heq
      · have := hp j' j h1' h1 hgt; omega
    · rw [← h] at h3'
      exact absurd h3' (allocs_apart hi sched ts s _ h3)
  · have := (allocs_mem i sched ts s _ h3).2
    rw [h, h2'] at this
    exact absurd this (Nat.not_lt.2 (Nat.le_add_right _ _))
  · have := (allocs_mem i' sched ts s _ h3').2
    rw [← h, h2] at this
    exact absurd this (Nat.not_lt.2 (Nat.le_add_right _ _))
  · rw [h2, h2'] at h
    exact (pair_inj (Nat.add_left_cancel h)).symm.imp id id

theorem place_ge (sched : List (Fin n)) (ts : Fin n → T K V α) (s : St K V) (i : Fin n) (j : Nat) : s.next ≤ place sched ts s i j := by
  rcases place_cases sched ts s i j with ⟨h1, h2, h3⟩ | ⟨h1, h2⟩
  · exact (allocs_mem i sched ts s _ h3).1
  · rw [h2]
    exact Nat.le_trans (interleave_next sched ts s) (Nat.le_add_right _ _)

/-- Goroutines that start with nothing, in a memory in which there may be other objects: after any schedule each is where it is when it has made as many
accesses solo in an empty memory, up to the addresses of its objects; what was in memory before is as it was. -/
theorem own (sched : List (Fin n)) (ts : Fin n → T K V α) (hts : ∀ i, Natural (ts i)) {s : St K V} (hs : Clean s) :
    (∀ i, Nrel (place sched ts s i) (solo (sched.count i) (ts i) St.init).1 ((interleave sched ts s).1 i) ∧
      Part (place sched ts s i) (solo (sched.count i) (ts i) St.init).2 (interleave sched ts s).2) ∧
    ∀ a, a < s.next → (interleave sched ts s).2.mem a = s.mem a ∧ (interleave sched ts s).2.roots a = s.roots a := by
  have h := Own.run (place sched ts s) (fun i p q h => (place_eq sched ts s i i p q h).2) (fun i j p q hij h => hij (place_eq sched ts s i j p q h).1) sched
    ts (fun _ => St.init) ts s ⟨fun i => hts i _, fun i p => hs _ (place_ge sched ts s i p), fun i k a ha => by
      show place sched ts s i (0 + k) = a
      unfold place
      rw [Nat.zero_add, ha]; rfl⟩
  exact ⟨h.1, fun a ha => h.2 a fun i p e => absurd (place_ge sched ts s i p) (Nat.not_le.2 (e ▸ ha))⟩

/-- What a program has come to: nothing yet, a panic, or a result. -/
def T.came : T K V α → Option (Except Fault α)
  | .ret a => some (.ok a)
  | .fail e => some (.error e)
  | _ => none

theorem Nrel.came {f : Nat → Nat} (hα : ∀ a : α, mp f a = a) {t t' : T K V α} (h : Nrel f t t') : t'.came = t.came := by
  cases h <;> first | rfl | (rw [hα]; done)

theorem Done.came {t : T K V α} (h : t.Done) : ∃ r, t.came = some r := by
  cases t <;> first | exact ⟨_, rfl⟩ | exact h.elim

theorem came_denote {t : T K V α} {r : Except Fault α} (h : t.came = some r) (s : St K V) :
    t.denote s = (match r with | .ok a => .ok (a, s) | .error e => .error e) := by
  cases t <;> cases h <;> rfl

/-- Goroutines that return no addresses: after any schedule each has come to what it comes to when it has made as many accesses alone. -/
theorem own_came (hα : ∀ f (a : α), mp f a = a) (sched : List (Fin n)) (ts : Fin n → T K V α) (hts : ∀ i, Natural (ts i)) {s : St K V} (hs : Clean s) (i : Fin n) :
    ((interleave sched ts s).1 i).came = (solo (sched.count i) (ts i) St.init).1.came :=
  ((own sched ts hts hs).1 i).1.came (hα _)

theorem Nrel.done {f : Nat → Nat} {t t' : T K V α} (h : Nrel f t t') (ht : t.Done) : t'.Done := by cases h <;> first | trivial | exact ht.elim

/-- Each ends after a number of accesses of its own that depends neither on the schedule nor on the others. -/
theorem own_ends (t : T K V α) : ∃ N, ∀ (n : Nat) (sched : List (Fin n)) (ts : Fin n → T K V α) (s : St K V) (i : Fin n), (∀ i, Natural (ts i)) → Clean s → ts i = t →
    N ≤ sched.count i → ((interleave sched ts s).1 i).Done := by
  obtain ⟨N, hN⟩ := solo_ends t St.init
  refine ⟨N, fun n sched ts s i hts hs he hc => ((own sched ts hts hs).1 i).1.done ?_⟩
  rw [he]
  exact hN _ hc

theorem own_solo (hα : ∀ f (a : α), mp f a = a) (sched : List (Fin n)) (ts : Fin n → T K V α) (hts : ∀ i, Natural (ts i)) {s : St K V} (hs : Clean s) (i : Fin n)
    {r : Except Fault α} (hr : ((interleave sched ts s).1 i).came = some r) :
    (match (ts i).denote St.init with | .ok x => Except.ok x.1 | .error e => .error e) = r := by
  rw [own_came hα sched ts hts hs i] at hr
  have h1 := solo_denote (sched.count i) (ts i) St.init
  rw [came_denote hr] at h1
  rw [← h1]
  cases r <;> rfl

end

end Amt.Par
