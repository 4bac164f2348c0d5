/-
Goroutines that share a container (C81): with a `sync.RWMutex` all is well, without it is not.
-/
import Verif.ParHist
import Verif.Examples

set_option linter.unusedVariables false
set_option linter.unusedSectionVars false

namespace Amt.Par
open Amt Spec

/-! ### Calls -/

/-- The calls of a map that take the read lock. -/
inductive Read (K V : Type) where
  | get (k : K)
  | val (k : K)
  | ptr (k : K)
  | len
  | dep
  /-- `f log k v` is what the callback returns after the calls in `log`. -/
  | all (f : List (K × V) → K → V → Bool)

/-- A call with the read lock, or with the lock. -/
inductive Call (K V : Type) where
  | rlock (op : Read K V)
  | lock (op : MOp K V)

/-- The call without the lock. -/
def Call.op {K V : Type} : Call K V → MOp K V
  | .rlock (.get k) => .get k
  | .rlock (.val k) => .val k
  | .rlock (.ptr k) => .ptr k
  | .rlock .len => .len
  | .rlock .dep => .dep
  | .rlock (.all f) => .all fun log k v => (v, f log k v)
  | .lock op => op

/-- A call with the read lock? -/
def Call.isRead {K V : Type} : Call K V → Bool
  | .rlock _ => true
  | .lock _ => false

/-- The calls of a set; `Has`, `Len`, `Dep` and `All` may take the read lock. -/
inductive SCall (K : Type) where
  | rlock (op : SOp K) (h : ∀ k, op ≠ .add k ∧ op ≠ .del k)
  | lock (op : SOp K)

def SCall.op {K : Type} : SCall K → SOp K
  | .rlock op _ => op
  | .lock op => op

def SCall.isRead {K : Type} : SCall K → Bool
  | .rlock .. => true
  | .lock _ => false

section
variable {K V : Type}

/-- A callback of `All` that looks at the value and leaves it alone. -/
def readCb (f : List (K × V) → K → V → Bool) (log : List (K × V)) (k : K) (p : Ptr) : T K V (List (K × V) × Bool) := do
  let v ← kvVal p
  pure (log ++ [(k, v)], f log k v)

/-- The program of a call. -/
def MapTree.call (G : MapTree K V) (n : Nat) (m : Handle) (path : List PathLink) : Call K V → T K V (MOut K V × List PathLink)
  | .rlock (.all f) => do let l ← G.All n m (readCb f) []; pure (.log l, path)
  | c => G.exec n m path c.op

theorem readCb_den (f : List (K × V) → K → V → Bool) (a : List (K × V)) (b : K) (c : Ptr) :
    Den (readCb f a b c) (Go.allCb (fun log k v => (v, f log k v)) a b c) := by
  have h : (Go.kvVal (K := K) (V := V) c >>= fun v => pure (a ++ [(b, v)], f a b v)) = Go.allCb (fun log k v => (v, f log k v)) a b c := by
    funext s
    show (Go.kvVal c >>= fun v => pure (a ++ [(b, v)], f a b v)) s = (Go.kvVal c >>= fun v => Amt.storeVal c v >>= fun _ => pure (a ++ [(b, v)], f a b v)) s
    rw [bind_run, bind_run]
    unfold Go.kvVal
    rw [bind_run]
    unfold Amt.loadKv
    cases c with
    | nil => rfl
    | blk p =>
      cases hm : s.mem p with
      | none => simp only [hm]
      | some o =>
        cases o with
        | links xs => simp only [hm]
        | kv k v =>
          simp only [hm]
          show Except.ok _ = (Amt.storeVal (.blk p) v >>= fun _ => pure _) s
          rw [bind_run]
          unfold Amt.storeVal
          simp only [hm]
          show Except.ok (_, s) = Except.ok (_, _)
          congr 2
          have : (fun a => if a = p then some (Obj.kv k v) else s.mem a) = s.mem := by
            funext a
            split
            · next h => rw [h, hm]
            · rfl
          rw [this]
  rw [← h]
  exact Den.bind (Den.kvVal _) fun _ => Den.pure _

variable [Inhabited V]

theorem MapTree.Of.call {G : MapTree K V} {C : Go.MapCode K V} (h : G.Of C) (n : Nat) (m : Handle) (path : List PathLink) (c : Call K V) :
    Den (G.call n m path c) (C.exec n m path c.op) := by
  cases c with
  | lock op => exact h.exec n m path op
  | rlock op =>
    cases op with
    | all f => exact Den.bind (h.all n m _ _ _ fun a b c => readCb_den f a b c) fun _ => Den.pure _
    | get k => exact h.exec n m path (.get k)
    | val k => exact h.exec n m path (.val k)
    | ptr k => exact h.exec n m path (.ptr k)
    | len => exact h.exec n m path .len
    | dep => exact h.exec n m path .dep

theorem keep_of {α β : Type} {x : M K V α} {g : α → β} {path : List PathLink} {s : St K V} {o : β} {p : List PathLink} {s' : St K V}
    (h : (x >>= fun a => pure (g a, path)) s = .ok ((o, p), s')) : p = path := by
  rw [bind_run] at h
  cases hx : x s with
  | error e => rw [hx] at h; cases h
  | ok r => rw [hx] at h; cases h; rfl

/-- The calls of a map with their locks. -/
def MapTree.Of.guarded {G : MapTree K V} {C : Go.MapCode K V} (h : G.Of C) (n : Nat) (m : Handle) : Guarded K V (Call K V) (MOut K V) where
  call := G.call n m
  read := Call.isRead
  ro path c hc := by
    cases c with
    | lock op => cases hc
    | rlock op =>
      cases op with
      | get k => exact RO.bind (h.get_ro n m k) fun _ => RO.pure _
      | val k => exact RO.bind (h.val_ro n m k) fun _ => RO.pure _
      | ptr k => exact RO.bind (h.ptr_ro n m k) fun _ => RO.ite (RO.pure _) (RO.bind (RO.kvVal _) fun _ => RO.pure _)
      | len => exact RO.bind (Len_ro m) fun _ => RO.pure _
      | dep => exact RO.bind (Dep_ro m) fun _ => RO.pure _
      | all f => exact RO.bind (h.all_ro n m _ _ fun a b c => RO.bind (RO.kvVal _) fun _ => RO.pure _) fun _ => RO.pure _
  keep path c hc s o p s' he := by
    rw [(h.call n m path c).eq] at he
    cases c with
    | lock op => cases hc
    | rlock op =>
      cases op with
      | get k => exact keep_of he
      | val k => exact keep_of he
      | len => exact keep_of he
      | dep => exact keep_of he
      | all f => exact keep_of he
      | ptr k =>
        replace he : (C.Ptr n m k >>= fun p => if p = .nil then pure (MOut.opt none, path) else Go.kvVal p >>= fun v => pure (MOut.opt (some v), path)) s = Except.ok ((o, p), s') := he
        rw [bind_run] at he
        cases hx : C.Ptr n m k s with
        | error e => rw [hx] at he; cases he
        | ok r =>
          rw [hx] at he
          dsimp only at he
          split at he
          · cases he; rfl
          · exact keep_of he

theorem MapTree.Of.seq {G : MapTree K V} {C : Go.MapCode K V} (h : G.Of C) (n : Nat) (m : Handle) (cs : List (Call K V)) : ∀ (path : List PathLink),
    C.run n m path (cs.map Call.op) = ((h.guarded n m).seq path cs >>= fun r => pure r.1) := by
  have pure_bind' : ∀ {α β : Type} (a : α) (f : α → M K V β), ((pure a : M K V α) >>= f) = f a := fun _ _ => rfl
  induction cs with
  | nil => intro path; rfl
  | cons c cs ih =>
    intro path
    rw [List.map_cons, Go.MapCode.run, Guarded.seq, M.bind_assoc', show ((h.guarded n m).call path c).denote = C.exec n m path c.op from (h.call n m path c).eq]
    simp only [ih, M.bind_assoc', pure_bind']

/-- The program of a call of a set. -/
def SetTree.call (G : SetTree K) (n : Nat) (m : Handle) (path : List PathLink) (c : SCall K) : T K Unit (SOut K × List PathLink) := G.exec n m path c.op

/-- The calls of a set with their locks. -/
def SetTree.Of.guarded {G : SetTree K} {C : Go.SetCode K} (h : G.Of C) (n : Nat) (m : Handle) : Guarded K Unit (SCall K) (SOut K) where
  call := G.call n m
  read := SCall.isRead
  ro path c hc := by
    cases c with
    | lock op => cases hc
    | rlock op hop =>
      cases op with
      | has k => exact RO.bind (h.has_ro n m k) fun _ => RO.pure _
      | add k => exact absurd rfl (hop k).1
      | del k => exact absurd rfl (hop k).2
      | len => exact RO.bind (Len_ro m) fun _ => RO.pure _
      | dep => exact RO.bind (Dep_ro m) fun _ => RO.pure _
      | all f => exact RO.bind (h.all_ro n m _ _ fun a b => RO.pure _) fun _ => RO.pure _
  keep path c hc s o p s' he := by
    replace he : C.exec n m path c.op s = Except.ok ((o, p), s') := by rw [← (h.exec n m path c.op).eq]; exact he
    cases c with
    | lock op => cases hc
    | rlock op hop =>
      cases op with
      | has k => exact keep_of he
      | add k => exact absurd rfl (hop k).1
      | del k => exact absurd rfl (hop k).2
      | len => exact keep_of he
      | dep => exact keep_of he
      | all f => exact keep_of he

theorem SetTree.Of.seq {G : SetTree K} {C : Go.SetCode K} (h : G.Of C) (n : Nat) (m : Handle) (cs : List (SCall K)) : ∀ (path : List PathLink),
    C.run n m path (cs.map SCall.op) = ((h.guarded n m).seq path cs >>= fun r => pure r.1) := by
  have pure_bind' : ∀ {α β : Type} (a : α) (f : α → M K Unit β), ((pure a : M K Unit α) >>= f) = f a := fun _ _ => rfl
  induction cs with
  | nil => intro path; rfl
  | cons c cs ih =>
    intro path
    rw [List.map_cons, Go.SetCode.run, Guarded.seq, M.bind_assoc', show ((h.guarded n m).call path c).denote = C.exec n m path c.op from (h.exec n m path c.op).eq]
    simp only [ih, M.bind_assoc', pure_bind']

/-- The memory after `New`. -/
def fresh (sd : Seed) : St K V :=
  match newRoot sd St.init with
  | .ok (_, s) => s
  | .error _ => St.init

end

/-! ### C81 -/

section
variable {ι K V : Type} [DecidableEq ι] [Inhabited V]

theorem session_seq {G : MapTree K V} {C : Go.MapCode K V} (h : MapTreeOf G C) (n : Nat) (sd : Seed) (cs : List (Call K V)) :
    answers (C.session n sd (cs.map Call.op) St.init) =
      (match (h.of.guarded n (some 0)).seq Amt.blank cs (fresh sd) with | .ok (r, _) => .ok r.1 | .error e => .error e) := by
  show answers ((newRoot sd >>= fun m => C.run n m Amt.blank (cs.map Call.op) >>= fun os => pure (m, os)) St.init) = _
  rw [bind_run]
  show answers ((C.run n (some 0) Amt.blank (cs.map Call.op) >>= fun os => pure (some 0, os)) (fresh sd)) = _
  rw [h.of.seq n (some 0) cs Amt.blank, M.bind_assoc', bind_run]
  cases (h.of.guarded n (some 0)).seq Amt.blank cs (fresh sd) with
  | error e => rfl
  | ok r => rfl

theorem session_seqS {G : SetTree K} {C : Go.SetCode K} (h : SetTreeOf G C) (n : Nat) (sd : Seed) (cs : List (SCall K)) :
    answers (C.session n sd (cs.map SCall.op) St.init) =
      (match (h.of.guarded n (some 0)).seq Amt.blank cs (fresh sd) with | .ok (r, _) => .ok r.1 | .error e => .error e) := by
  show answers ((newRoot sd >>= fun m => C.run n m Amt.blank (cs.map SCall.op) >>= fun os => pure (m, os)) St.init) = _
  rw [bind_run]
  show answers ((C.run n (some 0) Amt.blank (cs.map SCall.op) >>= fun os => pure (some 0, os)) (fresh sd)) = _
  rw [h.of.seq n (some 0) cs Amt.blank, M.bind_assoc', bind_run]
  cases (h.of.guarded n (some 0)).seq Amt.blank cs (fresh sd) with
  | error e => rfl
  | ok r => rfl

/-- C81 for the maps.  Any number of goroutines call methods of one map, reading ones with the read lock of a `sync.RWMutex` and the others with the lock;
`prog i os` is what goroutine `i` calls next, given what its calls so far have returned.  Whatever the interleaving of their accesses to memory:
the calls that have returned, in the order in which they did, have returned what they return one after the other; if one panics, it panics after these
calls also when there is only one goroutine; and each goroutine has made its calls in its order. -/
theorem C81_map {G : MapTree K V} {C : Go.MapCode K V} (h : MapTreeOf G C) (n : Nat) (sd : Seed) (prog : ι → List (MOut K V) → Option (Call K V))
    {w : World ι K V (Call K V) (MOut K V)} (hw : Reach (h.of.guarded n (some 0)) prog (World.start (fresh sd) Amt.blank) w) :
    answers (C.session n sd (w.log.map fun x => x.2.1.op) St.init) = .ok (w.log.map fun x => x.2.2) ∧
    (∀ i c e, w.now i = some (c, .fail e) → answers (C.session n sd ((w.log.map fun x => x.2.1.op) ++ [c.op]) St.init) = .error e) ∧
    (∀ l₁ i c o l₂, w.log = l₁ ++ (i, c, o) :: l₂ → prog i (answersOf i l₁) = some c) := by
  have main := session_seq h n sd
  have hm : ∀ l : List (ι × Call K V × MOut K V), (l.map fun x => x.2.1.op) = (l.map fun x => x.2.1).map Call.op := fun l => by rw [List.map_map]; rfl
  obtain ⟨s, h1, _⟩ := lock_linear hw
  refine ⟨?_, fun i c e hi => ?_, (Inv.reach hw).order⟩
  · rw [hm, main, h1]
  · have h2 := lock_fails hw hi
    have h3 : (w.log.map fun x => x.2.1.op) ++ [c.op] = ((w.log.map fun x => x.2.1) ++ [c]).map Call.op := by rw [hm, List.map_append]; rfl
    rw [h3, main, h2]

/-- C81 for the sets. -/
theorem C81_set {G : SetTree K} {C : Go.SetCode K} (h : SetTreeOf G C) (n : Nat) (sd : Seed) (prog : ι → List (SOut K) → Option (SCall K))
    {w : World ι K Unit (SCall K) (SOut K)} (hw : Reach (h.of.guarded n (some 0)) prog (World.start (fresh sd) Amt.blank) w) :
    answers (C.session n sd (w.log.map fun x => x.2.1.op) St.init) = .ok (w.log.map fun x => x.2.2) ∧
    (∀ i c e, w.now i = some (c, .fail e) → answers (C.session n sd ((w.log.map fun x => x.2.1.op) ++ [c.op]) St.init) = .error e) ∧
    (∀ l₁ i c o l₂, w.log = l₁ ++ (i, c, o) :: l₂ → prog i (answersOf i l₁) = some c) := by
  have main := session_seqS h n sd
  have hm : ∀ l : List (ι × SCall K × SOut K), (l.map fun x => x.2.1.op) = (l.map fun x => x.2.1).map SCall.op := fun l => by rw [List.map_map]; rfl
  obtain ⟨s, h1, _⟩ := lock_linear hw
  refine ⟨?_, fun i c e hi => ?_, (Inv.reach hw).order⟩
  · rw [hm, main, h1]
  · have h2 := lock_fails hw hi
    have h3 : (w.log.map fun x => x.2.1.op) ++ [c.op] = ((w.log.map fun x => x.2.1) ++ [c]).map SCall.op := by rw [hm, List.map_append]; rfl
    rw [h3, main, h2]

/-- Conversely, each sequence of calls of one goroutine in which the calls of each goroutine of `prog` are in its order is an execution of `prog`. -/
theorem C81_map_complete {G : MapTree K V} {C : Go.MapCode K V} (h : MapTreeOf G C) (n : Nat) (sd : Seed) (prog : ι → List (MOut K V) → Option (Call K V))
    (log : List (ι × Call K V × MOut K V)) (h1 : answers (C.session n sd (log.map fun x => x.2.1.op) St.init) = .ok (log.map fun x => x.2.2))
    (h2 : ∀ l₁ i c o l₂, log = l₁ ++ (i, c, o) :: l₂ → prog i (answersOf i l₁) = some c) :
    ∃ w, Reach (h.of.guarded n (some 0)) prog (World.start (fresh sd) Amt.blank) w ∧ w.log = log ∧ ∀ i, w.now i = none := by
  have hm : (log.map fun x => x.2.1.op) = (log.map fun x => x.2.1).map Call.op := by rw [List.map_map]; rfl
  rw [hm, session_seq h n sd] at h1
  cases hs : (h.of.guarded n (some 0)).seq Amt.blank (log.map fun x => x.2.1) (fresh sd) with
  | error e => rw [hs] at h1; cases h1
  | ok r =>
    obtain ⟨⟨os, p⟩, s⟩ := r
    rw [hs] at h1
    cases h1
    exact ⟨_, lock_complete log hs h2, rfl, fun _ => rfl⟩

theorem C81_set_complete {G : SetTree K} {C : Go.SetCode K} (h : SetTreeOf G C) (n : Nat) (sd : Seed) (prog : ι → List (SOut K) → Option (SCall K))
    (log : List (ι × SCall K × SOut K)) (h1 : answers (C.session n sd (log.map fun x => x.2.1.op) St.init) = .ok (log.map fun x => x.2.2))
    (h2 : ∀ l₁ i c o l₂, log = l₁ ++ (i, c, o) :: l₂ → prog i (answersOf i l₁) = some c) :
    ∃ w, Reach (h.of.guarded n (some 0)) prog (World.start (fresh sd) Amt.blank) w ∧ w.log = log ∧ ∀ i, w.now i = none := by
  have hm : (log.map fun x => x.2.1.op) = (log.map fun x => x.2.1).map SCall.op := by rw [List.map_map]; rfl
  rw [hm, session_seqS h n sd] at h1
  cases hs : (h.of.guarded n (some 0)).seq Amt.blank (log.map fun x => x.2.1) (fresh sd) with
  | error e => rw [hs] at h1; cases h1
  | ok r =>
    obtain ⟨⟨os, p⟩, s⟩ := r
    rw [hs] at h1
    cases h1
    exact ⟨_, lock_complete log hs h2, rfl, fun _ => rfl⟩

/-- C81 for readers in any memory, damaged or not, and without any lock: whatever the interleaving, the memory does not change; a goroutine that has ended
has got what it gets when it is alone; and it ends after a number of accesses that does not depend on the others. -/
theorem C81_map_readers {G : MapTree K V} {C : Go.MapCode K V} (h : MapTreeOf G C) (n : Nat) (s : St K V) (m : ι → Handle) (path : List PathLink) (c : ι → Read K V) :
    (∀ sched, (interleave sched (fun i => G.call n (m i) path (.rlock (c i))) s).2 = s ∧
      (∀ i o, (interleave sched (fun i => G.call n (m i) path (.rlock (c i))) s).1 i = .ret o → C.exec n (m i) path (Call.op (.rlock (c i))) s = .ok (o, s)) ∧
      (∀ i e, (interleave sched (fun i => G.call n (m i) path (.rlock (c i))) s).1 i = .fail e → C.exec n (m i) path (Call.op (.rlock (c i))) s = .error e)) ∧
    ∀ i, ∃ N, ∀ sched : List ι, N ≤ sched.count i → ((interleave sched (fun i => G.call n (m i) path (.rlock (c i))) s).1 i).Done := by
  have hro : ∀ i, (G.call n (m i) path (.rlock (c i))).RO := fun i => (h.of.guarded n (m i)).ro path (.rlock (c i)) rfl
  refine ⟨fun sched => ?_, fun i => ?_⟩
  · obtain ⟨h1, h2⟩ := interleave_ro sched (fun i => G.call n (m i) path (.rlock (c i))) s hro
    have h3 : ∀ i, (G.call n (m i) path (.rlock (c i))).denote = C.exec n (m i) path (Call.op (.rlock (c i))) := fun i => (h.of.call n (m i) path _).eq
    refine ⟨h1, fun i o hi => ?_, fun i e hi => ?_⟩
    · have := (h2 i).2
      rw [hi, h3 i] at this
      exact this.symm.trans rfl
    · have := (h2 i).2
      rw [hi, h3 i] at this
      exact this.symm.trans rfl
  · obtain ⟨N, hN⟩ := interleave_ends (ι := ι) (G.call n (m i) path (.rlock (c i))) s (hro i)
    exact ⟨N, fun sched hc => hN sched _ i hro rfl hc⟩

theorem C81_set_readers {G : SetTree K} {C : Go.SetCode K} (h : SetTreeOf G C) (n : Nat) (s : St K Unit) (m : ι → Handle) (path : List PathLink)
    (c : ι → SCall K) (hc : ∀ i, (c i).isRead = true) :
    (∀ sched, (interleave sched (fun i => G.call n (m i) path (c i)) s).2 = s ∧
      (∀ i o, (interleave sched (fun i => G.call n (m i) path (c i)) s).1 i = .ret o → C.exec n (m i) path (c i).op s = .ok (o, s)) ∧
      (∀ i e, (interleave sched (fun i => G.call n (m i) path (c i)) s).1 i = .fail e → C.exec n (m i) path (c i).op s = .error e)) ∧
    ∀ i, ∃ N, ∀ sched : List ι, N ≤ sched.count i → ((interleave sched (fun i => G.call n (m i) path (c i)) s).1 i).Done := by
  have hro : ∀ i, (G.call n (m i) path (c i)).RO := fun i => (h.of.guarded n (m i)).ro path (c i) (hc i)
  refine ⟨fun sched => ?_, fun i => ?_⟩
  · obtain ⟨h1, h2⟩ := interleave_ro sched (fun i => G.call n (m i) path (c i)) s hro
    have h3 : ∀ i, (G.call n (m i) path (c i)).denote = C.exec n (m i) path (c i).op := fun i => (h.of.exec n (m i) path _).eq
    refine ⟨h1, fun i o hi => ?_, fun i e hi => ?_⟩
    · have := (h2 i).2
      rw [hi, h3 i] at this
      exact this.symm.trans rfl
    · have := (h2 i).2
      rw [hi, h3 i] at this
      exact this.symm.trans rfl
  · obtain ⟨N, hN⟩ := interleave_ends (ι := ι) (G.call n (m i) path (c i)) s (hro i)
    exact ⟨N, fun sched hc => hN sched _ i hro rfl hc⟩

end

/-! ### What the calls return -/

section
variable {ι K V : Type} [DecidableEq ι] [Inhabited V]

/-- Goroutines that insert keys of `Q` only, where a single goroutine that inserts keys of `Q` only gets answers that are related by `R` to its calls. -/
theorem C81_map_spec {G : MapTree K V} {C : Go.MapCode K V} (h : MapTreeOf G C) {n : Nat} {sd : Seed} {prog : ι → List (MOut K V) → Option (Call K V)}
    {w : World ι K V (Call K V) (MOut K V)} (hw : Reach (h.of.guarded n (some 0)) prog (World.start (fresh sd) Amt.blank) w)
    {Q : K → Prop} {R : List (MOp K V) → List (MOut K V) → Prop}
    (one : ∀ ops, (∀ k, Stores ops k → Q k) → ∃ os, answers (C.session n sd ops St.init) = .ok os ∧ R ops os)
    (hq : ∀ i os c k, prog i os = some c → k ∈ c.op.stores → Q k) :
    R (w.log.map fun x => x.2.1.op) (w.log.map fun x => x.2.2) ∧ ∀ i c e, w.now i ≠ some (c, .fail e) := by
  obtain ⟨h1, h2, h3⟩ := C81_map h n sd prog hw
  have hlog : ∀ k, Stores (w.log.map fun x => x.2.1.op) k → Q k := by
    rintro k ⟨op, ho, hk⟩
    obtain ⟨⟨i, c, o⟩, hx, rfl⟩ := List.mem_map.1 ho
    obtain ⟨l₁, l₂, hl⟩ := List.append_of_mem hx
    exact hq i _ c k (h3 l₁ i c o l₂ hl) hk
  obtain ⟨os, e1, e2⟩ := one _ hlog
  rw [h1] at e1
  cases e1
  refine ⟨e2, fun i c e hi => ?_⟩
  obtain ⟨os, e1, _⟩ := one ((w.log.map fun x => x.2.1.op) ++ [c.op]) (by
    rintro k ⟨op, ho, hk⟩
    rcases List.mem_append.1 ho with ho | ho
    · exact hlog k ⟨op, ho, hk⟩
    · rw [List.mem_singleton] at ho
      subst ho
      exact hq i _ c k ((Inv.reach hw).next i c _ hi) hk)
  rw [h2 i c e hi] at e1
  cases e1

theorem C81_set_spec {G : SetTree K} {C : Go.SetCode K} (h : SetTreeOf G C) {n : Nat} {sd : Seed} {prog : ι → List (SOut K) → Option (SCall K)}
    {w : World ι K Unit (SCall K) (SOut K)} (hw : Reach (h.of.guarded n (some 0)) prog (World.start (fresh sd) Amt.blank) w)
    {Q : K → Prop} {R : List (SOp K) → List (SOut K) → Prop}
    (one : ∀ ops, (∀ k, SStores ops k → Q k) → ∃ os, answers (C.session n sd ops St.init) = .ok os ∧ R ops os)
    (hq : ∀ i os c k, prog i os = some c → k ∈ c.op.stores → Q k) :
    R (w.log.map fun x => x.2.1.op) (w.log.map fun x => x.2.2) ∧ ∀ i c e, w.now i ≠ some (c, .fail e) := by
  obtain ⟨h1, h2, h3⟩ := C81_set h n sd prog hw
  have hlog : ∀ k, SStores (w.log.map fun x => x.2.1.op) k → Q k := by
    rintro k ⟨op, ho, hk⟩
    obtain ⟨⟨i, c, o⟩, hx, rfl⟩ := List.mem_map.1 ho
    obtain ⟨l₁, l₂, hl⟩ := List.append_of_mem hx
    exact hq i _ c k (h3 l₁ i c o l₂ hl) hk
  obtain ⟨os, e1, e2⟩ := one _ hlog
  rw [h1] at e1
  cases e1
  refine ⟨e2, fun i c e hi => ?_⟩
  obtain ⟨os, e1, _⟩ := one ((w.log.map fun x => x.2.1.op) ++ [c.op]) (by
    rintro k ⟨op, ho, hk⟩
    rcases List.mem_append.1 ho with ho | ho
    · exact hlog k ⟨op, ho, hk⟩
    · rw [List.mem_singleton] at ho
      subst ho
      exact hq i _ c k ((Inv.reach hw).next i c _ hi) hk)
  rw [h2 i c e hi] at e1
  cases e1

end

section
variable {ι V : Type} [DecidableEq ι] [Inhabited V] (sum : Maphash) (sd : Seed) {n : Nat}

/-- StringMap: goroutines that insert keys of which any two differ in one of the first 241 nibbles.  No call panics, and the answers are those of the
abstract map to the calls in the order in which they returned. -/
theorem C81_StringMap {Q : ByteStr → Prop} (hQ : Separated (byteStream sum sd id) Q) (hf : 256 ≤ n)
    {prog : ι → List (MOut ByteStr V) → Option (Call ByteStr V)} (hq : ∀ i os c k, prog i os = some c → k ∈ c.op.stores → Q k)
    {w : World ι ByteStr V (Call ByteStr V) (MOut ByteStr V)}
    (hw : Reach ((MapTreeOf.string sum).of.guarded n (some 0)) prog (World.start (fresh sd) Amt.blank) w) :
    (∃ m, MRun [] (w.log.map fun x => x.2.1.op) (w.log.map fun x => x.2.2) m) ∧ ∀ i c e, w.now i ≠ some (c, .fail e) :=
  C81_map_spec (MapTreeOf.string sum) hw (R := fun ops os => ∃ m, MRun [] ops os m) (fun ops ho =>
    have ⟨os, m, h1, h2⟩ := Go.C69_StringMap sum sd ops (Separated.eachNew fun a b ha hb => hQ a b (ho a ha) (ho b hb)) hf
    ⟨os, h1, m, h2⟩) hq

theorem C81_BytesMap {Q : ByteStr → Prop} (hQ : Separated (byteStream sum sd id) Q) (hf : 256 ≤ n)
    {prog : ι → List (MOut ByteStr V) → Option (Call ByteStr V)} (hq : ∀ i os c k, prog i os = some c → k ∈ c.op.stores → Q k)
    {w : World ι ByteStr V (Call ByteStr V) (MOut ByteStr V)}
    (hw : Reach ((MapTreeOf.bytes sum).of.guarded n (some 0)) prog (World.start (fresh sd) Amt.blank) w) :
    (∃ m, MRun [] (w.log.map fun x => x.2.1.op) (w.log.map fun x => x.2.2) m) ∧ ∀ i c e, w.now i ≠ some (c, .fail e) :=
  C81_map_spec (MapTreeOf.bytes sum) hw (R := fun ops os => ∃ m, MRun [] ops os m) (fun ops ho =>
    have ⟨os, m, h1, h2⟩ := Go.C69_BytesMap sum sd ops (Separated.eachNew fun a b ha hb => hQ a b (ho a ha) (ho b hb)) hf
    ⟨os, h1, m, h2⟩) hq

/-- ArrMap: the map that forgets the value of a new key that collides. -/
theorem C81_ArrMap {K : Type} [DecidableEq K] (kb : K → List UInt8) {Q : K → Prop} (hQ : Separated (byteStream sum sd kb) Q) (hf : 256 ≤ n)
    {prog : ι → List (MOut K V) → Option (Call K V)} (hq : ∀ i os c k, prog i os = some c → k ∈ c.op.stores → Q k)
    {w : World ι K V (Call K V) (MOut K V)}
    (hw : Reach ((MapTreeOf.arr sum kb).of.guarded n (some 0)) prog (World.start (fresh sd) Amt.blank) w) :
    (∃ m, RunBy (MStepX (byteStream sum sd kb) True (fun _ => default)) [] (w.log.map fun x => x.2.1.op) (w.log.map fun x => x.2.2) m) ∧
      ∀ i c e, w.now i ≠ some (c, .fail e) :=
  C81_map_spec (MapTreeOf.arr sum kb) hw (R := fun ops os => ∃ m, RunBy (MStepX (byteStream sum sd kb) True (fun _ => default)) [] ops os m) (fun ops ho =>
    have ⟨os, m, h1, h2⟩ := Go.C69_ArrMap sum sd kb ops (Separated.eachNew fun a b ha hb => hQ a b (ho a ha) (ho b hb)) hf
    ⟨os, h1, m, h2⟩) hq

/-- IntMap: keys of which any two are such that the rehash of one of them is harmless. -/
theorem C81_IntMap {Q : IntKey → Prop} (hQ : ∀ a b, Q a → Q b → a ≠ b → Near (byteStream sum sd intbytes) a b ∧ SafePair (byteStream sum sd intbytes) upper a b)
    (hf : 256 ≤ n) {prog : ι → List (MOut IntKey V) → Option (Call IntKey V)} (hq : ∀ i os c k, prog i os = some c → k ∈ c.op.stores → Q k)
    {w : World ι IntKey V (Call IntKey V) (MOut IntKey V)}
    (hw : Reach ((MapTreeOf.int sum).of.guarded n (some 0)) prog (World.start (fresh sd) Amt.blank) w) :
    (∃ m, MRun [] (w.log.map fun x => x.2.1.op) (w.log.map fun x => x.2.2) m) ∧ ∀ i c e, w.now i ≠ some (c, .fail e) :=
  C81_map_spec (MapTreeOf.int sum) hw (R := fun ops os => ∃ m, MRun [] ops os m) (fun ops ho =>
    have ⟨os, m, h1, h2⟩ := Go.C69_IntMap sum sd ops (EachNew.of_pairs (S := Q) (fun _ ks k e1 e2 e3 k' hk' => hQ k k' e2 (e1 k' hk') fun e => e3 (e ▸ hk'))
      (by simp) ho) hf
    ⟨os, h1, m, h2⟩) hq

/-- Map: keys of which any set with any further one meets the condition of C05. -/
theorem C81_Map {K : Type} [DecidableEq K] (I : KeyImpl K) (heq : ∀ a b, I.equal a b = true ↔ a = b) {Q : K → Prop}
    (hQ : ∀ m ks k, (∀ k' ∈ ks, Q k') → Q k → k ∉ ks → GenFits (fun k n => I.hash k sd n) m ks k) (hf : 256 ≤ n)
    {prog : ι → List (MOut K V) → Option (Call K V)} (hq : ∀ i os c k, prog i os = some c → k ∈ c.op.stores → Q k)
    {w : World ι K V (Call K V) (MOut K V)}
    (hw : Reach ((MapTreeOf.generic I).of.guarded n (some 0)) prog (World.start (fresh sd) Amt.blank) w) :
    (∃ m, MRun [] (w.log.map fun x => x.2.1.op) (w.log.map fun x => x.2.2) m) ∧ ∀ i c e, w.now i ≠ some (c, .fail e) :=
  C81_map_spec (MapTreeOf.generic I) hw (R := fun ops os => ∃ m, MRun [] ops os m) (fun ops ho =>
    have ⟨os, m, h1, h2⟩ := Go.C69_Map sd I heq ops (EachNew.of_pairs (S := Q) hQ (by simp) ho) hf
    ⟨os, h1, m, h2⟩) hq

theorem C81_StringSet {Q : ByteStr → Prop} (hQ : Separated (byteStream sum sd id) Q) (hf : 256 ≤ n)
    {prog : ι → List (SOut ByteStr) → Option (SCall ByteStr)} (hq : ∀ i os c k, prog i os = some c → k ∈ c.op.stores → Q k)
    {w : World ι ByteStr Unit (SCall ByteStr) (SOut ByteStr)}
    (hw : Reach ((SetTreeOf.string sum).of.guarded n (some 0)) prog (World.start (fresh sd) Amt.blank) w) :
    (∃ m, SRun [] (w.log.map fun x => x.2.1.op) (w.log.map fun x => x.2.2) m) ∧ ∀ i c e, w.now i ≠ some (c, .fail e) :=
  C81_set_spec (SetTreeOf.string sum) hw (R := fun ops os => ∃ m, SRun [] ops os m) (fun ops ho =>
    have ⟨os, m, h1, h2⟩ := Go.C69_StringSet sum sd ops (Separated.seachNew fun a b ha hb => hQ a b (ho a ha) (ho b hb)) hf
    ⟨os, h1, m, h2⟩) hq

theorem C81_ArrSet {K : Type} [DecidableEq K] (kb : K → List UInt8) {Q : K → Prop} (hQ : Separated (byteStream sum sd kb) Q) (hf : 256 ≤ n)
    {prog : ι → List (SOut K) → Option (SCall K)} (hq : ∀ i os c k, prog i os = some c → k ∈ c.op.stores → Q k)
    {w : World ι K Unit (SCall K) (SOut K)}
    (hw : Reach ((SetTreeOf.arr sum kb).of.guarded n (some 0)) prog (World.start (fresh sd) Amt.blank) w) :
    (∃ m, SRun [] (w.log.map fun x => x.2.1.op) (w.log.map fun x => x.2.2) m) ∧ ∀ i c e, w.now i ≠ some (c, .fail e) :=
  C81_set_spec (SetTreeOf.arr sum kb) hw (R := fun ops os => ∃ m, SRun [] ops os m) (fun ops ho =>
    have ⟨os, m, h1, h2⟩ := Go.C69_ArrSet sum sd kb ops (Separated.seachNew fun a b ha hb => hQ a b (ho a ha) (ho b hb)) hf
    ⟨os, h1, m, h2⟩) hq

/-- BytesSet: the set with the inverted test in `Del`. -/
theorem C81_BytesSet {Q : ByteStr → Prop} (hQ : Separated (byteStream sum sd id) Q) (hf : 256 ≤ n)
    {prog : ι → List (SOut ByteStr) → Option (SCall ByteStr)} (hq : ∀ i os c k, prog i os = some c → k ∈ c.op.stores → Q k)
    {w : World ι ByteStr Unit (SCall ByteStr) (SOut ByteStr)}
    (hw : Reach ((SetTreeOf.bytes sum).of.guarded n (some 0)) prog (World.start (fresh sd) Amt.blank) w) :
    (∃ m, SRunBy (SStepX (byteStream sum sd id) True true) [] (w.log.map fun x => x.2.1.op) (w.log.map fun x => x.2.2) m) ∧
      ∀ i c e, w.now i ≠ some (c, .fail e) :=
  C81_set_spec (SetTreeOf.bytes sum) hw (R := fun ops os => ∃ m, SRunBy (SStepX (byteStream sum sd id) True true) [] ops os m) (fun ops ho =>
    have ⟨os, m, h1, h2⟩ := Go.C69_BytesSet sum sd ops (Separated.seachNew fun a b ha hb => hQ a b (ho a ha) (ho b hb)) hf
    ⟨os, h1, m, h2⟩) hq

theorem C81_IntSet {Q : IntKey → Prop} (hQ : ∀ a b, Q a → Q b → a ≠ b → Near (byteStream sum sd intbytes) a b ∧ SafePair (byteStream sum sd intbytes) upper a b)
    (hf : 256 ≤ n) {prog : ι → List (SOut IntKey) → Option (SCall IntKey)} (hq : ∀ i os c k, prog i os = some c → k ∈ c.op.stores → Q k)
    {w : World ι IntKey Unit (SCall IntKey) (SOut IntKey)}
    (hw : Reach ((SetTreeOf.int sum).of.guarded n (some 0)) prog (World.start (fresh sd) Amt.blank) w) :
    (∃ m, SRun [] (w.log.map fun x => x.2.1.op) (w.log.map fun x => x.2.2) m) ∧ ∀ i c e, w.now i ≠ some (c, .fail e) :=
  C81_set_spec (SetTreeOf.int sum) hw (R := fun ops os => ∃ m, SRun [] ops os m) (fun ops ho =>
    have ⟨os, m, h1, h2⟩ := Go.C69_IntSet sum sd ops (SEachNew.of_pairs (S := Q) (fun ks k e1 e2 e3 k' hk' => hQ k k' e2 (e1 k' hk') fun e => e3 (e ▸ hk'))
      (by simp) ho) hf
    ⟨os, h1, m, h2⟩) hq

theorem C81_Set {K : Type} [DecidableEq K] (I : KeyImpl K) (heq : ∀ a b, I.equal a b = true ↔ a = b) {Q : K → Prop}
    (hQ : ∀ ks k, (∀ k' ∈ ks, Q k') → Q k → k ∉ ks → GenFits (fun k n => I.hash k sd n) false ks k) (hf : 256 ≤ n)
    {prog : ι → List (SOut K) → Option (SCall K)} (hq : ∀ i os c k, prog i os = some c → k ∈ c.op.stores → Q k)
    {w : World ι K Unit (SCall K) (SOut K)}
    (hw : Reach ((SetTreeOf.generic I).of.guarded n (some 0)) prog (World.start (fresh sd) Amt.blank) w) :
    (∃ m, SRun [] (w.log.map fun x => x.2.1.op) (w.log.map fun x => x.2.2) m) ∧ ∀ i c e, w.now i ≠ some (c, .fail e) :=
  C81_set_spec (SetTreeOf.generic I) hw (R := fun ops os => ∃ m, SRun [] ops os m) (fun ops ho =>
    have ⟨os, m, h1, h2⟩ := Go.C69_Set sd I heq ops (SEachNew.of_pairs (S := Q) hQ (by simp) ho) hf
    ⟨os, h1, m, h2⟩) hq

end

/-! ### Without the lock -/

/-- What a program that has ended has returned, or its panic. -/
def T.result {K V α : Type} : T K V α → Option (Except Fault α)
  | .ret a => some (.ok a)
  | .fail e => some (.error e)
  | _ => none

/-- Two goroutines that call methods of a StringMap without a lock; `sched` says whose turn it is. -/
def race (sum : Maphash) (sched : List Bool) (a b : MOp ByteStr Nat) (s : St ByteStr Nat) : Option (Except Fault (MOut ByteStr Nat)) × Option (Except Fault (MOut ByteStr Nat)) × St ByteStr Nat :=
  let r := interleave sched (fun i => do let r ← (stringMap sum).exec 256 (some 0) Amt.blank (if i then b else a); pure r.1) s
  ((r.1 false).result, (r.1 true).result, r.2)

/-- The memory after a history of one goroutine. -/
def stateAfter (sum : Maphash) (sd : Seed) (ops : List (MOp ByteStr Nat)) : St ByteStr Nat :=
  match (Go.stringMap sum).session 256 sd ops St.init with
  | .ok (_, s) => s
  | .error _ => St.init

deriving instance DecidableEq for MOut
deriving instance DecidableEq for Except

/-- Without a lock, `Get` of a stored key beside `Set` of another one: it may report the key missing, take the cell of the key for links (memory corruption),
or panic.  In either order of the two calls it returns the value. -/
theorem C81_refuted_unlocked_reader : ∃ (sum : Maphash) (sd : Seed) (k k' : ByteStr), Near (byteStream sum sd id) k k' ∧
    answers ((Go.stringMap sum).session 256 sd [.set k 7, .get k, .set k' 8, .get k] St.init) = .ok [.unit, .pair 7 true, .unit, .pair 7 true] ∧
    (∃ sched, (race sum sched (.get k) (.set k' 8) (stateAfter sum sd [.set k 7])).1 = some (.ok (.pair 0 false))) ∧
    (∃ sched, (race sum sched (.get k) (.set k' 8) (stateAfter sum sd [.set k 7])).1 = some (.error .wrongType)) ∧
    (∃ sched, (race sum sched (.get k) (.set k' 8) (stateAfter sum sd [.set k 7])).1 = some (.error .nilDeref)) :=
  ⟨toyHash, 0#64, strKey 0x01, strKey 0x11, by decide +kernel, by decide +kernel,
    ⟨List.replicate 22 true ++ List.replicate 40 false, by decide +kernel⟩,
    ⟨List.replicate 26 true ++ List.replicate 40 false, by decide +kernel⟩,
    ⟨List.replicate 33 true ++ List.replicate 40 false, by decide +kernel⟩⟩

/-- What one goroutine alone gets. -/
def alone (sum : Maphash) (op : MOp ByteStr Nat) (s : St ByteStr Nat) : Option (Except Fault (MOut ByteStr Nat)) := (race sum (List.replicate 60 false) op op s).1

/-- Without a lock, two goroutines that insert different keys into an empty map: both calls return, and afterwards neither key is found although the
length is 2; or a later look-up of one of them panics; or both are found and the length is 1. -/
theorem C81_refuted_unlocked_writers : ∃ (sum : Maphash) (sd : Seed) (k k' : ByteStr), Near (byteStream sum sd id) k k' ∧
    (∃ sched s, race sum sched (.set k 7) (.set k' 8) (stateAfter sum sd []) = (some (.ok .unit), some (.ok .unit), s) ∧
      alone sum (.get k) s = some (.ok (.pair 0 false)) ∧ alone sum (.get k') s = some (.ok (.pair 0 false)) ∧ alone sum .len s = some (.ok (.num 2#64))) ∧
    (∃ sched s, race sum sched (.set k 7) (.set k' 8) (stateAfter sum sd []) = (some (.ok .unit), some (.ok .unit), s) ∧
      alone sum (.get k') s = some (.error .nilDeref)) ∧
    (∃ sched s, race sum sched (.set k 7) (.set k' 8) (stateAfter sum sd []) = (some (.ok .unit), some (.ok .unit), s) ∧
      alone sum (.get k) s = some (.ok (.pair 7 true)) ∧ alone sum (.get k') s = some (.ok (.pair 8 true)) ∧ alone sum .len s = some (.ok (.num 1#64))) := by
  have key : ∀ (r : Option (Except Fault (MOut ByteStr Nat)) × Option (Except Fault (MOut ByteStr Nat)) × St ByteStr Nat), r.1 = some (.ok .unit) →
      r.2.1 = some (.ok .unit) → r = (some (.ok .unit), some (.ok .unit), r.2.2) := by
    rintro ⟨a, b, c⟩ h1 h2
    dsimp only at h1 h2
    rw [h1, h2]
  exact ⟨toyHash, 0#64, strKey 0x01, strKey 0x02, by decide +kernel,
    ⟨List.replicate 19 false ++ List.replicate 40 true ++ List.replicate 40 false, _, key _ (by decide +kernel) (by decide +kernel),
      by decide +kernel, by decide +kernel, by decide +kernel⟩,
    ⟨List.replicate 10 false ++ List.replicate 40 true ++ List.replicate 40 false, _, key _ (by decide +kernel) (by decide +kernel), by decide +kernel⟩,
    ⟨List.replicate 26 false ++ List.replicate 40 true ++ List.replicate 40 false, _, key _ (by decide +kernel) (by decide +kernel),
      by decide +kernel, by decide +kernel, by decide +kernel⟩⟩

/-! ### Goroutines of C81 -/

/-- Two goroutines: the first inserts three keys and deletes one, the second looks one up until it is there and then iterates. -/
def exProg (i : Bool) (os : List (MOut ByteStr Nat)) : Option (Call ByteStr Nat) :=
  if i then
    match os.getLast? with
    | none => some (.rlock (.get (strKey 0x11)))
    | some (.pair _ false) => some (.rlock (.get (strKey 0x11)))
    | some (.pair _ true) => some (.rlock (.all fun _ _ _ => true))
    | _ => none
  else [Call.lock (.set (strKey 0x01) 1), .lock (.set (strKey 0x11) 2), .lock (.set (strKey 0x02) 3), .lock (.del (strKey 0x01))][os.length]?

theorem exProg_keys (i : Bool) (os : List (MOut ByteStr Nat)) (c : Call ByteStr Nat) (k : ByteStr) (h : exProg i os = some c) (hk : k ∈ c.op.stores) :
    k ∈ [strKey 0x01, strKey 0x11, strKey 0x02] := by
  cases i with
  | true =>
    unfold exProg at h
    rw [if_pos rfl] at h
    split at h <;> cases h <;> cases hk
  | false =>
    have h1 : c ∈ [Call.lock (.set (strKey 0x01) 1), .lock (.set (strKey 0x11) 2), .lock (.set (strKey 0x02) 3), .lock (.del (strKey 0x01))] :=
      List.mem_of_getElem? h
    simp only [List.mem_cons, List.not_mem_nil, or_false] at h1
    rcases h1 with rfl | rfl | rfl | rfl <;> simp [Call.op, MOp.stores] at hk <;> simp [hk]

example {w : World Bool ByteStr Nat (Call ByteStr Nat) (MOut ByteStr Nat)}
    (hw : Reach ((MapTreeOf.string toyHash).of.guarded 256 (some 0)) exProg (World.start (fresh 0#64) Amt.blank) w) :=
  C81_StringMap toyHash 0#64 (Q := fun k => k ∈ [strKey 0x01, strKey 0x11, strKey 0x02]) (by
    have h : ∀ a ∈ [strKey 0x01, strKey 0x11, strKey 0x02], ∀ b ∈ [strKey 0x01, strKey 0x11, strKey 0x02], a ≠ b → Near (byteStream toyHash 0#64 id) a b := by
      decide +kernel
    exact fun a b ha hb => h a ha b hb) (Nat.le_refl 256) exProg_keys hw

/-- An execution of these two goroutines in which the second looks in vain, then finds the key, then iterates over two keys. -/
example : ∃ w, Reach ((MapTreeOf.string toyHash).of.guarded 256 (some 0)) exProg (World.start (fresh 0#64) Amt.blank) w ∧
    w.log.map (fun x => x.2.2) = [.unit, .pair 0 false, .unit, .pair 2 true, .unit, .unit, .log [(strKey 0x11, 2), (strKey 0x02, 3)]] ∧ ∀ i, w.now i = none := by
  obtain ⟨w, h1, h2, h3⟩ := C81_map_complete (MapTreeOf.string toyHash) 256 0#64 exProg
    [(false, .lock (.set (strKey 0x01) 1), .unit), (true, .rlock (.get (strKey 0x11)), .pair 0 false), (false, .lock (.set (strKey 0x11) 2), .unit),
      (true, .rlock (.get (strKey 0x11)), .pair 2 true), (false, .lock (.set (strKey 0x02) 3), .unit), (false, .lock (.del (strKey 0x01)), .unit),
      (true, .rlock (.all fun _ _ _ => true), .log [(strKey 0x11, 2), (strKey 0x02, 3)])] (by decide +kernel) (by
    intro l₁ i c o l₂ h
    match l₁, h with
    | [], h => cases h; rfl
    | [_], h => cases h; rfl
    | [_, _], h => cases h; rfl
    | [_, _, _], h => cases h; rfl
    | [_, _, _, _], h => cases h; rfl
    | [_, _, _, _, _], h => cases h; rfl
    | [_, _, _, _, _, _], h => cases h; rfl
    | _ :: _ :: _ :: _ :: _ :: _ :: _ :: l, h => simp at h)
  exact ⟨w, h1, by rw [h2]; rfl, h3⟩

/-- Two readers at once. -/
example : ∃ w c c' t t', Reach ((MapTreeOf.string (V := Nat) toyHash).of.guarded 256 (some 0)) (fun (i : Bool) _ => some (.rlock (.get (strKey 0x01))))
    (World.start (fresh 0#64) Amt.blank) w ∧ w.now false = some (c, t) ∧ w.now true = some (c', t') :=
  ⟨_, _, _, _, _, Reach.step (Reach.step Reach.refl (Step.start _ false _ rfl rfl (fun _ _ _ _ e => by cases e) (fun e => by cases e)))
    (Step.start _ true (.rlock (.get (strKey 0x01))) rfl rfl (fun _ j op' t e => by
      rcases upd_some e with ⟨_, e⟩ | ⟨_, e⟩
      · cases e; rfl
      · cases e) (fun e => by cases e)), rfl, rfl⟩

end Amt.Par
