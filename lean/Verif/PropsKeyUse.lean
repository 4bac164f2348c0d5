/-
C93: how often keys are hashed and compared.
-/
import Verif.KeyUse

set_option linter.unusedVariables false
set_option linter.unusedSectionVars false

namespace Spec
open Amt
variable {K : Type}

/-- The key is hashed `n` times, and then compared with at most one other. -/
def SeekLog (k : K) (n : Nat) (l : List (Use K)) : Prop :=
  ∃ e, l = List.replicate n (.hash k) ++ e ∧ (e = [] ∨ ∃ x, e = [.equal k x])

/-- The key is hashed, and then compared with at most one other; after that, these two are hashed. -/
def PutLog (k x : K) (l : List (Use K)) : Prop :=
  ∃ n e, l = List.replicate n (.hash k) ++ e ∧ (e = [] ∨ ∃ e', e = .equal k x :: e' ∧ ∀ u ∈ e', u = .hash k ∨ u = .hash x)

/-- How often a key is hashed on the way through `n` levels: once for every sixteen. -/
def hashes (n : Nat) : Nat := 1 + (n - 1) / 16

/-- `SeekLog`, where the keys `ks` are stored: the key is compared with one of these, and with itself if it is one of these. -/
def SeekLogIn (ks : List K) (k : K) (n : Nat) (l : List (Use K)) : Prop :=
  ∃ e, l = List.replicate n (.hash k) ++ e ∧ (e = [] ∨ ∃ x ∈ ks, e = [.equal k x]) ∧ (k ∈ ks → e = [.equal k k])

/-- `PutLog`, where the keys `ks` are stored: the other key is one of these, and it is hashed at most `n` times; the key itself at most `a`
times more. -/
def PutLogIn (ks : List K) (k : K) (n a : Nat) [DecidableEq K] (l : List (Use K)) : Prop :=
  ∃ x, PutLog k x l ∧ l.count (.hash k) ≤ n + a ∧ (x ≠ k → x ∈ ks ∧ l.count (.hash x) ≤ n)

/-- At most one comparison. -/
theorem SeekLog.one {k : K} {n : Nat} {l : List (Use K)} (h : SeekLog k n l) : l.countP Use.isEqual ≤ 1 := by
  obtain ⟨e, rfl, rfl | ⟨x, rfl⟩⟩ := h
  · rw [List.append_nil, List.countP_eq_zero.2 fun u hu => by rw [(List.mem_replicate.1 hu).2]; simp [Use.isEqual]]
    omega
  · rw [List.countP_append, List.countP_eq_zero.2 fun u hu => by rw [(List.mem_replicate.1 hu).2]; simp [Use.isEqual]]
    simp [Use.isEqual]

theorem PutLog.one {k x : K} {l : List (Use K)} (h : PutLog k x l) : l.countP Use.isEqual ≤ 1 := by
  obtain ⟨n, e, rfl, h⟩ := h
  rw [List.countP_append, List.countP_eq_zero.2 fun u hu => by rw [(List.mem_replicate.1 hu).2]; simp [Use.isEqual]]
  rcases h with rfl | ⟨e', rfl, h⟩
  · simp
  · rw [List.countP_cons, List.countP_eq_zero.2 fun u hu => by rcases h u hu with rfl | rfl <;> simp [Use.isEqual]]
    simp [Use.isEqual]

end Spec

namespace Amt
open Spec Q T

section
variable {K V α β : Type}

theorem lift_ok {x : M K V α} {f : α → Q K V β} {s t : St K V} {a : α} (h : x s = .ok (a, t)) : (Q.lift x >>= f) s = f a t := by
  rw [Q.bind_run]
  simp only [Q.lift, h, List.nil_append]

theorem lift_okr {x : M K V α} {f : α → Q K V β} {s : St K V} {r : α × St K V} (h : x s = .ok r) : (Q.lift x >>= f) s = f r.1 r.2 := lift_ok h

theorem lift_log {x : M K V α} {f : α → Q K V β} {s : St K V} {u : Use K} (h : u ∈ ((Q.lift x >>= f) s).1) : ∃ a t, x s = .ok (a, t) ∧ u ∈ (f a t).1 := by
  rw [Q.bind_run] at h
  simp only [Q.lift] at h
  cases e : x s with
  | error e' => rw [e] at h; cases h
  | ok r => rw [e] at h; exact ⟨r.1, r.2, rfl, h⟩

theorem ite_log {p : Prop} [Decidable p] {x y : Q K V α} {s : St K V} {u : Use K} (h : u ∈ ((if p then x else y) s).1) :
    u ∈ (x s).1 ∨ u ∈ (y s).1 := by
  split at h
  · exact Or.inl h
  · exact Or.inr h

theorem use_log {l : List (Use K)} {f : Unit → Q K V β} {s : St K V} {u : Use K} (h : u ∈ ((Q.use l >>= f) s).1) : u ∈ l ∨ u ∈ (f () s).1 :=
  List.mem_append.1 h

theorem lift_err {x : M K V α} {f : α → Q K V β} {s : St K V} {e : Fault} (h : x s = .error e) : (Q.lift x >>= f) s = ([], .error e) := by
  rw [Q.bind_run]
  simp only [Q.lift, h]

theorem use_run (l : List (Use K)) (f : Unit → Q K V β) (s : St K V) : (Q.use l >>= f) s = (l ++ (f () s).1, (f () s).2) := rfl

theorem log_bind {x : Q K V α} {f : α → Q K V β} {s : St K V} : ((x >>= f) s).1 = (x s).1 ∨
    ∃ a t, (x s).2 = .ok (a, t) ∧ ((x >>= f) s).1 = (x s).1 ++ (f a t).1 := by
  rw [Q.bind_run]
  rcases x s with ⟨l, _ | ⟨a, t⟩⟩
  · exact Or.inl rfl
  · exact Or.inr ⟨a, t, rfl, rfl⟩

/-- What follows does nothing with keys. -/
theorem log_then {x : Q K V α} {f : α → M K V β} {s : St K V} : ((x >>= fun a => Q.lift (f a)) s).1 = (x s).1 := by
  rcases log_bind (x := x) (f := fun a => Q.lift (f a)) (s := s) with h | ⟨a, t, _, h⟩
  · exact h
  · rw [h]; exact List.append_nil _

theorem log_pure {x : Q K V α} {f : α → β} {s : St K V} : ((x >>= fun a => Pure.pure (f a)) s).1 = (x s).1 := by
  rcases log_bind (x := x) (f := fun a => Pure.pure (f a)) (s := s) with h | ⟨a, t, _, h⟩
  · exact h
  · rw [h]; exact List.append_nil _

variable {c : Cfg K} {sd : Seed}

/-! ### In any memory -/

theorem searchQ_any (key : K) : ∀ n cur (s : St K V), ∃ j, (searchQ c sd key n cur s).1 = List.replicate j (.hash key) := by
  intro n
  induction n with
  | zero => intro cur s; exact ⟨0, rfl⟩
  | succ n ih =>
    intro cur s
    rw [searchQ]
    cases hl : load cur.l s with
    | error e => rw [lift_err hl]; exact ⟨0, rfl⟩
    | ok r =>
      obtain ⟨lk, t⟩ := r
      rw [lift_ok hl]
      by_cases h1 : lk.pmap &&& bitOf (radixOf cur.hd) ≠ 0#32
      · rw [if_pos h1]
        by_cases h2 : lk.tmap &&& bitOf (radixOf cur.hd) = 0#32
        · rw [if_pos h2, use_run]
          obtain ⟨j, hj⟩ := ih (descend c sd key { cur with path := cur.path ++ [(radixOf cur.hd, some cur.l)] } ⟨lk.ptr, rankOf lk.pmap (radixOf cur.hd)⟩) t
          simp only [hj]
          split
          · exact ⟨j, rfl⟩
          · exact ⟨j + 1, rfl⟩
        · rw [if_neg h2]; exact ⟨0, rfl⟩
      · rw [if_neg h1]; exact ⟨0, rfl⟩

theorem lookupQ_any (h n : Nat) (key : K) (s : St K V) : ∃ j, SeekLog key j (lookupQ c h n key s).1 := by
  unfold lookupQ
  rw [lift_ok (getRoot_run h s), use_run]
  obtain ⟨j, hj⟩ := searchQ_any (c := c) (sd := (s.roots h).seed) key n (start c (s.roots h).seed key h) s
  refine ⟨j + 1, ?_⟩
  rcases log_bind (x := searchQ c (s.roots h).seed key n (start c (s.roots h).seed key h)) (s := s) with e | ⟨⟨cur, b⟩, t, _, e⟩
  · refine ⟨[], ?_, Or.inl rfl⟩
    show [Use.hash key] ++ _ = _
    rw [e, hj, List.append_nil]
    rfl
  · refine ⟨_, (by show [Use.hash key] ++ _ = _; rw [e, hj]; rfl), ?_⟩
    cases b with
    | false => exact Or.inl rfl
    | true =>
      simp only [if_true]
      cases h1 : itemRef cur t with
      | error e => rw [lift_err h1]; exact Or.inl rfl
      | ok r =>
        rw [lift_okr h1]
        cases h2 : load r.1 r.2 with
        | error e => rw [lift_err h2]; exact Or.inl rfl
        | ok r' =>
          rw [lift_okr h2]
          cases h3 : readKey c r'.1 r'.2 with
          | error e => rw [lift_err h3]; exact Or.inl rfl
          | ok r'' =>
            rw [lift_okr h3, use_run]
            refine Or.inr ⟨r''.1, ?_⟩
            split <;> rfl

theorem deleteQ_any (h n : Nat) (skip : Bool → Bool) (key : K) (s : St K V) : ∃ j, SeekLog key j (deleteQ c h n skip key s).1 := by
  unfold deleteQ
  rw [lift_ok (getRoot_run h s), use_run]
  obtain ⟨j, hj⟩ := searchQ_any (c := c) (sd := (s.roots h).seed) key n (start c (s.roots h).seed key h) s
  refine ⟨j + 1, ?_⟩
  rcases log_bind (x := searchQ c (s.roots h).seed key n (start c (s.roots h).seed key h)) (s := s) with e | ⟨⟨cur, b⟩, t, _, e⟩
  · refine ⟨[], ?_, Or.inl rfl⟩
    show [Use.hash key] ++ _ = _
    rw [e, hj, List.append_nil]
    rfl
  · refine ⟨_, (by show [Use.hash key] ++ _ = _; rw [e, hj]; rfl), ?_⟩
    cases b with
    | false => exact Or.inl rfl
    | true =>
      simp only [if_true]
      cases h1 : itemRef cur t with
      | error e => rw [lift_err h1]; exact Or.inl rfl
      | ok r =>
        rw [lift_okr h1]
        cases h2 : load r.1 r.2 with
        | error e => rw [lift_err h2]; exact Or.inl rfl
        | ok r' =>
          rw [lift_okr h2]
          cases h3 : readKey c r'.1 r'.2 with
          | error e => rw [lift_err h3]; exact Or.inl rfl
          | ok r'' =>
            rw [lift_okr h3, use_run]
            refine Or.inr ⟨r''.1, ?_⟩
            split <;> rfl

theorem splitQ_any {R : Type} (h : Nat) (key ckey : K) (cptr : Ptr) (ins : Ins K V R) : ∀ n item d hd chd w cw (s : St K V),
    ∀ u ∈ (splitQ c sd h key ckey cptr ins n item d hd chd w cw s).1, u = .hash key ∨ u = .hash ckey := by
  intro n
  induction n with
  | zero => intro item d hd chd w cw s u hu; cases hu
  | succ n ih =>
    intro item d hd chd w cw s u hu
    rw [splitQ] at hu
    rcases use_log hu with hu | hu
    · split at hu
      · cases hu
      · simpa using hu
    · obtain ⟨_, t, _, hu⟩ := lift_log hu
      rcases ite_log hu with hu | hu
      · cases hu
      · obtain ⟨_, t, _, hu⟩ := lift_log hu
        obtain ⟨_, t, _, hu⟩ := lift_log hu
        exact ih _ _ _ _ _ _ _ u hu

theorem conflictQ_any {R : Type} {ch : K → K → Nat → List (Use K)} (hch : ∀ k x n, ∀ u ∈ ch k x n, u = .hash k ∨ u = .hash x) (h n : Nat) (key : K)
    (ins : Ins K V R) (cur : Cur) (s : St K V) : ∃ x, (conflictQ c ch sd h n key ins cur s).1 = [] ∨
      ∃ e, (conflictQ c ch sd h n key ins cur s).1 = .equal key x :: e ∧ ∀ u ∈ e, u = .hash key ∨ u = .hash x := by
  unfold conflictQ
  cases h1 : itemRef cur s with
  | error e => rw [lift_err h1]; exact ⟨key, Or.inl rfl⟩
  | ok r =>
    rw [lift_okr h1]
    cases h2 : load r.1 r.2 with
    | error e => rw [lift_err h2]; exact ⟨key, Or.inl rfl⟩
    | ok r' =>
      rw [lift_okr h2]
      cases h3 : readKey c r'.1 r'.2 with
      | error e => rw [lift_err h3]; exact ⟨key, Or.inl rfl⟩
      | ok r'' =>
        rw [lift_okr h3, use_run]
        refine ⟨r''.1, Or.inr ⟨_, rfl, fun u hu => ?_⟩⟩
        rcases ite_log hu with hu | hu
        · cases hu
        · obtain ⟨⟨chd, cw⟩, t, _, hu⟩ := lift_log hu
          rcases use_log hu with hu | hu
          · exact hch _ _ _ u hu
          · rcases ite_log hu with hu | hu
            · cases hu
            · obtain ⟨_, t, _, hu⟩ := lift_log hu
              obtain ⟨_, t, _, hu⟩ := lift_log hu
              exact splitQ_any h key r''.1 _ ins _ _ _ _ _ _ _ _ u hu

theorem upsertQ_any {R : Type} {ch : K → K → Nat → List (Use K)} (hch : ∀ k x n, ∀ u ∈ ch k x n, u = .hash k ∨ u = .hash x) (h n : Nat) (key : K)
    (ins : Ins K V R) (s : St K V) : ∃ x, PutLog key x (upsertQ c ch h n key ins s).1 := by
  unfold upsertQ
  rw [lift_ok (getRoot_run h s), use_run]
  obtain ⟨j, hj⟩ := searchQ_any (c := c) (sd := (s.roots h).seed) key n (start c (s.roots h).seed key h) s
  rcases log_bind (x := searchQ c (s.roots h).seed key n (start c (s.roots h).seed key h)) (s := s) with e | ⟨⟨cur, b⟩, t, _, e⟩
  · refine ⟨key, j + 1, [], ?_, Or.inl rfl⟩
    show [Use.hash key] ++ _ = _
    rw [e, hj, List.append_nil]
    rfl
  · cases b with
    | false => exact ⟨key, j + 1, _, (by show [Use.hash key] ++ _ = _; rw [e, hj]; rfl), Or.inl rfl⟩
    | true =>
      obtain ⟨x, hx⟩ := conflictQ_any (c := c) (sd := (s.roots h).seed) hch h n key ins cur t
      refine ⟨x, j + 1, _, (by show [Use.hash key] ++ _ = _; rw [e, hj]; rfl), ?_⟩
      simp only [if_true]
      exact hx

end

section
variable {K V : Type} [Inhabited V]

/-- The two ways in which the conflicting key is hashed; `a` is how often `Mod` then hashes its own key instead. -/
def Hashing.Fair (U : Hashing K) (a : Nat) : Prop := U = byteHashing ∧ a = 0 ∨ U = genericHashing ∧ a = 1

theorem Hashing.Fair.any {U : Hashing K} {a : Nat} (h : U.Fair a) : (∀ k x n, ∀ u ∈ U.set k x n, u = .hash k ∨ u = .hash x) ∧
    ∀ k x n, ∀ u ∈ U.mod k x n, u = .hash k ∨ u = .hash x := by
  rcases h with ⟨rfl, rfl⟩ | ⟨rfl, rfl⟩
  · exact ⟨fun k x n u hu => Or.inr (List.mem_replicate.1 hu).2, fun k x n u hu => Or.inr (List.mem_replicate.1 hu).2⟩
  · exact ⟨fun k x n u hu => Or.inr (List.mem_singleton.1 hu), fun k x n u hu => Or.inl (List.mem_singleton.1 hu)⟩

/-- C93, in any memory.  `Get`, `Val`, `Ptr` and `Del` hash their key and compare it with at most one key; `Set` and `Mod` hash no
other keys than their own and the one they compare it with; `Len`, `Dep` and `All` hash and compare nothing.  (Calls that fault
included.) -/
theorem C93_any_map (I : MapImpl K V) {U : Hashing K} {a : Nat} (hU : U.Fair a) (n : Nat) (m : Handle) (s : St K V) :
    (∀ op k, op.seeks = some k → ∃ j, SeekLog k j (I.execQ U n m op s).1) ∧
    (∀ k v, ∃ x, PutLog k x (I.execQ U n m (.set k v) s).1) ∧
    (∀ k f, ∃ x, PutLog k x (I.execQ U n m (.mod k f) s).1) ∧
    (I.execQ U n m .len s).1 = [] ∧ (I.execQ U n m .dep s).1 = [] ∧ ∀ f, (I.execQ U n m (.all f) s).1 = [] := by
  have none_ok : ∀ k : K, SeekLog k 0 [] := fun k => ⟨[], rfl, Or.inl rfl⟩
  have ptr_ok : ∀ k, ∃ j, SeekLog k j (I.PtrQ n m k s).1 := fun k => by
    unfold MapImpl.PtrQ
    cases h : deref m s with
    | error e => rw [lift_err h]; exact ⟨0, none_ok k⟩
    | ok r => rw [lift_okr h]; exact lookupQ_any _ _ _ _
  refine ⟨fun op k hop => ?_, fun k v => ?_, fun k f => ?_, rfl, rfl, fun f => rfl⟩
  · cases op with
    | get k' => cases hop; rw [MapImpl.execQ, log_then]; exact ptr_ok k
    | val k' =>
      cases hop
      cases m with
      | none => exact ⟨0, none_ok k⟩
      | some a => rw [MapImpl.execQ, log_then]; exact ptr_ok k
    | ptr k' => cases hop; rw [MapImpl.execQ, log_then]; exact ptr_ok k
    | write k' v => cases hop; rw [MapImpl.execQ, log_then]; exact ptr_ok k
    | del k' =>
      cases hop
      rw [MapImpl.execQ]
      cases h : deref m s with
      | error e => rw [lift_err h]; exact ⟨0, none_ok k⟩
      | ok r => rw [lift_okr h, log_pure]; exact deleteQ_any _ _ _ _ _
    | _ => cases hop
  · rw [MapImpl.execQ]
    cases h : deref m s with
    | error e => rw [lift_err h]; exact ⟨k, 0, [], rfl, Or.inl rfl⟩
    | ok r => rw [lift_okr h, log_pure]; exact upsertQ_any hU.any.1 _ _ _ _ _
  · rw [MapImpl.execQ]
    cases h : deref m s with
    | error e => rw [lift_err h]; exact ⟨k, 0, [], rfl, Or.inl rfl⟩
    | ok r => rw [lift_okr h, log_pure]; exact upsertQ_any hU.any.2 _ _ _ _ _

/-- C93 for sets, in any memory. -/
theorem C93_any_set (I : SetImpl K) {U : Hashing K} {a : Nat} (hU : U.Fair a) (n : Nat) (m : Handle) (s : St K Unit) :
    (∀ op k, op.seeks = some k → ∃ j, SeekLog k j (I.execQ U n m op s).1) ∧
    (∀ k, ∃ x, PutLog k x (I.execQ U n m (.add k) s).1) ∧
    (I.execQ U n m .len s).1 = [] ∧ (I.execQ U n m .dep s).1 = [] ∧ ∀ f, (I.execQ U n m (.all f) s).1 = [] := by
  have none_ok : ∀ k : K, SeekLog k 0 [] := fun k => ⟨[], rfl, Or.inl rfl⟩
  refine ⟨fun op k hop => ?_, fun k => ?_, rfl, rfl, fun f => rfl⟩
  · cases op with
    | has k' =>
      cases hop
      rw [SetImpl.execQ]
      cases h : deref m s with
      | error e => rw [lift_err h]; exact ⟨0, none_ok k⟩
      | ok r => rw [lift_okr h, log_pure]; exact lookupQ_any _ _ _ _
    | del k' =>
      cases hop
      rw [SetImpl.execQ]
      cases h : deref m s with
      | error e => rw [lift_err h]; exact ⟨0, none_ok k⟩
      | ok r => rw [lift_okr h, log_pure]; exact deleteQ_any _ _ _ _ _
    | _ => cases hop
  · rw [SetImpl.execQ]
    cases h : deref m s with
    | error e => rw [lift_err h]; exact ⟨k, 0, [], rfl, Or.inl rfl⟩
    | ok r => rw [lift_okr h, log_pure]; exact upsertQ_any hU.any.1 _ _ _ _ _

end

/-! ### How often -/

section
variable {K V : Type} {c : Cfg K} {sd : Seed}

theorem searchQ_more (key : K) (m : Nat) : ∀ n cur (s : St K V) r, search c sd key n cur s = .ok r →
    searchQ c sd key (n + m) cur s = searchQ c sd key n cur s := by
  intro n
  induction n with
  | zero => intro cur s r h; cases h
  | succ n ih =>
    intro cur s r h
    rw [Nat.add_right_comm, searchQ, searchQ]
    rw [search, bind_run] at h
    cases hl : load cur.l s with
    | error e => rw [lift_err hl, lift_err hl]
    | ok r' =>
      obtain ⟨lk, t⟩ := r'
      rw [hl] at h
      simp only at h
      rw [lift_ok hl, lift_ok hl]
      by_cases h1 : lk.pmap &&& bitOf (radixOf cur.hd) ≠ 0#32
      · rw [if_pos h1] at h ⊢
        rw [if_pos h1]
        by_cases h2 : lk.tmap &&& bitOf (radixOf cur.hd) = 0#32
        · rw [if_pos h2] at h ⊢
          rw [if_pos h2, use_run, use_run, ih _ _ _ h]
        · rw [if_neg h2, if_neg h2]
      · rw [if_neg h1, if_neg h1]

theorem searchQ_log (key : K) : ∀ n cur (s : St K V) cur' b s', n + cur.d ≤ 256 → search c sd key n cur s = .ok ((cur', b), s') →
    (searchQ c sd key n cur s).1 = List.replicate (cur'.d / 16 - cur.d / 16) (.hash key) ∧ cur.d ≤ cur'.d ∧ cur'.d < cur.d + n ∧
      ∃ r, search c sd key (cur'.d - cur.d + 1) cur s = .ok r := by
  intro n
  induction n with
  | zero => intro cur s cur' b s' _ h; cases h
  | succ n ih =>
    intro cur s cur' b s' hn h
    rw [searchQ]
    rw [search, bind_run] at h
    cases hl : load cur.l s with
    | error e => rw [hl] at h; cases h
    | ok r' =>
      obtain ⟨lk, t⟩ := r'
      rw [hl] at h
      simp only at h
      rw [lift_ok hl]
      by_cases h1 : lk.pmap &&& bitOf (radixOf cur.hd) ≠ 0#32
      · rw [if_pos h1] at h ⊢
        by_cases h2 : lk.tmap &&& bitOf (radixOf cur.hd) = 0#32
        · rw [if_pos h2] at h ⊢
          have hn0 : n ≠ 0 := by rintro rfl; cases h
          have hd : (descend c sd key { cur with path := cur.path ++ [(radixOf cur.hd, some cur.l)] } ⟨lk.ptr, rankOf lk.pmap (radixOf cur.hd)⟩).d = cur.d + 1 := by
            have : (cur.d + 1) % 256 = cur.d + 1 := by omega
            have h0 : ∀ (p : Prop) [Decidable p] (a b : Cur), a.d = cur.d + 1 → b.d = cur.d + 1 → (if p then a else b).d = cur.d + 1 := by
              intro p _ a b ha hb
              split
              · exact ha
              · exact hb
            exact h0 _ _ _ this this
          obtain ⟨g1, g2, g3, r, g4⟩ := ih _ _ _ _ _ (by rw [hd]; omega) h
          rw [hd] at g1 g2 g3 g4
          refine ⟨?_, by omega, by omega, r, ?_⟩
          · rw [use_run]
            simp only [g1]
            have hm : (cur.d + 1) % 256 = cur.d + 1 := by omega
            rw [hm]
            split
            · rw [List.nil_append]; congr 1; omega
            · rw [show cur'.d / 16 - cur.d / 16 = cur'.d / 16 - (cur.d + 1) / 16 + 1 by omega]; rfl
          · rw [search, bind_ok hl, if_pos h1, if_pos h2, show cur'.d - cur.d = cur'.d - (cur.d + 1) + 1 by omega]
            exact g4
        · rw [if_neg h2] at h ⊢
          cases h
          refine ⟨by simp; rfl, Nat.le_refl _, by show cur.d < _; omega, _, by rw [search, bind_ok hl, if_pos h1, if_neg h2]; rfl⟩
      · rw [if_neg h1] at h ⊢
        cases h
        refine ⟨by simp; rfl, Nat.le_refl _, by omega, _, by rw [search, bind_ok hl, if_neg h1]; rfl⟩

variable [DecidableEq K] {H : K → Nat → BitVec 64} {cl : Prop} {s : St K V} {h : Nat} {t : T K Ptr V} {F : Nat → Prop}

/-- What the search for a key hashes. -/
theorem Inv.searchQ (L : Laws c sd H) (hi : Inv c sd H cl s h t F) (key : K) {fuel : Nat} (hf : 256 ≤ fuel) :
    ∃ cur b, Amt.searchQ c sd key fuel (start c sd key h) s =
        (List.replicate ((rounds (nbOf H) key t 0 - 1) / 16) (.hash key), .ok ((cur, b), s)) ∧ cur.d + 1 = rounds (nbOf H) key t 0 ∧
      match slot (nbOf H) key t 0 with
      | none => b = false
      | some e => b = true ∧ CurOk H key cur.d cur ∧ cur.d + 1 = lev (nbOf H) key t 0 ∧
          ∃ item x, itemRef cur s = .ok (item, s) ∧ load item s = .ok (x, s) ∧ readKey c x s = .ok (e.1, s) := by
  have hrl := hi.rounds_le key
  obtain ⟨lk, hl, hrp⟩ := hi.rep
  obtain ⟨cur, b, e1, e2⟩ := search_sim (fuel := 256) L key (by omega : 255 < 256) t hi.node hl hrp hi.ht (by omega : 255 < 256 + 0)
    (start_ok L key h) rfl
  obtain ⟨g1, g2, g3, r, g4⟩ := searchQ_log key 256 _ _ _ _ _ (by show 256 + 0 ≤ 256; omega) e1
  have hcd : (start c sd key h).d = 0 := rfl
  rw [hcd] at g1 g2 g3 g4
  have hr1 : rounds (nbOf H) key t 0 ≤ cur.d + 1 := by
    rcases Nat.lt_or_ge (cur.d - 0 + 1) (rounds (nbOf H) key t 0) with h1 | h1
    · have := (search_rounds (fuel := cur.d - 0 + 1) L key t hi.node hl hrp hi.ht (start_ok L key h) rfl).1 h1
      rw [this] at g4; cases g4
    · omega
  have hr2 : cur.d + 1 ≤ rounds (nbOf H) key t 0 := by
    obtain ⟨⟨⟨cur2, b2⟩, s2⟩, g5⟩ : ∃ r, search c sd key (rounds (nbOf H) key t 0) (start c sd key h) s = .ok r := by
      obtain ⟨r, hr⟩ := (search_rounds (fuel := rounds (nbOf H) key t 0) L key t hi.node hl hrp hi.ht (start_ok L key h) rfl).2 (Nat.le_refl _)
      exact ⟨_, hr⟩
    have g6 := (searchQ_log key _ _ _ _ _ _ (by rw [hcd]; omega) g5).2.2.1
    have g7 := searchQ_more key (256 - rounds (nbOf H) key t 0) _ _ _ _ g5
    rw [show rounds (nbOf H) key t 0 + (256 - rounds (nbOf H) key t 0) = 256 by omega] at g7
    have g8 := searchQ_bare c sd key 256 (start c sd key h) s
    rw [g7, searchQ_bare, g5, e1] at g8
    cases g8
    rw [hcd] at g6
    omega
  have hrd : cur.d + 1 = rounds (nbOf H) key t 0 := by omega
  refine ⟨cur, b, ?_, hrd, ?_⟩
  · have g7 := searchQ_more key (fuel - 256) _ _ _ _ e1
    rw [show 256 + (fuel - 256) = fuel by omega] at g7
    rw [g7]
    refine Prod.ext ?_ ?_
    · rw [g1]
      show List.replicate _ _ = List.replicate _ _
      congr 1
      omega
    · rw [searchQ_bare]; exact e1
  · cases hs : slot (nbOf H) key t 0 with
    | none => rw [hs] at e2; exact e2
    | some e =>
      rw [hs] at e2
      obtain ⟨rfl, e3, ⟨e4, _⟩, item, x, _, e5, e6, e7, _⟩ := e2
      exact ⟨rfl, e4, e3, item, x, e5, e6, e7⟩

/-- What the split loop hashes. -/
theorem splitQ_count {R : Type} (L : Laws c sd H) {key ckey : K} (ins : Ins K V R) (h : Nat) (cptr : Ptr) {j : Nat} (hj : j ≤ 255)
    (hne : nbOf H key j ≠ nbOf H ckey j) : ∀ (fuel : Nat) (item : Ref) (d : Nat) (s : St K V), d < j → ∀ x, x = key ∨ x = ckey →
      (splitQ c sd h key ckey cptr ins fuel item d (hdAt H key d) (hdAt H ckey d) (d / 16 + 1) (d / 16 + 1) s).1.count (.hash x) ≤ j / 16 - d / 16 := by
  have hkc : key ≠ ckey := by rintro rfl; exact hne rfl
  intro fuel
  induction fuel with
  | zero => intro item d s h1 x hx; exact Nat.zero_le _
  | succ fuel ih =>
    intro item d s h1 x hx
    have hm : (d + 1) % 256 = d + 1 := by omega
    have hw : (if (d + 1) % 16 ≠ 0 then d / 16 + 1 else d / 16 + 1 + 1) = (d + 1) / 16 + 1 := by split <;> omega
    rw [splitQ]
    simp only [hm, next_hd L key (by omega : d + 1 < 256), next_hd L ckey (by omega : d + 1 < 256), hw]
    rw [use_run]
    simp only [List.count_append]
    have hfirst : (if (d + 1) % 16 ≠ 0 then ([] : List (Use K)) else [.hash key, .hash ckey]).count (.hash x) ≤ (d + 1) / 16 - d / 16 := by
      split
      · exact Nat.zero_le _
      · rw [show (d + 1) / 16 - d / 16 = 1 by omega]
        rcases hx with rfl | rfl
        · simp [List.count_cons, Ne.symm hkc]
        · simp [List.count_cons, hkc]
    have hrest : ∀ y : Q K V R, (∀ s', (y s').1.count (.hash x) ≤ j / 16 - (d + 1) / 16) → ∀ z : M K V Unit, ((Q.lift z >>= fun _ => y) s).1.count (.hash x) ≤ j / 16 - (d + 1) / 16 := by
      intro y hy z
      cases hz : z s with
      | error e => rw [lift_err hz]; exact Nat.zero_le _
      | ok r => rw [lift_okr hz]; exact hy _
    refine Nat.le_trans (Nat.add_le_add hfirst (hrest _ (fun s' => ?_) _)) (by omega)
    split
    · exact Nat.zero_le _
    · rename_i he
      cases h2 : newLinkArray 1 s' with
      | error e => rw [lift_err h2]; exact Nat.zero_le _
      | ok r' =>
        rw [lift_okr h2]
        cases h3 : modLink item (fun x => { x with ptr := r'.1 }) r'.2 with
        | error e => rw [lift_err h3]; exact Nat.zero_le _
        | ok r'' =>
          rw [lift_okr h3]
          by_cases hd : d + 1 = j
          · subst hd
            have h3 := nbOf_lt H key (d + 1)
            have h4 := nbOf_lt H ckey (d + 1)
            exact absurd (fun hb => hne ((bitOf_inj (by omega) (by omega)).1 hb)) he
          · exact ih _ (d + 1) _ (by omega) x hx

/-- What a lookup hashes and compares. -/
theorem Inv.lookupQ (L : Laws c sd H) (hi : Inv c sd H cl s h t F) (key : K) {fuel : Nat} (hf : 256 ≤ fuel) :
    (Amt.lookupQ c h fuel key s).1 = List.replicate (hashes (rounds (nbOf H) key t 0)) (.hash key) ++
      (match slot (nbOf H) key t 0 with | none => [] | some e => [.equal key e.1]) := by
  obtain ⟨cur, b, e1, e2, e3⟩ := hi.searchQ L key hf
  unfold Amt.lookupQ
  rw [lift_ok (getRoot_run h s), use_run, hi.seed, Q.bind_run, e1]
  simp only
  show [Use.hash key] ++ (_ ++ _) = _
  rw [← List.append_assoc]
  have h0 : [Use.hash key] ++ List.replicate ((rounds (nbOf H) key t 0 - 1) / 16) (Use.hash key) =
      List.replicate (hashes (rounds (nbOf H) key t 0)) (Use.hash key) := by
    unfold hashes; rw [Nat.add_comm]; rfl
  rw [h0]
  congr 1
  cases hs : slot (nbOf H) key t 0 with
  | none => rw [hs] at e3; subst e3; rfl
  | some e =>
    rw [hs] at e3
    obtain ⟨rfl, _, _, item, x, f1, f2, f3⟩ := e3
    simp only [if_true]
    rw [lift_ok f1, lift_ok f2, lift_ok f3, use_run]
    split <;> rfl

theorem Inv.deleteQ (L : Laws c sd H) (hi : Inv c sd H cl s h t F) (skip : Bool → Bool) (key : K) {fuel : Nat} (hf : 256 ≤ fuel) :
    (Amt.deleteQ c h fuel skip key s).1 = List.replicate (hashes (rounds (nbOf H) key t 0)) (.hash key) ++
      (match slot (nbOf H) key t 0 with | none => [] | some e => [.equal key e.1]) := by
  obtain ⟨cur, b, e1, e2, e3⟩ := hi.searchQ L key hf
  unfold Amt.deleteQ
  rw [lift_ok (getRoot_run h s), use_run, hi.seed, Q.bind_run, e1]
  simp only
  show [Use.hash key] ++ (_ ++ _) = _
  rw [← List.append_assoc]
  have h0 : [Use.hash key] ++ List.replicate ((rounds (nbOf H) key t 0 - 1) / 16) (Use.hash key) =
      List.replicate (hashes (rounds (nbOf H) key t 0)) (Use.hash key) := by
    unfold hashes; rw [Nat.add_comm]; rfl
  rw [h0]
  congr 1
  cases hs : slot (nbOf H) key t 0 with
  | none => rw [hs] at e3; subst e3; rfl
  | some e =>
    rw [hs] at e3
    obtain ⟨rfl, _, _, item, x, f1, f2, f3⟩ := e3
    simp only [if_true]
    rw [lift_ok f1, lift_ok f2, lift_ok f3, use_run]
    split <;> rfl

/-- What an insertion hashes and compares; `r` levels are visited by a search for the key afterwards. -/
theorem Inv.upsertQ {R : Type} (L : Laws c sd H) (hi : Inv c sd H cl s h t F) {key : K} {ins : Ins K V R} {ch : K → K → Nat → List (Use K)} {fuel r a : Nat}
    (hf : 256 ≤ fuel) (hr : rounds (nbOf H) key t 0 ≤ r)
    (hu : ∀ k x n, ∀ u ∈ ch k x n, u = .hash k ∨ u = .hash x)
    (hu1 : ∀ x n, x ≠ key → (ch key x (n + 1)).count (.hash key) ≤ a ∧ (ch key x (n + 1)).count (.hash x) ≤ n + 1)
    (hsep : ∀ e, slot (nbOf H) key t 0 = some e → e.1 ≠ key → ∃ j, j < r ∧ j ≤ 255 ∧ nbOf H key j ≠ nbOf H e.1 j)
    (hch : ∀ e, slot (nbOf H) key t 0 = some e → e.1 ≠ key → ∀ d, d + 1 = lev (nbOf H) key t 0 →
      ins.chash sd key e.1 d fuel = .ok (hdAt H e.1 d, d / 16 + 1)) :
    (∀ e, slot (nbOf H) key t 0 = some e → e.1 = key →
      (Amt.upsertQ c ch h fuel key ins s).1 = List.replicate (hashes (rounds (nbOf H) key t 0)) (.hash key) ++ [.equal key key]) ∧
    (slot (nbOf H) key t 0 = none →
      (Amt.upsertQ c ch h fuel key ins s).1 = List.replicate (hashes (rounds (nbOf H) key t 0)) (.hash key)) ∧
    ∀ e, slot (nbOf H) key t 0 = some e → e.1 ≠ key → PutLog key e.1 (Amt.upsertQ c ch h fuel key ins s).1 ∧
      (Amt.upsertQ c ch h fuel key ins s).1.count (.hash key) ≤ hashes r + a ∧ (Amt.upsertQ c ch h fuel key ins s).1.count (.hash e.1) ≤ hashes r := by
  obtain ⟨cur, b, e1, e2, e3⟩ := hi.searchQ L key hf
  unfold Amt.upsertQ
  rw [lift_ok (getRoot_run h s), use_run, hi.seed, Q.bind_run, e1]
  simp only
  rw [show ∀ l : List (Use K), [Use.hash key] ++ (List.replicate ((rounds (nbOf H) key t 0 - 1) / 16) (Use.hash key) ++ l) =
      List.replicate (hashes (rounds (nbOf H) key t 0)) (Use.hash key) ++ l from fun l => by
    rw [← List.append_assoc]; congr 1; unfold hashes; rw [Nat.add_comm]; rfl]
  refine ⟨fun e hs he => ?_, fun hs => ?_, fun e hs he => ?_⟩
  · rw [hs] at e3
    obtain ⟨rfl, _, _, item, x, f1, f2, f3⟩ := e3
    simp only [if_true]
    congr 1
    unfold conflictQ
    rw [lift_ok f1, lift_ok f2, lift_ok f3, use_run, he, if_pos ((L.eq_iff _ _).2 rfl)]
    rfl
  · rw [hs] at e3
    subst e3
    exact List.append_nil _
  · rw [hs] at e3
    obtain ⟨rfl, f0, f4, item, x, f1, f2, f3⟩ := e3
    simp only [if_true]
    obtain ⟨j, j1, j2, j3⟩ := hsep e hs he
    have hag := slot_agree hi.node hi.wf hs
    have hdj : cur.d < j := by
      rw [← f4] at hag
      rcases Nat.lt_or_ge cur.d j with h | h
      · exact h
      · exact absurd (by have := hag j (by omega); simpa only [nbOf_eq_nibble] using this) j3
    have hlog : ∃ l, (conflictQ c ch sd h fuel key ins cur s).1 = .equal key e.1 :: (ch key e.1 (cur.d / 16 + 1) ++ l) ∧
        (∀ u ∈ l, u = .hash key ∨ u = .hash e.1) ∧ ∀ y, y = key ∨ y = e.1 → l.count (.hash y) ≤ j / 16 - cur.d / 16 := by
      unfold conflictQ
      rw [lift_ok f1, lift_ok f2, lift_ok f3, use_run, if_neg (fun h => he ((L.eq_iff _ _).1 h).symm),
        lift_ok (a := (hdAt H e.1 cur.d, cur.d / 16 + 1)) (t := s) (by rw [hch e hs he cur.d f4]; rfl)]
      simp only [use_run]
      refine ⟨_, rfl, fun u hu => ?_, fun y hy => ?_⟩
      · rcases ite_log hu with hu | hu
        · cases hu
        · obtain ⟨_, t, _, hu⟩ := lift_log hu
          obtain ⟨_, t, _, hu⟩ := lift_log hu
          exact splitQ_any h key e.1 _ ins _ _ _ _ _ _ _ _ u hu
      · split
        · exact Nat.zero_le _
        · cases h5 : modLink cur.l (fun y => { y with tmap := y.tmap &&& ~~~bitOf (radixOf cur.hd) }) s with
          | error e => rw [lift_err h5]; exact Nat.zero_le _
          | ok z =>
            rw [lift_okr h5, lift_ok (show modRoot h (fun m => { m with dep := m.dep - BitVec.ofNat 64 cur.d }) z.2 = .ok ((), _) from rfl), f0.hd, f0.w]
            exact splitQ_count L ins h _ j2 j3 fuel item cur.d _ hdj y hy
    obtain ⟨l, g1, g2, g3⟩ := hlog
    rw [g1]
    obtain ⟨u1, u2⟩ := hu1 e.1 (cur.d / 16) he
    have hr0 : hashes (rounds (nbOf H) key t 0) = cur.d / 16 + 1 := by unfold hashes; omega
    have hrr : hashes r = 1 + (r - 1) / 16 := rfl
    refine ⟨⟨_, _, rfl, Or.inr ⟨_, rfl, fun u hm => ?_⟩⟩, ?_, ?_⟩
    · rcases List.mem_append.1 hm with hm | hm
      · exact hu _ _ _ u hm
      · exact g2 u hm
    · have := g3 key (Or.inl rfl)
      rw [List.count_append, List.count_cons, List.count_append, List.count_replicate_self, hr0]
      simp only [beq_iff_eq, reduceCtorEq, if_false]
      omega
    · have := g3 e.1 (Or.inr rfl)
      rw [List.count_append, List.count_cons, List.count_append, List.count_replicate,
        if_neg (by simp only [beq_iff_eq, Use.hash.injEq]; exact fun h => he h.symm)]
      simp only [beq_iff_eq, reduceCtorEq, if_false]
      omega

/-! ### After any history -/

theorem Hashing.Fair.set_count {U : Hashing K} {a : Nat} (h : U.Fair a) {k x : K} (hne : x ≠ k) (n : Nat) :
    (U.set k x (n + 1)).count (.hash k) ≤ 0 ∧ (U.set k x (n + 1)).count (.hash x) ≤ n + 1 := by
  have h0 : ¬ (Use.hash x == Use.hash k) = true := by simp only [beq_iff_eq, Use.hash.injEq]; exact hne
  rcases h with ⟨rfl, rfl⟩ | ⟨rfl, rfl⟩
  · exact ⟨by rw [show (byteHashing : Hashing K).set k x (n + 1) = List.replicate (n + 1) (Use.hash x) from rfl, List.count_replicate, if_neg h0]; omega,
      by rw [show (byteHashing : Hashing K).set k x (n + 1) = List.replicate (n + 1) (Use.hash x) from rfl, List.count_replicate_self]; omega⟩
  · exact ⟨by rw [show (genericHashing : Hashing K).set k x (n + 1) = [Use.hash x] from rfl, List.count_singleton, if_neg h0]; omega,
      by rw [show (genericHashing : Hashing K).set k x (n + 1) = [Use.hash x] from rfl, List.count_singleton]; split <;> omega⟩

theorem Hashing.Fair.mod_count {U : Hashing K} {a : Nat} (h : U.Fair a) {k x : K} (hne : x ≠ k) (n : Nat) :
    (U.mod k x (n + 1)).count (.hash k) ≤ a ∧ (U.mod k x (n + 1)).count (.hash x) ≤ n + 1 := by
  have h0 : ¬ (Use.hash x == Use.hash k) = true := by simp only [beq_iff_eq, Use.hash.injEq]; exact hne
  rcases h with ⟨rfl, rfl⟩ | ⟨rfl, rfl⟩
  · exact ⟨by rw [show (byteHashing : Hashing K).mod k x (n + 1) = List.replicate (n + 1) (Use.hash x) from rfl, List.count_replicate, if_neg h0]; omega,
      by rw [show (byteHashing : Hashing K).mod k x (n + 1) = List.replicate (n + 1) (Use.hash x) from rfl, List.count_replicate_self]; omega⟩
  · exact ⟨by rw [show (genericHashing : Hashing K).mod k x (n + 1) = [Use.hash k] from rfl, List.count_singleton]; split <;> omega,
      by rw [show (genericHashing : Hashing K).mod k x (n + 1) = [Use.hash k] from rfl, List.count_singleton]; split <;> omega⟩

/-- The slot of a key that is stored holds it. -/
theorem Inv.slot_stored [Inhabited V] (hi : Inv c sd H cl s h t F) {k : K} (hk : k ∈ (leaves t).map (fun e => e.1)) : ∃ e, slot (nbOf H) k t 0 = some e ∧ e.1 = k := by
  have hfs := find_slot (nb := nbOf H) k t 0
  cases hs : slot (nbOf H) k t 0 with
  | none =>
    rw [hs] at hfs
    exact absurd (by rw [absT_keys]; exact hk) ((find_none_iff hi k).1 hfs)
  | some e =>
    refine ⟨e, rfl, ?_⟩
    rw [hs, Option.bind_some] at hfs
    by_cases he : e.1 = k
    · exact he
    · rw [if_neg (Ne.symm he)] at hfs
      exact absurd (by rw [absT_keys]; exact hk) ((find_none_iff hi k).1 hfs)

/-- From the log of a search, to what is claimed of it. -/
theorem Inv.looks [Inhabited V] (hi : Inv c sd H cl s h t F) {ks : List K} (hk : ∀ x, x ∈ ks ↔ x ∈ (leaves t).map (fun e => e.1)) {k : K} {n : Nat} {l : List (Use K)}
    (hl : l = List.replicate n (.hash k) ++ (match slot (nbOf H) k t 0 with | none => [] | some e => [.equal k e.1])) : SeekLogIn ks k n l := by
  refine ⟨_, hl, ?_, fun hm => ?_⟩
  · cases hs : slot (nbOf H) k t 0 with
    | none => exact Or.inl rfl
    | some e => exact Or.inr ⟨e.1, (hk _).2 (List.mem_map_of_mem (slot_mem (nbOf_lt H) hs)), rfl⟩
  · obtain ⟨e, e1, e2⟩ := hi.slot_stored ((hk k).1 hm)
    rw [e1]
    simp only [e2]

/-- The same for an insertion. -/
theorem Inv.putsQ [Inhabited V] {R : Type} (L : Laws c sd H) (hi : Inv c sd H cl s h t F) {ks : List K} (hk : ∀ x, x ∈ ks ↔ x ∈ (leaves t).map (fun e => e.1))
    {key : K} {ins : Ins K V R} {ch : K → K → Nat → List (Use K)} {fuel r a : Nat}
    (hf : 256 ≤ fuel) (hr : rounds (nbOf H) key t 0 ≤ r)
    (hu : ∀ k x n, ∀ u ∈ ch k x n, u = .hash k ∨ u = .hash x)
    (hu1 : ∀ x n, x ≠ key → (ch key x (n + 1)).count (.hash key) ≤ a ∧ (ch key x (n + 1)).count (.hash x) ≤ n + 1)
    (hsep : ∀ e, slot (nbOf H) key t 0 = some e → e.1 ≠ key → ∃ j, j < r ∧ j ≤ 255 ∧ nbOf H key j ≠ nbOf H e.1 j)
    (hch : ∀ e, slot (nbOf H) key t 0 = some e → e.1 ≠ key → ∀ d, d + 1 = lev (nbOf H) key t 0 →
      ins.chash sd key e.1 d fuel = .ok (hdAt H e.1 d, d / 16 + 1)) :
    PutLogIn ks key (hashes r) a (Amt.upsertQ c ch h fuel key ins s).1 ∧
    (key ∈ ks → (Amt.upsertQ c ch h fuel key ins s).1 = List.replicate (hashes (rounds (nbOf H) key t 0)) (.hash key) ++ [.equal key key]) := by
  obtain ⟨h1, h2, h3⟩ := hi.upsertQ L hf hr hu hu1 hsep hch
  have hh : hashes (rounds (nbOf H) key t 0) ≤ hashes r := by
    have : (rounds (nbOf H) key t 0 - 1) / 16 ≤ (r - 1) / 16 := Nat.div_le_div_right (by omega)
    unfold hashes; omega
  refine ⟨?_, fun hm => ?_⟩
  · cases hs : slot (nbOf H) key t 0 with
    | none =>
      rw [h2 hs]
      exact ⟨key, ⟨_, [], (List.append_nil _).symm, Or.inl rfl⟩, by rw [List.count_replicate_self]; omega, fun h => absurd rfl h⟩
    | some e =>
      by_cases he : e.1 = key
      · rw [h1 e hs he]
        exact ⟨key, ⟨_, _, rfl, Or.inr ⟨[], rfl, fun u hu => nomatch hu⟩⟩, by
          rw [List.count_append, List.count_replicate_self, List.count_singleton]
          simp only [beq_iff_eq, reduceCtorEq, if_false]
          omega, fun h => absurd rfl h⟩
      · obtain ⟨g1, g2, g3⟩ := h3 e hs he
        exact ⟨e.1, g1, g2, fun _ => ⟨(hk _).2 (List.mem_map_of_mem (slot_mem (nbOf_lt H) hs)), g3⟩⟩
  · obtain ⟨e, e1, e2⟩ := hi.slot_stored ((hk key).1 hm)
    exact h1 e e1 e2

end

section
variable {K V : Type} [Inhabited V] [DecidableEq K] {U : Hashing K} {a : Nat}

/-- C93.  After any history, `Get`, `Val`, `Ptr` and `Del` hash their key once for every sixteen levels that they visit (C37), and compare it
with at most one key, which is a stored one.  So do `Set` and `Mod` of a stored key.  If it is not stored, and the history could continue
with it, they hash it, and the key they compare it with, at most once for every sixteen levels that a search for it visits afterwards; `Mod`
hashes it once more at most, and only in a generic map. -/
theorem C93_map {I : MapImpl K V} {sd : Seed} {H : K → Nat → BitVec 64} {P : Bool → List K → K → Prop} {lossy : V → V} {ex : Prop} {n : Nat}
    (hc : MapContainer I sd H P lossy ex) (hex : ex) (hU : U.Fair a) {ops : List (MOp K V)} (h : EachNew P [] ops) (hn : 256 ≤ n) (s : St K V) :
    ∃ m os s₁, I.session n sd ops s = .ok ((m, os), s₁) ∧
      (∀ op k, op.seeks = some k → SeekLogIn (keysAfter [] ops) k (hashes (levels H (keysAfter [] ops) k)) (I.execQ U n m op s₁).1) ∧
      (∀ k v, k ∈ keysAfter [] ops → (I.execQ U n m (.set k v) s₁).1 = List.replicate (hashes (levels H (keysAfter [] ops) k)) (.hash k) ++ [.equal k k]) ∧
      (∀ k f, k ∈ keysAfter [] ops → (I.execQ U n m (.mod k f) s₁).1 = List.replicate (hashes (levels H (keysAfter [] ops) k)) (.hash k) ++ [.equal k k]) ∧
      (∀ k v, k ∉ keysAfter [] ops → P false (keysAfter [] ops) k →
        PutLogIn (keysAfter [] ops) k (hashes (levels H (k :: keysAfter [] ops) k)) 0 (I.execQ U n m (.set k v) s₁).1) ∧
      (∀ k f, k ∉ keysAfter [] ops → P true (keysAfter [] ops) k →
        PutLogIn (keysAfter [] ops) k (hashes (levels H (k :: keysAfter [] ops) k)) a (I.execQ U n m (.mod k f) s₁).1) := by
  obtain ⟨os, s₁, t, F, m, e1, i1, e3, e4⟩ := hc.session h hn s
  obtain ⟨okS, okM, ok⟩ := hc.ok
  have hk : ∀ x, x ∈ keysAfter [] ops ↔ x ∈ (leaves t).map (fun e => e.1) := fun x => by
    rw [← absT_keys, ← (FMap.keys_perm e4).mem_iff]
    exact (e3.keysAfter x).symm
  have hk' : ∀ x, x ∈ keysAfter [] ops ↔ x ∈ (absT t).keys := fun x => by rw [absT_keys]; exact hk x
  have hnd := nodup_keysAfter (V := V) (ks := []) (by simp) ops
  generalize keysAfter [] ops = ks at hk hk' hnd ⊢
  have hlev : ∀ k, rounds (nbOf H) k t 0 = levels H ks k := i1.rounds_levels hex hnd hk
  have hp : ∀ k, SeekLogIn ks k (hashes (levels H ks k)) (I.PtrQ n (some s.next) k s₁).1 := fun k => by
    unfold MapImpl.PtrQ
    rw [lift_ok (show deref (some s.next) s₁ = .ok (s.next, s₁) from rfl)]
    exact i1.looks hk (by rw [i1.lookupQ ok.laws k hn, hlev k])
  have hset : ∀ k v, (I.execQ U n (some s.next) (.set k v) s₁).1 = (upsertQ I.cfg U.set s.next n k (I.setI k v) s₁).1 := fun k v => by
    rw [MapImpl.execQ, lift_ok (show deref (some s.next) s₁ = .ok (s.next, s₁) from rfl), log_pure]
  have hmod : ∀ k f, (I.execQ U n (some s.next) (.mod k f) s₁).1 = (upsertQ I.cfg U.mod s.next n k (I.modI k f) s₁).1 := fun k f => by
    rw [MapImpl.execQ, lift_ok (show deref (some s.next) s₁ = .ok (s.next, s₁) from rfl), log_pure]
  have hno : ∀ k ∈ ks, ∀ e, slot (nbOf H) k t 0 = some e → e.1 ≠ k → False := fun k hm e hs hne => by
    obtain ⟨e', f1, f2⟩ := i1.slot_stored ((hk k).1 hm)
    rw [hs] at f1
    cases f1
    exact hne f2
  refine ⟨_, os, s₁, e1, fun op k hop => ?_, fun k v hm => ?_, fun k f hm => ?_, fun k v hm hP => ?_, fun k f hm hP => ?_⟩
  · cases op with
    | get k' => cases hop; rw [MapImpl.execQ, log_then]; exact hp k
    | val k' => cases hop; show SeekLogIn _ _ _ ((I.PtrQ n (some s.next) k >>= fun p => lift _) s₁).1; rw [log_then]; exact hp k
    | ptr k' => cases hop; rw [MapImpl.execQ, log_then]; exact hp k
    | write k' v => cases hop; rw [MapImpl.execQ, log_then]; exact hp k
    | del k' =>
      cases hop
      rw [MapImpl.execQ, lift_ok (show deref (some s.next) s₁ = .ok (s.next, s₁) from rfl), log_pure]
      exact i1.looks hk (by rw [i1.deleteQ ok.laws _ k hn, hlev k])
    | _ => cases hop
  · rw [hset, ← hlev k]
    exact (i1.putsQ ok.laws hk hn (Nat.le_refl _) hU.any.1 (a := 0) (fun x j hx => hU.set_count hx j)
      (fun e hs hne => (hno k hm e hs hne).elim) (fun e hs hne => (hno k hm e hs hne).elim)).2 hm
  · rw [hmod, ← hlev k]
    exact (i1.putsQ ok.laws hk hn (Nat.le_refl _) hU.any.2 (a := a) (fun x j hx => hU.mod_count hx j)
      (fun e hs hne => (hno k hm e hs hne).elim) (fun e hs hne => (hno k hm e hs hne).elim)).2 hm
  · have hP' : P false (absT t).keys k := ok.congr _ _ _ _ hk' hP
    have hnd' : (k :: ks).Nodup := List.nodup_cons.2 ⟨hm, hnd⟩
    rw [hset]
    refine (i1.putsQ ok.laws hk hn ?_ hU.any.1 (fun x j hx => hU.set_count hx j) (fun e hs hne => ?_) (fun e hs hne d hd => ?_)).1
    · rw [hlev k]; exact Par.levels_mono hnd (fun x hx => List.mem_cons_of_mem _ hx) k
    · have hx : e.1 ∈ (absT t).keys := leaf_keys (slot_mem (nbOf_lt H) hs)
      exact Par.levels_apart hnd' List.mem_cons_self (List.mem_cons_of_mem _ ((hk' _).2 hx)) hne (ok.apart _ _ _ hP' _ hx)
    · have hcol : CollidesAt H (absT t).keys k e.1 d := by
        have := slot_collidesAt i1.node i1.wf (i1.canon hex) hs
        rw [← hd] at this
        rw [absT_keys]
        exact this
      exact ok.setC k v e.1 d n (by omega) (ok.coll _ _ hP' _ _ hcol)
  · have hP' : P true (absT t).keys k := ok.congr _ _ _ _ hk' hP
    have hnd' : (k :: ks).Nodup := List.nodup_cons.2 ⟨hm, hnd⟩
    rw [hmod]
    refine (i1.putsQ ok.laws hk hn ?_ hU.any.2 (fun x j hx => hU.mod_count hx j) (fun e hs hne => ?_) (fun e hs hne d hd => ?_)).1
    · rw [hlev k]; exact Par.levels_mono hnd (fun x hx => List.mem_cons_of_mem _ hx) k
    · have hx : e.1 ∈ (absT t).keys := leaf_keys (slot_mem (nbOf_lt H) hs)
      exact Par.levels_apart hnd' List.mem_cons_self (List.mem_cons_of_mem _ ((hk' _).2 hx)) hne (ok.apart _ _ _ hP' _ hx)
    · have hcol : CollidesAt H (absT t).keys k e.1 d := by
        have := slot_collidesAt i1.node i1.wf (i1.canon hex) hs
        rw [← hd] at this
        rw [absT_keys]
        exact this
      exact ok.modC k f e.1 d n (by omega) (ok.collM _ _ hP' _ _ hcol)

end

section
variable {K : Type} [DecidableEq K] {U : Hashing K} {a : Nat}

/-- C93 for sets: `Has` and `Del`, and `Add`. -/
theorem C93_set {I : SetImpl K} {sd : Seed} {H : K → Nat → BitVec 64} {P : List K → K → Prop} {inv : Bool} {ex : Prop} {n : Nat}
    (hc : SetContainer I sd H P inv ex) (hex : ex) (hU : U.Fair a) {ops : List (SOp K)} (h : SEachNew H inv P [] ops) (hn : 256 ≤ n) (s : St K Unit) :
    ∃ m os s₁, I.session n sd ops s = .ok ((m, os), s₁) ∧
      (∀ op k, op.seeks = some k → SeekLogIn (elemsAfterX H inv [] ops) k (hashes (levels H (elemsAfterX H inv [] ops) k)) (I.execQ U n m op s₁).1) ∧
      (∀ k, k ∈ elemsAfterX H inv [] ops → (I.execQ U n m (.add k) s₁).1 = List.replicate (hashes (levels H (elemsAfterX H inv [] ops) k)) (.hash k) ++ [.equal k k]) ∧
      (∀ k, k ∉ elemsAfterX H inv [] ops → P (elemsAfterX H inv [] ops) k →
        PutLogIn (elemsAfterX H inv [] ops) k (hashes (levels H (k :: elemsAfterX H inv [] ops) k)) 0 (I.execQ U n m (.add k) s₁).1) := by
  obtain ⟨os, s₁, t, F, m, e1, i1, e3, e4⟩ := hc.session h hn s
  obtain ⟨okA, ok⟩ := hc.ok
  have hk : ∀ x, x ∈ elemsAfterX H inv [] ops ↔ x ∈ (leaves t).map (fun e => e.1) := fun x => by
    rw [← e3.elemsAfterX x, e4.mem_iff]; rfl
  have hk' : ∀ x, x ∈ elemsAfterX H inv [] ops ↔ x ∈ absS t := hk
  have hnd := nodup_elemsAfterX (H := H) inv (ks := []) (by simp) ops
  generalize elemsAfterX H inv [] ops = ks at hk hk' hnd ⊢
  have hlev : ∀ k, rounds (nbOf H) k t 0 = levels H ks k := i1.rounds_levels hex hnd hk
  have hadd : ∀ k, (I.execQ U n (some s.next) (.add k) s₁).1 = (upsertQ I.cfg U.set s.next n k (I.addI k) s₁).1 := fun k => by
    rw [SetImpl.execQ, lift_ok (show deref (some s.next) s₁ = .ok (s.next, s₁) from rfl), log_pure]
  have hno : ∀ k ∈ ks, ∀ e, slot (nbOf H) k t 0 = some e → e.1 ≠ k → False := fun k hm e hs hne => by
    obtain ⟨e', f1, f2⟩ := i1.slot_stored ((hk k).1 hm)
    rw [hs] at f1
    cases f1
    exact hne f2
  refine ⟨_, os, s₁, e1, fun op k hop => ?_, fun k hm => ?_, fun k hm hP => ?_⟩
  · cases op with
    | has k' =>
      cases hop
      rw [SetImpl.execQ, lift_ok (show deref (some s.next) s₁ = .ok (s.next, s₁) from rfl), log_pure]
      exact i1.looks hk (by rw [i1.lookupQ ok.laws k hn, hlev k])
    | del k' =>
      cases hop
      rw [SetImpl.execQ, lift_ok (show deref (some s.next) s₁ = .ok (s.next, s₁) from rfl), log_pure]
      exact i1.looks hk (by rw [i1.deleteQ ok.laws _ k hn, hlev k])
    | _ => cases hop
  · rw [hadd, ← hlev k]
    exact (i1.putsQ ok.laws hk hn (Nat.le_refl _) hU.any.1 (a := 0) (fun x j hx => hU.set_count hx j)
      (fun e hs hne => (hno k hm e hs hne).elim) (fun e hs hne => (hno k hm e hs hne).elim)).2 hm
  · have hP' : P (absS t) k := ok.congr _ _ _ hk' hP
    have hnd' : (k :: ks).Nodup := List.nodup_cons.2 ⟨hm, hnd⟩
    rw [hadd]
    refine (i1.putsQ ok.laws hk hn ?_ hU.any.1 (fun x j hx => hU.set_count hx j) (fun e hs hne => ?_) (fun e hs hne d hd => ?_)).1
    · rw [hlev k]; exact Par.levels_mono hnd (fun x hx => List.mem_cons_of_mem _ hx) k
    · have hx : e.1 ∈ absS t := List.mem_map_of_mem (slot_mem (nbOf_lt H) hs)
      exact Par.levels_apart hnd' List.mem_cons_self (List.mem_cons_of_mem _ ((hk' _).2 hx)) hne (ok.apart _ _ hP' _ hx)
    · have hcol : CollidesAt H (absS t) k e.1 d := by
        have := slot_collidesAt i1.node i1.wf (i1.canon hex) hs
        rw [← hd] at this
        exact this
      exact ok.addC k e.1 d n (by omega) (ok.coll _ _ hP' _ _ hcol)

end

/-! ### Instances -/

example := C93_any_map (StringMap (V := Nat) toyHash) (Or.inl ⟨rfl, rfl⟩ : byteHashing.Fair 0) 256 (some 0) St.init
example := C93_any_set (StringSet toyHash) (Or.inl ⟨rfl, rfl⟩ : byteHashing.Fair 0) 256 (some 0) St.init
example := C93_map (MapContainer.string (V := Nat) toyHash 0#64) trivial (Or.inl ⟨rfl, rfl⟩ : byteHashing.Fair 0) exOps_str (Nat.le_refl 256) St.init
example := C93_map (MapContainer.generic (V := Nat) 0#64 onceKey (by simp [onceKey])) trivial (Or.inr ⟨rfl, rfl⟩ : genericHashing.Fair 1) exOps_gen (Nat.le_refl 256) St.init
example := C93_set (SetContainer.string toyHash 0#64) trivial (Or.inl ⟨rfl, rfl⟩ : byteHashing.Fair 0) exOpsS_str (Nat.le_refl 256) St.init

/-- What a call logs after a history. -/
def logAfter {K V : Type} [Inhabited V] (I : MapImpl K V) (U : Hashing K) (sd : Seed) (ops : List (MOp K V)) (op : MOp K V) : List (Use K) :=
  match I.session 256 sd ops St.init with
  | .ok ((m, _), s) => (I.execQ U 256 m op s).1
  | .error _ => []

/-- A hash that tells keys of two bytes apart from the second digest on. -/
def twiceHash : Maphash := fun _ bs => if bs.length < 3 then 0#64 else BitVec.ofNat 64 (bs.headD 0).toNat

/-- The bounds are attained: two keys with the same first digest.  The second is hashed for the search, compared, and hashed again, as is
the first, where the paths part; that is level 17. -/
example : levels (byteStream twiceHash 0#64 id) [[1, 0], [2, 0]] [2, 0] = 17 ∧ hashes 17 = 2 ∧
    logAfter (StringMap (V := Nat) twiceHash) byteHashing 0#64 [.set [1, 0] 1] (.set [2, 0] 2) =
      [.hash [2, 0], .equal [2, 0] [1, 0], .hash [1, 0], .hash [2, 0], .hash [1, 0]] ∧
    logAfter (StringMap (V := Nat) twiceHash) byteHashing 0#64 [.set [1, 0] 1, .set [2, 0] 2] (.get [1, 0]) =
      [.hash [1, 0], .hash [1, 0], .equal [1, 0] [1, 0]] := by decide +kernel

/-- `Mod` of a generic map hashes the new key where it should hash the one in its way.  (It then takes them for alike up to level 17.) -/
example : (logAfter (GenericMap (V := Nat) onceKey) genericHashing 0#64 [.set 0x01 1] (.mod 0x11 fun v _ => v)).take 3 =
    [.hash 0x11, .equal 0x11 0x01, .hash 0x11] := by decide +kernel

end Amt
