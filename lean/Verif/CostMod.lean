/-
The accesses to memory and the allocations of `Mod`, in terms of the rounds of its search and of the loop that pushes two keys
down, and of the cost of a call of the function it is given.
-/
import Verif.CostIns

set_option linter.unusedVariables false
set_option linter.unusedSectionVars false
set_option linter.unusedSimpArgs false
set_option maxHeartbeats 1000000

namespace Amt.Par
open Amt

section
variable {K V α β : Type} {w : Price}

theorem Pays.more {t : T K V α} : ∀ {p : Nat}, (t.Pays w p fun _ => 0) → ∀ e, t.Pays w (p + e) fun _ => e := by
  induction t with
  | ret a => exact fun _ e => Nat.le_add_left _ _
  | fail f => exact fun _ e => trivial
  | load r k ih => exact fun h e => ⟨by have := h.1; omega, fun x => by have := ih x (h.2 x) e; rwa [← Nat.sub_add_comm h.1] at this⟩
  | store r x k ih => exact fun h e => ⟨by have := h.1; omega, by have := ih h.2 e; rwa [← Nat.sub_add_comm h.1] at this⟩
  | put r x k ih => exact fun h e => ⟨by have := h.1; omega, by have := ih h.2 e; rwa [← Nat.sub_add_comm h.1] at this⟩
  | alloc r k ih => exact fun h e => ⟨by have := h.1; omega, fun x => by have := ih x (h.2 x) e; rwa [← Nat.sub_add_comm h.1] at this⟩
  | loadKv r k ih => exact fun h e => ⟨by have := h.1; omega, fun x => by have := ih x (h.2 x) e; rwa [← Nat.sub_add_comm h.1] at this⟩
  | storeVal r x k ih => exact fun h e => ⟨by have := h.1; omega, by have := ih h.2 e; rwa [← Nat.sub_add_comm h.1] at this⟩
  | getRoot r k ih => exact fun h e => ⟨by have := h.1; omega, fun x => by have := ih x (h.2 x) e; rwa [← Nat.sub_add_comm h.1] at this⟩
  | modRoot r x k ih => exact fun h e => ⟨by have := h.1; omega, by have := ih h.2 e; rwa [← Nat.sub_add_comm h.1] at this⟩

/-- Pay for a call of a function that costs `q`. -/
theorem Pays.call {t : T K V α} {f : α → T K V β} {p q : Nat} {Ψ : β → Nat} (hq : t.Pays w q fun _ => 0) (h : q ≤ p) (hf : ∀ x, (f x).Pays w (p - q) Ψ) :
    (t >>= f).Pays w p Ψ :=
  Pays.bind (Φ := fun _ => p - q) hf (by have := Pays.more hq (p - q); rwa [Nat.add_sub_cancel' h] at this)

end

set_option hygiene false in
/-- Pay for an access or a call of the function. -/
macro "pay_stepQ" : tactic => `(tactic| first
  | pay_step
  | with_reducible refine Amt.Par.Pays.call (hq _ _ _) ?_ fun _ => ?_)

set_option hygiene false in
/-- Pay for the accesses of `Mod`. -/
macro "pay_insQ" σ:term:max idx:term:max τ:term:max : tactic => `(tactic| (
  repeat' pay_stepQ
  all_goals try (dsimp only [Amt.Par.Price.access]; omega)
  refine Amt.Par.Pays.forIn _ _ (fun n (s : $σ) => 13 * n + 8 * b.n + 9 * Amt.Par.cap $idx + 500 + q)
    (fun (s : $σ) => match s.fst with | none => 9 * Amt.Par.cap $idx + 500 + q | some _ => 0) ?_ (fun n s => ?_) (fun s => ?_)
  · dsimp only [Amt.Par.Price.access]
    rw [Amt.Par.cap_pop]
    omega
  · have hc := Amt.Par.ge_cap $idx
    repeat' (first
      | pay_stepQ
      | (refine Amt.Par.Pays.forIn _ _ (fun n' (s' : $τ) => 8 * n' + 30 + q)
          (fun s' => match s'.fst with | none => 13 * n + 8 * b.n + 9 * Amt.Par.cap $idx + 500 + q | some _ => 0) (by dsimp only [Amt.Par.Price.access]; omega) (fun n' s' => ?_) (fun s' => ?_))
      | (refine Amt.Par.Pays.forIn _ _ (fun n' s' => 8 * b.n + 100 + q) (fun _ => 8 * b.n + 100 + q) (by dsimp only [Amt.Par.Price.access]; omega) (fun n' s' => ?_) (fun s' => ?_)))
    all_goals try first
      | exact Nat.zero_le _
      | exact Nat.le_refl _
      | (simp only [Amt.Par.cap_pop, Amt.Par.Price.access]; omega)
    all_goals (obtain ⟨_ | r, s'⟩ := s')
    all_goals
      repeat' pay_stepQ
      all_goals first
        | exact Nat.zero_le _
        | (dsimp only [Amt.Par.Price.access]; omega)
  · rcases hr : s.fst with _ | r
    · dsimp only
      refine Amt.Par.Pays.alloc _ (by dsimp only [Amt.Par.Price.access]; omega) fun _ => ?_
      refine Amt.Par.Pays.fieldAddr _ fun _ => ?_
      refine Amt.Par.Pays.call (hq _ _ _) (by dsimp only [Amt.Par.Price.access]; omega) fun _ => ?_
      pay_slot $idx
    · exact Nat.zero_le _))

set_option hygiene false in
/-- Pay for the allocations of `Mod`. -/
macro "pay_newQ" σ:term:max τ:term:max : tactic => `(tactic| (
  repeat' pay_stepQ
  all_goals try (dsimp only [Amt.Par.Price.alloc]; omega)
  refine Amt.Par.Pays.forIn _ _ (fun _ (s : $σ) => b.n + 2 + q) (fun s => match s.fst with | none => 2 + q | some _ => 0) (by dsimp only [Amt.Par.Price.alloc]; omega) (fun n s => ?_) (fun s => ?_)
  · repeat' (first
      | pay_stepQ
      | (refine Amt.Par.Pays.forIn _ _ (fun n' (s' : $τ) => n' + 1 + q) (fun s' => match s'.fst with | none => b.n + 2 + q | some _ => 0) (by dsimp only [Amt.Par.Price.alloc]; omega) (fun n' s' => ?_) (fun s' => ?_))
      | (refine Amt.Par.Pays.forIn _ _ (fun n' s' => b.n + 1 + q) (fun _ => b.n + 1 + q) (by dsimp only [Amt.Par.Price.alloc]; omega) (fun n' s' => ?_) (fun s' => ?_)))
    all_goals try first
      | exact Nat.zero_le _
      | exact Nat.le_refl _
      | (dsimp only [Amt.Par.Price.alloc]; omega)
    all_goals (obtain ⟨_ | r, s'⟩ := s')
    all_goals
      repeat' pay_stepQ
      all_goals first
        | exact Nat.zero_le _
        | exact Nat.le_refl _
        | (dsimp only [Amt.Par.Price.alloc]; omega)
  · rcases hr : s.fst with _ | r
    · dsimp only
      repeat' (first
        | pay_stepQ
        | (refine Amt.Par.Pays.forIn _ _ (fun _ (i : Int) => 1) (fun _ => 1) (by dsimp only [Amt.Par.Price.alloc]; omega) (fun n i => ?_) (fun i => ?_))
        | (refine Amt.Par.Pays.forIn _ _ (fun _ (i : BitVec 8) => 1) (fun _ => 1) (by dsimp only [Amt.Par.Price.alloc]; omega) (fun n i => ?_) (fun i => ?_))
        | (refine Amt.Par.Pays.forIn _ _ (fun _ (i : BitVec 8) => 0) (fun _ => 0) (by dsimp only [Amt.Par.Price.alloc]; omega) (fun n i => ?_) (fun i => ?_)))
      all_goals first
        | exact Nat.zero_le _
        | exact Nat.le_refl _
        | (dsimp only [Amt.Par.Price.alloc]; omega)
    · exact Nat.zero_le _))

set_option hygiene false in
/-- As `ins_costs`, for `Mod`. -/
macro "mod_costs" σ:term:max idx:term:max τ:term:max : tactic => `(tactic| (
  dsimp only
  generalize hb : budget n = b
  conv =>
    lhs
    enter [6]
    pattern (forIn b _ _ >>= _)
    enter [2]
    rw [← hb]
  conv =>
    lhs
    enter [7]
    pattern (forIn b _ _ >>= _)
    enter [2]
    rw [← hb]
  conv =>
    rhs
    enter [6]
    pattern (forIn b _ _ >>= _)
    enter [2]
    rw [← hb]
  conv =>
    rhs
    enter [7]
    pattern (forIn b _ _ >>= _)
    enter [2]
    rw [← hb]
  clear hb
  revert b
  refine Amt.Par.Costs.both (fun b => ?_) (fun b b' hb => ?_) (fun b => ?_) (fun b => ?_) (fun b s hs => ?_)
  · repeat' (first | den_step | exact hcb _ _ _)
  · repeat' le_step
  · have hq := hq
    pay_insQ $σ $idx $τ
  · have hq := hq'
    generalize q' = q at hq ⊢
    pay_newQ $σ $τ
  have forIn_x : ∀ {K V σ : Type} (st : σ) (f : Unit → σ → M K V (ForInStep σ)), forIn b st f = Go.loop (f ()) b.n st := fun _ _ => rfl
  obtain ⟨rk, hs⟩ := hs))

end Amt.Par

namespace Amt.Go
open Amt

section
variable {K V R : Type}

theorem ArrMap.Mod_costs {U : Type} [DecidableEq K] [Inhabited V] (sum : Maphash) (kb : K → List UInt8) (n h : Nat) (key : K) (mod : U → Amt.Ptr → Bool → M K V U) (u : U)
    (cb : U → Amt.Ptr → Bool → Par.T K V U) (hcb : ∀ a b c, Par.Den (cb a b c) (mod a b c)) {q q' : Nat}
    (hq : ∀ a b c, (cb a b c).Pays Par.Price.access q fun _ => 0) (hq' : ∀ a b c, (cb a b c).Pays Par.Price.alloc q' fun _ => 0)
    (hm : Neat (modNew (boxedCfg sum kb) key mod u)) :
    Par.Costs Par.Price.access (900 + q) 21 (fun r => upsertX (V := V) (boxedCfg sum kb) h r key (modG (boxedCfg sum kb) (byteChash sum kb) false key mod u)) (budget n) (Par.ArrMap.Mod sum kb n (some h) key cb u) (ArrMap.Mod sum kb n (some h) key mod u) ∧
    Par.Costs Par.Price.alloc (2 + q') 1 (fun r => upsertX (V := V) (boxedCfg sum kb) h r key (modG (boxedCfg sum kb) (byteChash sum kb) false key mod u)) (budget n) (Par.ArrMap.Mod sum kb n (some h) key cb u) (ArrMap.Mod sum kb n (some h) key mod u) := by
  unfold Par.ArrMap.Mod ArrMap.Mod
  mod_costs (Option U × U × Hasher × BitVec 64 × Ref × BitVec 8 × BitVec 8 × BitVec 32 × BitVec 8) s.snd.snd.snd.snd.snd.snd.snd.snd (Option U × U × Hasher × BitVec 64 × BitVec 8 × Ref × Hasher × BitVec 64)
  unfold upsertX searchX
  lit [forIn_x, write_new, sum64_flat]
  byte_find (boxedCfg sum kb) (s.roots h).seed (byteStU u (s.roots h).seed (kb key)) byteStU key (b.n) h s boxedCfg
    (cases hit with
     | false => mod_slot (boxedCfg sum kb) key mod u hm
     | true =>
       boxed_key (boxedCfg sum kb) key
       same_key (boxedCfg sum kb) key
       byte_rehash_n modG (kb ckey)
         (push_down_n (boxedCfg sum kb) (modG (boxedCfg sum kb) (byteChash sum kb) false key mod u) modG key
           (fun p => (u, pushSt (s'.roots h).seed (kb key) (kb ckey) p)) (fun p r => (r, pushSt (s'.roots h).seed (kb key) (kb ckey) (p.next (boxedCfg sum kb) (s'.roots h).seed key ckey p.item)))
           (puts_ptr rfl (fun _ _ => rfl) key ckey x.ptr) [put2P, modNew]))

theorem StringMap.Mod_costs {U : Type} [Inhabited V] (sum : Maphash) (n h : Nat) (key : ByteStr) (mod : U → Amt.Ptr → Bool → M ByteStr V U) (u : U)
    (cb : U → Amt.Ptr → Bool → Par.T ByteStr V U) (hcb : ∀ a b c, Par.Den (cb a b c) (mod a b c)) {q q' : Nat}
    (hq : ∀ a b c, (cb a b c).Pays Par.Price.access q fun _ => 0) (hq' : ∀ a b c, (cb a b c).Pays Par.Price.alloc q' fun _ => 0)
    (hm : Neat (modNew (boxedCfg sum id) key mod u)) :
    Par.Costs Par.Price.access (900 + q) 21 (fun r => upsertX (V := V) (boxedCfg sum id) h r key (modG (boxedCfg sum id) (byteChash sum id) false key mod u)) (budget n) (Par.StringMap.Mod sum n (some h) key cb u) (StringMap.Mod sum n (some h) key mod u) ∧
    Par.Costs Par.Price.alloc (2 + q') 1 (fun r => upsertX (V := V) (boxedCfg sum id) h r key (modG (boxedCfg sum id) (byteChash sum id) false key mod u)) (budget n) (Par.StringMap.Mod sum n (some h) key cb u) (StringMap.Mod sum n (some h) key mod u) := by
  exact ArrMap.Mod_costs sum id n h key mod u cb hcb hq hq' hm

theorem BytesMap.Mod_costs {U : Type} [Inhabited V] (sum : Maphash) (n h : Nat) (key : ByteStr) (mod : U → Amt.Ptr → Bool → M ByteStr V U) (u : U)
    (cb : U → Amt.Ptr → Bool → Par.T ByteStr V U) (hcb : ∀ a b c, Par.Den (cb a b c) (mod a b c)) {q q' : Nat}
    (hq : ∀ a b c, (cb a b c).Pays Par.Price.access q fun _ => 0) (hq' : ∀ a b c, (cb a b c).Pays Par.Price.alloc q' fun _ => 0)
    (hm : Neat (modNew (boxedCfg sum id) key mod u)) :
    Par.Costs Par.Price.access (900 + q) 21 (fun r => upsertX (V := V) (boxedCfg sum id) h r key (modG (boxedCfg sum id) (byteChash sum id) true key mod u)) (budget n) (Par.BytesMap.Mod sum n (some h) key cb u) (BytesMap.Mod sum n (some h) key mod u) ∧
    Par.Costs Par.Price.alloc (2 + q') 1 (fun r => upsertX (V := V) (boxedCfg sum id) h r key (modG (boxedCfg sum id) (byteChash sum id) true key mod u)) (budget n) (Par.BytesMap.Mod sum n (some h) key cb u) (BytesMap.Mod sum n (some h) key mod u) := by
  unfold Par.BytesMap.Mod BytesMap.Mod
  mod_costs (Option U × U × Hasher × BitVec 64 × Ref × BitVec 8 × BitVec 8 × BitVec 32 × BitVec 8) s.snd.snd.snd.snd.snd.snd.snd.snd (Option U × U × Hasher × BitVec 64 × BitVec 8 × Ref × Hasher × BitVec 64)
  unfold upsertX searchX
  lit [forIn_x, write_new, sum64_flat, bytesEqual_eq]
  byte_find (boxedCfg sum id) (s.roots h).seed (byteStU u (s.roots h).seed key) byteStU key (b.n) h s boxedCfg
    (cases hit with
     | false => mod_slot (boxedCfg sum id) key mod u hm
     | true =>
       boxed_key (boxedCfg sum id) key
       same_key (boxedCfg sum id) key
       byte_rehash_n modG ckey
         (simp only [radix_test, id_eq, true_and]
          by_cases hg : radixOf (digestOf sum (s'.roots h).seed ckey w >>> (4 * (cur.d % 16))) ≠ radixOf cur.hd
          · simp only [if_pos hg]
            lit [modNew]
            rfl
          simp only [if_neg hg]
          push_down_n (boxedCfg sum id) (modG (boxedCfg sum id) (byteChash sum id) true key mod u) modG key
           (fun p => (u, pushSt (s'.roots h).seed key ckey p)) (fun p r => (r, pushSt (s'.roots h).seed key ckey (p.next (boxedCfg sum id) (s'.roots h).seed key ckey p.item)))
           (puts_ptr rfl (fun _ _ => rfl) key ckey x.ptr) [put2P, modNew]))

theorem IntMap.Mod_costs {U : Type} [Inhabited V] (sum : Maphash) (n h : Nat) (key : IntKey) (mod : U → Amt.Ptr → Bool → M IntKey V U) (u : U)
    (cb : U → Amt.Ptr → Bool → Par.T IntKey V U) (hcb : ∀ a b c, Par.Den (cb a b c) (mod a b c)) {q q' : Nat}
    (hq : ∀ a b c, (cb a b c).Pays Par.Price.access q fun _ => 0) (hq' : ∀ a b c, (cb a b c).Pays Par.Price.alloc q' fun _ => 0)
    (hm : Neat (modNew (intCfg .inline sum) key mod u)) :
    Par.Costs Par.Price.access (900 + q) 21 (fun r => upsertX (V := V) (intCfg .inline sum) h r key (modG (intCfg .inline sum) (byteChash sum intbytes) false key mod u)) (budget n) (Par.IntMap.Mod sum n (some h) key cb u) (IntMap.Mod sum n (some h) key mod u) ∧
    Par.Costs Par.Price.alloc (2 + q') 1 (fun r => upsertX (V := V) (intCfg .inline sum) h r key (modG (intCfg .inline sum) (byteChash sum intbytes) false key mod u)) (budget n) (Par.IntMap.Mod sum n (some h) key cb u) (IntMap.Mod sum n (some h) key mod u) := by
  unfold Par.IntMap.Mod IntMap.Mod
  mod_costs (Option U × U × Hasher × BitVec 64 × Ref × BitVec 8 × BitVec 8 × BitVec 32 × BitVec 8) s.snd.snd.snd.snd.snd.snd.snd.snd (Option U × U × Hasher × BitVec 64 × BitVec 8 × Ref × Hasher × BitVec 64)
  unfold upsertX searchX
  lit [forIn_x, write_new, sum64_flat]
  byte_find (intCfg .inline sum) (s.roots h).seed (byteStU u (s.roots h).seed (intbytes key)) byteStU key (b.n) h s intCfg
    (cases hit with
     | false => mod_slot (intCfg .inline sum) key mod u hm
     | true =>
       inline_key (intCfg .inline sum) key
       same_key (intCfg .inline sum) key
       byte_rehash_n modG (intbytes ckey)
         (push_down_n (intCfg .inline sum) (modG (intCfg .inline sum) (byteChash sum intbytes) false key mod u) modG key
           (fun p => (u, pushSt (s'.roots h).seed (intbytes key) (intbytes ckey) p)) (fun p r => (r, pushSt (s'.roots h).seed (intbytes key) (intbytes ckey) (p.next (intCfg .inline sum) (s'.roots h).seed key ckey p.item)))
           (puts_link (c := intCfg .inline sum) (show Store.inline ≠ .boxed by decide) key ckey x.ptr) [put2L, modNew]))

theorem Map.Mod_costs {U : Type} [Inhabited V] (I : KeyImpl K) (n h : Nat) (key : K) (mod : U → Amt.Ptr → Bool → M K V U) (u : U)
    (cb : U → Amt.Ptr → Bool → Par.T K V U) (hcb : ∀ a b c, Par.Den (cb a b c) (mod a b c)) {q q' : Nat}
    (hq : ∀ a b c, (cb a b c).Pays Par.Price.access q fun _ => 0) (hq' : ∀ a b c, (cb a b c).Pays Par.Price.alloc q' fun _ => 0)
    (hm : Neat (modNew (genericCfg I) key mod u)) :
    Par.Costs Par.Price.access (900 + q) 21 (fun r => upsertX (V := V) (genericCfg I) h r key (modG (genericCfg I) (genericChashMod I) false key mod u)) (budget n) (Par.Map.Mod I n (some h) key cb u) (Map.Mod I n (some h) key mod u) ∧
    Par.Costs Par.Price.alloc (2 + q') 1 (fun r => upsertX (V := V) (genericCfg I) h r key (modG (genericCfg I) (genericChashMod I) false key mod u)) (budget n) (Par.Map.Mod I n (some h) key cb u) (Map.Mod I n (some h) key mod u) := by
  unfold Par.Map.Mod Map.Mod
  mod_costs (Option U × U × BitVec 64 × Ref × BitVec 8 × BitVec 8 × BitVec 32 × BitVec 8) s.snd.snd.snd.snd.snd.snd.snd (Option U × U × BitVec 64 × BitVec 8 × Ref × BitVec 64)
  unfold upsertX searchX
  lit [forIn_x]
  gen_find (genericCfg I) (s.roots h).seed (genStU u) genStU key (b.n) h s
    (cases hit with
     | false => mod_slot (genericCfg I) key mod u hm
     | true =>
       lit [h2, ne_test (h4 rfl).1, ne_test' (h4 rfl).2, rank_toNat, ended, conflict, itemRef, readKey_kvKey (c := genericCfg I) rfl]
       rcases run_load ⟨lk.ptr, rankOf lk.pmap (radixOf cur.hd)⟩ s' with ⟨e, he⟩ | ⟨x, hx⟩
       · lit [he]
       lit [hx]
       rcases hk : run (kvKey x.ptr) s' with e | ⟨ckey, s2⟩
       · lit [thenE_ok]
       cases kvKey_state hk
       lit [thenE_ok]
       gen_same (genericCfg I) I.equal key
       gen_push_n (genericCfg I) (modG (genericCfg I) (genericChashMod I) false key mod u) modG genericChashMod key
         (fun p => (u, pushGen p)) (fun p r => (r, pushGen (p.next (genericCfg I) (s'.roots h).seed key ckey p.item))) (puts_ptr rfl (fun _ _ => rfl) key ckey x.ptr))

end

end Amt.Go
