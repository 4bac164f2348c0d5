/-
The accesses to memory and the allocations of `Set` and `Add`, in terms of the rounds of their search and of the loop that
pushes two keys down.
-/
import Verif.CostDel

set_option linter.unusedVariables false
set_option linter.unusedSectionVars false
set_option linter.unusedSimpArgs false
set_option maxHeartbeats 1000000

namespace Amt.Par
open Amt

section
variable {K V α : Type}

/-- `Costs.of` for two prices. -/
theorem Costs.both {w w' : Price} {a c a' c' : Nat} {X : Nat → M K V α} {F : Go.Budget → T K V α} {G : Go.Budget → M K V α} (hd : ∀ b, Den (F b) (G b))
    (hl : ∀ b b' : Go.Budget, b.n ≤ b'.n → Le (F b) (F b')) (hp : ∀ b, (F b).Pays w (a + c * b.n) fun _ => 0) (hp' : ∀ b, (F b).Pays w' (a' + c' * b.n) fun _ => 0)
    (hr : ∀ (b : Go.Budget) s, Go.Tidy s → Go.run (G b) s = Go.run (X b.n) s) : ∀ b, Costs w a c X b (F b) (G b) ∧ Costs w' a' c' X b (F b) (G b) :=
  fun b => ⟨Costs.of hd hl hp hr b, Costs.of hd hl hp' hr b⟩

end

theorem up_ge {i c : Int} (h : ¬(!decide (i ≥ c)) = true) : i ≥ c := by
  by_cases hd : i ≥ c
  · exact hd
  · rw [decide_eq_false hd] at h; exact absurd rfl h

theorem pop_le (x : BitVec 32) : (BitVec.ofNat 8 (popcount x)).toNat ≤ 32 := Nat.le_trans (le_cap _) (Nat.le_of_eq (cap_pop x))

set_option hygiene false in
/-- Pay for the writes to the branch and the root after a new link. -/
macro "pay_rest" : tactic => `(tactic| (
  repeat' pay_step
  all_goals first | exact Nat.zero_le _ | (dsimp only [Amt.Par.Price.access]; omega)))

set_option hygiene false in
/-- Pay for a new link. -/
macro "pay_slot" idx:term:max : tactic => `(tactic| (
  have hx := Amt.Par.le_cap $idx
  refine Amt.Par.Pays.load _ (by dsimp only [Amt.Par.Price.access]; omega) fun lk => ?_
  have hp := Amt.Par.pop_le lk.pmap
  generalize BitVec.ofNat 8 (popcount lk.pmap) = count at hp ⊢
  repeat' pay_step
  all_goals try (dsimp only [Amt.Par.Price.access]; omega)
  · refine Amt.Par.Pays.forIn _ _ (fun n (i : Int) => 12 * (i + 1 - ($idx).toNat).toNat + 30) (fun _ => 30) (by dsimp only [Amt.Par.Price.access]; omega) (fun n i => ?_) (fun i => ?_)
    · refine Amt.Par.Pays.ite (fun _ => ?_) (fun hi => ?_)
      · repeat' pay_step
        all_goals first | omega | (dsimp only; omega)
      · have hi := Amt.Par.up_ge hi
        repeat' pay_step
        all_goals first | omega | (dsimp only [Amt.Par.Price.access]; omega)
    · pay_rest
  · refine Amt.Par.Pays.forIn _ _ (fun n (i : BitVec 8) => 9 * (($idx).toNat - i.toNat) + 330) (fun _ => 330) (by simp only [Amt.Par.Price.access, BitVec.toNat_ofNat]; omega) (fun n i => ?_) (fun i => ?_)
    · pay_move
    · repeat' pay_step
      all_goals try (dsimp only [Amt.Par.Price.access]; omega)
      refine Amt.Par.Pays.forIn _ _ (fun n (i : BitVec 8) => 9 * (count.toNat - i.toNat) + 30) (fun _ => 30) (by dsimp only [Amt.Par.Price.access]; omega) (fun n i => ?_) (fun i => ?_)
      · pay_move
      · pay_rest))

set_option hygiene false in
/-- Pay for the accesses of an insertion. -/
macro "pay_ins" σ:term:max idx:term:max τ:term:max : tactic => `(tactic| (
  repeat' pay_step
  all_goals try (dsimp only [Amt.Par.Price.access]; omega)
  refine Amt.Par.Pays.forIn _ _ (fun n (s : $σ) => 13 * n + 8 * b.n + 9 * Amt.Par.cap $idx + 500)
    (fun (s : $σ) => match s.fst with | none => 9 * Amt.Par.cap $idx + 500 | some _ => 0) ?_ (fun n s => ?_) (fun s => ?_)
  · dsimp only [Amt.Par.Price.access]
    rw [Amt.Par.cap_pop]
    omega
  · have hc := Amt.Par.ge_cap $idx
    repeat' (first
      | pay_step
      | (refine Amt.Par.Pays.forIn _ _ (fun n' (s' : $τ) => 8 * n' + 30)
          (fun s' => match s'.fst with | none => 13 * n + 8 * b.n + 9 * Amt.Par.cap $idx + 500 | some _ => 0) (by dsimp only [Amt.Par.Price.access]; omega) (fun n' s' => ?_) (fun s' => ?_))
      | (refine Amt.Par.Pays.forIn _ _ (fun n' s' => 8 * b.n + 100) (fun _ => 8 * b.n + 100) (by dsimp only [Amt.Par.Price.access]; omega) (fun n' s' => ?_) (fun s' => ?_)))
    all_goals try first
      | exact Nat.zero_le _
      | exact Nat.le_refl _
      | (simp only [Amt.Par.cap_pop, Amt.Par.Price.access]; omega)
    all_goals (obtain ⟨_ | r, s'⟩ := s')
    all_goals
      repeat' pay_step
      all_goals first
        | exact Nat.zero_le _
        | (dsimp only [Amt.Par.Price.access]; omega)
  · rcases hr : s.fst with _ | r
    · dsimp only
      pay_slot $idx
    · exact Nat.zero_le _))

set_option hygiene false in
/-- Pay for the allocations of an insertion. -/
macro "pay_new" σ:term:max τ:term:max : tactic => `(tactic| (
  repeat' pay_step
  all_goals try (dsimp only [Amt.Par.Price.alloc]; omega)
  refine Amt.Par.Pays.forIn _ _ (fun _ (s : $σ) => b.n + 2) (fun s => match s.fst with | none => 2 | some _ => 0) (by dsimp only [Amt.Par.Price.alloc]; omega) (fun n s => ?_) (fun s => ?_)
  · repeat' (first
      | pay_step
      | (refine Amt.Par.Pays.forIn _ _ (fun n' (s' : $τ) => n' + 1) (fun s' => match s'.fst with | none => b.n + 2 | some _ => 0) (by dsimp only [Amt.Par.Price.alloc]; omega) (fun n' s' => ?_) (fun s' => ?_))
      | (refine Amt.Par.Pays.forIn _ _ (fun n' s' => b.n + 1) (fun _ => b.n + 1) (by dsimp only [Amt.Par.Price.alloc]; omega) (fun n' s' => ?_) (fun s' => ?_)))
    all_goals try first
      | exact Nat.zero_le _
      | exact Nat.le_refl _
      | (dsimp only [Amt.Par.Price.alloc]; omega)
    all_goals (obtain ⟨_ | r, s'⟩ := s')
    all_goals
      repeat' pay_step
      all_goals first
        | exact Nat.zero_le _
        | exact Nat.le_refl _
        | (dsimp only [Amt.Par.Price.alloc]; omega)
  · rcases hr : s.fst with _ | r
    · dsimp only
      repeat' (first
        | pay_step
        | (refine Amt.Par.Pays.forIn _ _ (fun _ (i : Int) => 1) (fun _ => 1) (by dsimp only [Amt.Par.Price.alloc]; omega) (fun n i => ?_) (fun i => ?_))
        | (refine Amt.Par.Pays.forIn _ _ (fun _ (i : BitVec 8) => 1) (fun _ => 1) (by dsimp only [Amt.Par.Price.alloc]; omega) (fun n i => ?_) (fun i => ?_))
        | (refine Amt.Par.Pays.forIn _ _ (fun _ (i : BitVec 8) => 0) (fun _ => 0) (by dsimp only [Amt.Par.Price.alloc]; omega) (fun n i => ?_) (fun i => ?_)))
      all_goals first
        | exact Nat.zero_le _
        | exact Nat.le_refl _
        | (dsimp only [Amt.Par.Price.alloc]; omega)
    · exact Nat.zero_le _))

set_option hygiene false in
/-- The parts of the cost of an insertion that do not depend on the method: the rounds of the loops before the new link vary, those of the loops
that move links do not. -/
macro "ins_costs" σ:term:max idx:term:max τ:term:max : tactic => `(tactic| (
  dsimp only
  generalize hb : budget n = b
  conv =>
    lhs
    enter [6]
    pattern (forIn b _ _ >>= _)
    enter [2]
    rw [← hb]
  conv =>
    lhs
    enter [7]
    pattern (forIn b _ _ >>= _)
    enter [2]
    rw [← hb]
  conv =>
    rhs
    enter [6]
    pattern (forIn b _ _ >>= _)
    enter [2]
    rw [← hb]
  conv =>
    rhs
    enter [7]
    pattern (forIn b _ _ >>= _)
    enter [2]
    rw [← hb]
  clear hb
  revert b
  refine Amt.Par.Costs.both (fun b => ?_) (fun b b' hb => ?_) (fun b => ?_) (fun b => ?_) (fun b s hs => ?_)
  · repeat' den_step
  · repeat' le_step
  · pay_ins $σ $idx $τ
  · pay_new $σ $τ
  have forIn_x : ∀ {K V σ : Type} (st : σ) (f : Unit → σ → M K V (ForInStep σ)), forIn b st f = Go.loop (f ()) b.n st := fun _ _ => rfl
  obtain ⟨rk, hs⟩ := hs))

end Amt.Par

namespace Amt.Go
open Amt

section
variable {K V R : Type}

set_option hygiene false in
/-- As `push_down`, with `b.n` rounds. -/
macro "push_down_n" c:term:max ins:term:max insu:ident key:term:max mk:term:max t:term:max puts:term:max "[" ts:Lean.Parser.Tactic.simpLemma,* "]" : tactic => `(tactic| (
  have k1 := hs.modMaps (r := cur.l) (f := fun y => { y with tmap := y.tmap &&& ~~~bitOf (radixOf cur.hd) }) (by intro _; rfl) (modLink_run h2 _)
  have k2 := k1.rank.modRoot (run_modRoot h (fun m => { m with dep := m.dep - BitVec.ofNat 64 cur.d }) _)
  refine Eq.trans (split_loop _ $c (s'.roots h).seed h $key ckey x.ptr $ins $mk $t
    ?_ (G := .ok) ?_ (b.n) ⟨⟨lk.ptr, rankOf lk.pmap (radixOf cur.hd)⟩, cur.d, cur.hd, _, cur.w, _⟩
    rk _ h3.d k2.rank (((hs.load hx).step k1).step k2) rfl) ?_
  · intro p rk s hd hs hu hr
    simp only [$insu:ident]
    rw [← levelG_eq (c := $c) $puts (Nat.mod_lt _ (by decide)) _ _ hs hu]
    unfold levelG
    dsimp only [$ts,*, pushSt, Spl.next]
    simp only [succ_eq, mod16p (Nat.mod_lt (p.d + 1) (by decide : 0 < 256)), write_flat, sum64_flat]
    split
    · lit [thenE_ok]; rfl
    · lit [thenE_ok]; rfl
  · intro r t s; rfl
  · exact thenE_id _))

set_option hygiene false in
/-- As `push_nil`, with `b.n` rounds. -/
macro "push_nil_n" c:term:max ins:term:max insu:ident key:term:max mk:term:max t:term:max puts:term:max "[" ts:Lean.Parser.Tactic.simpLemma,* "]" : tactic => `(tactic| (
  have k1 := hs.modMaps (r := cur.l) (f := fun y => { y with tmap := y.tmap &&& ~~~bitOf (radixOf cur.hd) }) (by intro _; rfl) (modLink_run h2 _)
  have k2 := k1.rank.modRoot (run_modRoot h (fun m => { m with dep := m.dep - BitVec.ofNat 64 cur.d }) _)
  refine Eq.trans (split_loop _ $c (s'.roots h).seed h $key ckey .nil $ins $mk $t
    ?_ (G := .ok) ?_ (b.n) ⟨⟨lk.ptr, rankOf lk.pmap (radixOf cur.hd)⟩, cur.d, cur.hd, _, cur.w, _⟩
    rk _ h3.d k2.rank Up.nil rfl) ?_
  · intro p rk s hd hs hu hr
    simp only [$insu:ident]
    rw [← levelG_eq (c := $c) $puts (Nat.mod_lt _ (by decide)) _ _ hs hu]
    unfold levelG
    dsimp only [$ts,*, pushSt, Spl.next]
    simp only [succ_eq, mod16p (Nat.mod_lt (p.d + 1) (by decide : 0 < 256)), write_flat, sum64_flat]
    split
    · lit [thenE_ok]; rfl
    · lit [thenE_ok]; rfl
  · intro r t s; rfl
  · exact thenE_id _))

set_option hygiene false in
/-- As `byte_rehash`, with `b.n` rounds. -/
macro "byte_rehash_n" insu:ident ckb:term:max t:tactic : tactic => `(tactic| (
  rw [chw_run (s'.roots h).seed $ckb h3.d ?_ ?_]
  rotate_left
  · intro x cd s; exact run_ite _ _ _ _
  · intro x cd s; rfl
  simp only [$insu:ident]
  rw [liftE_byteChash]
  cases hch : chwLoop cur.d (b.n) 0 0 with
  | error e => rfl
  | ok w =>
    lit [h2, setTmap, modLink_run h2, run_modRoot, sum64_flat, shr_chd _ h3.d, setWidth_dep h3.d, false_and]
    $t))

set_option hygiene false in
/-- As `gen_push`, with `b.n` rounds. -/
macro "gen_push_n" c:term:max ins:term:max insu:ident chash:ident key:term:max mk:term:max t:term:max puts:term:max : tactic => `(tactic| (
  simp only [$insu:ident, $chash:ident]
  lit [run_liftE_ok, h2, setTmap, modLink_run h2, run_modRoot, shr_chd _ h3.d, setWidth_dep h3.d, false_and, mod16w h3.d]
  have k1 := hs.modMaps (r := cur.l) (f := fun y => { y with tmap := y.tmap &&& ~~~bitOf (radixOf cur.hd) }) (by intro _; rfl) (modLink_run h2 _)
  have k2 := k1.rank.modRoot (run_modRoot h (fun m => { m with dep := m.dep - BitVec.ofNat 64 cur.d }) _)
  refine Eq.trans (split_loop _ $c (s'.roots h).seed h $key ckey x.ptr $ins $mk $t
    ?_ (G := .ok) ?_ (b.n) ⟨⟨lk.ptr, rankOf lk.pmap (radixOf cur.hd)⟩, cur.d, cur.hd, _, cur.w, cur.d / 16 + 1⟩
    rk _ h3.d k2.rank (((hs.load hx).step k1).step k2) rfl) ?_
  · intro p rk s hd hs hu hr
    have hr' : (s.roots h).seed = (s'.roots h).seed := by
      rw [hr, rootSt_seed (by intro _; rfl), put_roots]
    simp only [$insu:ident]
    rw [← levelG_eq (c := $c) $puts (Nat.mod_lt _ (by decide)) _ _ hs hu]
    unfold levelG
    dsimp only [put2P, pushGen, Spl.next, modNew]
    simp only [succ_eq, and15p (Nat.mod_lt (p.d + 1) (by decide : 0 < 256))]
    split
    · lit [thenE_ok]; rfl
    · lit [hr', shr4 (Nat.mod_lt (p.d + 1) (by decide : 0 < 256))]; rfl
  · intro r t s; rfl
  · exact thenE_id _))

theorem ArrMap.Set_costs [DecidableEq K] [Inhabited V] (sum : Maphash) (kb : K → List UInt8) (n h : Nat) (key : K) (v : V) :
    Par.Costs Par.Price.access 900 21 (fun r => upsertL (V := V) (boxedCfg sum kb) h r key (setInsArr (boxedCfg sum kb) (byteChash sum kb) key v) (newKv (boxedCfg sum kb) key v) ()) (budget n) (Par.ArrMap.Set sum kb n (some h) key v) (ArrMap.Set sum kb n (some h) key v) ∧
    Par.Costs Par.Price.alloc 2 1 (fun r => upsertL (V := V) (boxedCfg sum kb) h r key (setInsArr (boxedCfg sum kb) (byteChash sum kb) key v) (newKv (boxedCfg sum kb) key v) ()) (budget n) (Par.ArrMap.Set sum kb n (some h) key v) (ArrMap.Set sum kb n (some h) key v) := by
  unfold Par.ArrMap.Set ArrMap.Set
  ins_costs (Option Unit × Hasher × BitVec 64 × Ref × BitVec 8 × BitVec 8 × BitVec 32 × BitVec 8) s.snd.snd.snd.snd.snd.snd.snd (Option Unit × Hasher × BitVec 64 × BitVec 8 × Ref × Hasher × BitVec 64)
  unfold upsertL searchX
  lit [forIn_x, write_new, sum64_flat]
  byte_find (boxedCfg sum kb) (s.roots h).seed (byteSt (s.roots h).seed (kb key)) byteSt key (b.n) h s boxedCfg
    (cases hit with
     | false => free_slot (boxedCfg sum kb) key (newKv (boxedCfg sum kb) key v) (Keeps.kv (some key) v) ()
     | true =>
       boxed_key (boxedCfg sum kb) key
       same_key (boxedCfg sum kb) key
       byte_rehash_n setInsArr (kb ckey)
         (push_down_n (boxedCfg sum kb) (setInsArr (boxedCfg sum kb) (byteChash sum kb) key v) setInsArr key
           (pushSt (s'.roots h).seed (kb key) (kb ckey)) (fun p _ => pushSt (s'.roots h).seed (kb key) (kb ckey) (p.next (boxedCfg sum kb) (s'.roots h).seed key ckey p.item))
           (puts_ptr rfl (fun _ _ => rfl) key ckey x.ptr) [put2P]))

theorem StringMap.Set_costs [Inhabited V] (sum : Maphash) (n h : Nat) (key : ByteStr) (v : V) :
    Par.Costs Par.Price.access 900 21 (fun r => upsertL (V := V) (boxedCfg sum id) h r key (setIns (boxedCfg sum id) (byteChash sum id) false key v) (newKv (boxedCfg sum id) key v) ()) (budget n) (Par.StringMap.Set sum n (some h) key v) (StringMap.Set sum n (some h) key v) ∧
    Par.Costs Par.Price.alloc 2 1 (fun r => upsertL (V := V) (boxedCfg sum id) h r key (setIns (boxedCfg sum id) (byteChash sum id) false key v) (newKv (boxedCfg sum id) key v) ()) (budget n) (Par.StringMap.Set sum n (some h) key v) (StringMap.Set sum n (some h) key v) := by
  unfold Par.StringMap.Set StringMap.Set
  ins_costs (Option Unit × Hasher × BitVec 64 × Ref × BitVec 8 × BitVec 8 × BitVec 32 × BitVec 8) s.snd.snd.snd.snd.snd.snd.snd (Option Unit × Hasher × BitVec 64 × BitVec 8 × Ref × Hasher × BitVec 64)
  unfold upsertL searchX
  lit [forIn_x, write_new, sum64_flat]
  byte_find (boxedCfg sum id) (s.roots h).seed (byteSt (s.roots h).seed key) byteSt key (b.n) h s boxedCfg
    (cases hit with
     | false => free_slot (boxedCfg sum id) key (newKv (boxedCfg sum id) key v) (Keeps.kv (some key) v) ()
     | true =>
       boxed_key (boxedCfg sum id) key
       same_key (boxedCfg sum id) key
       byte_rehash_n setIns ckey
         (push_down_n (boxedCfg sum id) (setIns (boxedCfg sum id) (byteChash sum id) false key v) setIns key
           (pushSt (s'.roots h).seed key ckey) (fun p _ => pushSt (s'.roots h).seed key ckey (p.next (boxedCfg sum id) (s'.roots h).seed key ckey p.item))
           (puts_ptr rfl (fun _ _ => rfl) key ckey x.ptr) [put2P]))

theorem BytesMap.Set_costs [Inhabited V] (sum : Maphash) (n h : Nat) (key : ByteStr) (v : V) :
    Par.Costs Par.Price.access 900 21 (fun r => upsertL (V := V) (boxedCfg sum id) h r key (setIns (boxedCfg sum id) (byteChash sum id) true key v) (newKv (boxedCfg sum id) key v) ()) (budget n) (Par.BytesMap.Set sum n (some h) key v) (BytesMap.Set sum n (some h) key v) ∧
    Par.Costs Par.Price.alloc 2 1 (fun r => upsertL (V := V) (boxedCfg sum id) h r key (setIns (boxedCfg sum id) (byteChash sum id) true key v) (newKv (boxedCfg sum id) key v) ()) (budget n) (Par.BytesMap.Set sum n (some h) key v) (BytesMap.Set sum n (some h) key v) := by
  unfold Par.BytesMap.Set BytesMap.Set
  ins_costs (Option Unit × Hasher × BitVec 64 × Ref × BitVec 8 × BitVec 8 × BitVec 32 × BitVec 8) s.snd.snd.snd.snd.snd.snd.snd (Option Unit × Hasher × BitVec 64 × BitVec 8 × Ref × Hasher × BitVec 64)
  unfold upsertL searchX
  lit [forIn_x, write_new, sum64_flat, bytesEqual_eq]
  byte_find (boxedCfg sum id) (s.roots h).seed (byteSt (s.roots h).seed key) byteSt key (b.n) h s boxedCfg
    (cases hit with
     | false => free_slot (boxedCfg sum id) key (newKv (boxedCfg sum id) key v) (Keeps.kv (some key) v) ()
     | true =>
       boxed_key (boxedCfg sum id) key
       same_key (boxedCfg sum id) key
       byte_rehash_n setIns ckey
         (simp only [radix_test, id_eq, true_and]
          by_cases hg : radixOf (digestOf sum (s'.roots h).seed ckey w >>> (4 * (cur.d % 16))) ≠ radixOf cur.hd
          · simp only [if_pos hg]
            lit [setPtr]
            rfl
          simp only [if_neg hg]
          push_down_n (boxedCfg sum id) (setIns (boxedCfg sum id) (byteChash sum id) true key v) setIns key
           (pushSt (s'.roots h).seed key ckey) (fun p _ => pushSt (s'.roots h).seed key ckey (p.next (boxedCfg sum id) (s'.roots h).seed key ckey p.item))
           (puts_ptr rfl (fun _ _ => rfl) key ckey x.ptr) [put2P]))

theorem IntMap.Set_costs [Inhabited V] (sum : Maphash) (n h : Nat) (key : IntKey) (v : V) :
    Par.Costs Par.Price.access 900 21 (fun r => upsertL (V := V) (intCfg .inline sum) h r key (setIns (intCfg .inline sum) (byteChash sum intbytes) false key v) (newKv (intCfg .inline sum) key v) ()) (budget n) (Par.IntMap.Set sum n (some h) key v) (IntMap.Set sum n (some h) key v) ∧
    Par.Costs Par.Price.alloc 2 1 (fun r => upsertL (V := V) (intCfg .inline sum) h r key (setIns (intCfg .inline sum) (byteChash sum intbytes) false key v) (newKv (intCfg .inline sum) key v) ()) (budget n) (Par.IntMap.Set sum n (some h) key v) (IntMap.Set sum n (some h) key v) := by
  unfold Par.IntMap.Set IntMap.Set
  ins_costs (Option Unit × Hasher × BitVec 64 × Ref × BitVec 8 × BitVec 8 × BitVec 32 × BitVec 8) s.snd.snd.snd.snd.snd.snd.snd (Option Unit × Hasher × BitVec 64 × BitVec 8 × Ref × Hasher × BitVec 64)
  unfold upsertL searchX
  lit [forIn_x, write_new, sum64_flat]
  byte_find (intCfg .inline sum) (s.roots h).seed (byteSt (s.roots h).seed (intbytes key)) byteSt key (b.n) h s intCfg
    (cases hit with
     | false => free_slot (intCfg .inline sum) key (newKv (intCfg .inline sum) key v) (Keeps.kv none v) ()
     | true =>
       inline_key (intCfg .inline sum) key
       same_key (intCfg .inline sum) key
       byte_rehash_n setIns (intbytes ckey)
         (push_down_n (intCfg .inline sum) (setIns (intCfg .inline sum) (byteChash sum intbytes) false key v) setIns key
           (pushSt (s'.roots h).seed (intbytes key) (intbytes ckey)) (fun p _ => pushSt (s'.roots h).seed (intbytes key) (intbytes ckey) (p.next (intCfg .inline sum) (s'.roots h).seed key ckey p.item))
           (puts_link (c := intCfg .inline sum) (show Store.inline ≠ .boxed by decide) key ckey x.ptr) [put2L]))

theorem ArrSet.Add_costs [DecidableEq K] (sum : Maphash) (kb : K → List UInt8) (n h : Nat) (key : K) :
    Par.Costs Par.Price.access 900 21 (fun r => upsertL (V := Unit) (boxedCfg sum kb) h r key (addIns (boxedCfg sum kb) (byteChash sum kb) key) (newKv (boxedCfg sum kb) key ()) ()) (budget n) (Par.ArrSet.Add sum kb n (some h) key) (ArrSet.Add sum kb n (some h) key) ∧
    Par.Costs Par.Price.alloc 2 1 (fun r => upsertL (V := Unit) (boxedCfg sum kb) h r key (addIns (boxedCfg sum kb) (byteChash sum kb) key) (newKv (boxedCfg sum kb) key ()) ()) (budget n) (Par.ArrSet.Add sum kb n (some h) key) (ArrSet.Add sum kb n (some h) key) := by
  unfold Par.ArrSet.Add ArrSet.Add
  ins_costs (Option Unit × Hasher × BitVec 64 × Ref × BitVec 8 × BitVec 8 × BitVec 32 × BitVec 8) s.snd.snd.snd.snd.snd.snd.snd (Option Unit × Hasher × BitVec 64 × BitVec 8 × Ref × Hasher × BitVec 64)
  unfold upsertL searchX
  lit [forIn_x, write_new, sum64_flat]
  byte_find (boxedCfg sum kb) (s.roots h).seed (byteSt (s.roots h).seed (kb key)) byteSt key (b.n) h s boxedCfg
    (cases hit with
     | false => free_slot (boxedCfg sum kb) key (newKv (boxedCfg sum kb) key ()) (Keeps.kv (some key) ()) ()
     | true =>
       boxed_key (boxedCfg sum kb) key
       same_key (boxedCfg sum kb) key
       byte_rehash_n addIns (kb ckey)
         (push_down_n (boxedCfg sum kb) (addIns (boxedCfg sum kb) (byteChash sum kb) key) addIns key
           (pushSt (s'.roots h).seed (kb key) (kb ckey)) (fun p _ => pushSt (s'.roots h).seed (kb key) (kb ckey) (p.next (boxedCfg sum kb) (s'.roots h).seed key ckey p.item))
           (puts_ptr rfl (fun _ _ => rfl) key ckey x.ptr) [put2P]))

theorem StringSet.Add_costs (sum : Maphash) (n h : Nat) (key : ByteStr) :
    Par.Costs Par.Price.access 900 21 (fun r => upsertL (V := Unit) (boxedCfg sum id) h r key (addIns (boxedCfg sum id) (byteChash sum id) key) (newKv (boxedCfg sum id) key ()) ()) (budget n) (Par.StringSet.Add sum n (some h) key) (StringSet.Add sum n (some h) key) ∧
    Par.Costs Par.Price.alloc 2 1 (fun r => upsertL (V := Unit) (boxedCfg sum id) h r key (addIns (boxedCfg sum id) (byteChash sum id) key) (newKv (boxedCfg sum id) key ()) ()) (budget n) (Par.StringSet.Add sum n (some h) key) (StringSet.Add sum n (some h) key) := by
  exact ArrSet.Add_costs sum id n h key

theorem BytesSet.Add_costs (sum : Maphash) (n h : Nat) (key : ByteStr) :
    Par.Costs Par.Price.access 900 21 (fun r => upsertL (V := Unit) (boxedCfg sum id) h r key (addIns (boxedCfg sum id) (byteChash sum id) key) (newKv (boxedCfg sum id) key ()) ()) (budget n) (Par.BytesSet.Add sum n (some h) key) (BytesSet.Add sum n (some h) key) ∧
    Par.Costs Par.Price.alloc 2 1 (fun r => upsertL (V := Unit) (boxedCfg sum id) h r key (addIns (boxedCfg sum id) (byteChash sum id) key) (newKv (boxedCfg sum id) key ()) ()) (budget n) (Par.BytesSet.Add sum n (some h) key) (BytesSet.Add sum n (some h) key) := by
  exact ArrSet.Add_costs sum id n h key

theorem IntSet.Add_costs (sum : Maphash) (n h : Nat) (key : IntKey) :
    Par.Costs Par.Price.access 900 21 (fun r => upsertL (V := Unit) (intSetCfg sum) h r key (addIns (intSetCfg sum) (byteChash sum intbytes) key) (newKv (intSetCfg sum) key ()) ()) (budget n) (Par.IntSet.Add sum n (some h) key) (IntSet.Add sum n (some h) key) ∧
    Par.Costs Par.Price.alloc 2 1 (fun r => upsertL (V := Unit) (intSetCfg sum) h r key (addIns (intSetCfg sum) (byteChash sum intbytes) key) (newKv (intSetCfg sum) key ()) ()) (budget n) (Par.IntSet.Add sum n (some h) key) (IntSet.Add sum n (some h) key) := by
  unfold Par.IntSet.Add IntSet.Add
  ins_costs (Option Unit × Hasher × BitVec 64 × Ref × BitVec 8 × BitVec 8 × BitVec 32 × BitVec 8) s.snd.snd.snd.snd.snd.snd.snd (Option Unit × Hasher × BitVec 64 × BitVec 8 × Ref × Hasher × BitVec 64)
  unfold upsertL searchX
  lit [forIn_x, write_new, sum64_flat]
  byte_find (intSetCfg sum) (s.roots h).seed (byteSt (s.roots h).seed (intbytes key)) byteSt key (b.n) h s intSet_digest
    (cases hit with
     | false => free_slot (intSetCfg sum) key (newKv (intSetCfg sum) key ()) (Keeps.pure Ptr.nil) ()
     | true =>
       inline_key (intSetCfg sum) key
       same_key (intSetCfg sum) key
       byte_rehash_n addIns (intbytes ckey)
         (push_nil_n (intSetCfg sum) (addIns (intSetCfg sum) (byteChash sum intbytes) key) addIns key
           (pushSt (s'.roots h).seed (intbytes key) (intbytes ckey)) (fun p _ => pushSt (s'.roots h).seed (intbytes key) (intbytes ckey) (p.next (intSetCfg sum) (s'.roots h).seed key ckey p.item))
           (puts_link (c := intSetCfg sum) (show Store.bare ≠ .boxed by decide) key ckey .nil) [put2L]))

theorem Map.Set_costs [Inhabited V] (I : KeyImpl K) (n h : Nat) (key : K) (v : V) :
    Par.Costs Par.Price.access 900 21 (fun r => upsertL (V := V) (genericCfg I) h r key (setIns (genericCfg I) (genericChashSet I) false key v) (newKv (genericCfg I) key v) ()) (budget n) (Par.Map.Set I n (some h) key v) (Map.Set I n (some h) key v) ∧
    Par.Costs Par.Price.alloc 2 1 (fun r => upsertL (V := V) (genericCfg I) h r key (setIns (genericCfg I) (genericChashSet I) false key v) (newKv (genericCfg I) key v) ()) (budget n) (Par.Map.Set I n (some h) key v) (Map.Set I n (some h) key v) := by
  unfold Par.Map.Set Map.Set
  ins_costs (Option Unit × BitVec 64 × Ref × BitVec 8 × BitVec 8 × BitVec 32 × BitVec 8) s.snd.snd.snd.snd.snd.snd (Option Unit × BitVec 64 × BitVec 8 × Ref × BitVec 64)
  unfold upsertL searchX
  lit [forIn_x]
  gen_find (genericCfg I) (s.roots h).seed genSt genSt key (b.n) h s
    (cases hit with
     | false => free_slot (genericCfg I) key (newKv (genericCfg I) key v) (Keeps.kv (some key) v) ()
     | true =>
       lit [h2, ne_test (h4 rfl).1, ne_test' (h4 rfl).2, rank_toNat, ended, conflict, itemRef, readKey_kvKey (c := genericCfg I) rfl]
       rcases run_load ⟨lk.ptr, rankOf lk.pmap (radixOf cur.hd)⟩ s' with ⟨e, he⟩ | ⟨x, hx⟩
       · lit [he]
       lit [hx]
       rcases hk : run (kvKey x.ptr) s' with e | ⟨ckey, s2⟩
       · lit [thenE_ok]
       cases kvKey_state hk
       lit [thenE_ok]
       gen_same (genericCfg I) I.equal key
       gen_push_n (genericCfg I) (setIns (genericCfg I) (genericChashSet I) false key v) setIns genericChashSet key
         pushGen (fun p _ => pushGen (p.next (genericCfg I) (s'.roots h).seed key ckey p.item)) (puts_ptr rfl (fun _ _ => rfl) key ckey x.ptr))

theorem Set.Add_costs (I : KeyImpl K) (n h : Nat) (key : K) :
    Par.Costs Par.Price.access 900 21 (fun r => upsertL (V := Unit) (genericCfg I) h r key (addIns (genericCfg I) (genericChashSet I) key) (newKv (genericCfg I) key ()) ()) (budget n) (Par.Set.Add I n (some h) key) (Set.Add I n (some h) key) ∧
    Par.Costs Par.Price.alloc 2 1 (fun r => upsertL (V := Unit) (genericCfg I) h r key (addIns (genericCfg I) (genericChashSet I) key) (newKv (genericCfg I) key ()) ()) (budget n) (Par.Set.Add I n (some h) key) (Set.Add I n (some h) key) := by
  unfold Par.Set.Add Set.Add
  ins_costs (Option Unit × BitVec 64 × Ref × BitVec 8 × BitVec 8 × BitVec 32 × BitVec 8) s.snd.snd.snd.snd.snd.snd (Option Unit × BitVec 64 × BitVec 8 × Ref × BitVec 64)
  unfold upsertL searchX
  lit [forIn_x]
  gen_find (genericCfg I) (s.roots h).seed genSt genSt key (b.n) h s
    (cases hit with
     | false => free_slot (genericCfg I) key (newKv (genericCfg I) key ()) (Keeps.kv (some key) ()) ()
     | true =>
       lit [h2, ne_test (h4 rfl).1, ne_test' (h4 rfl).2, rank_toNat, ended, conflict, itemRef, readKey_kvKey (c := genericCfg I) rfl]
       rcases run_load ⟨lk.ptr, rankOf lk.pmap (radixOf cur.hd)⟩ s' with ⟨e, he⟩ | ⟨x, hx⟩
       · lit [he]
       lit [hx]
       rcases hk : run (kvKey x.ptr) s' with e | ⟨ckey, s2⟩
       · lit [thenE_ok]
       cases kvKey_state hk
       lit [thenE_ok]
       gen_same (genericCfg I) I.equal key
       gen_push_n (genericCfg I) (addIns (genericCfg I) (genericChashSet I) key) addIns genericChashSet key
         pushGen (fun p _ => pushGen (p.next (genericCfg I) (s'.roots h).seed key ckey p.item)) (puts_ptr rfl (fun _ _ => rfl) key ckey x.ptr))

end

end Amt.Go
