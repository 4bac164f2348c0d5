/-
The accesses to memory of `Del`, in terms of the rounds of its search.
-/
import Verif.CostRead

set_option linter.unusedVariables false
set_option linter.unusedSectionVars false

namespace Amt.Par
open Amt
open Amt.Go

/-- A count that is at most 32 if it comes from a bitmap. -/
def cap (x : BitVec 8) : Nat := max x.toNat 32

theorem cap_pop (x : BitVec 32) : cap (BitVec.ofNat 8 (popcount x)) = 32 := by
  have := popcount_le x
  unfold cap
  rw [BitVec.toNat_ofNat]
  omega

theorem le_cap (x : BitVec 8) : x.toNat ≤ cap x := Nat.le_max_left _ _

theorem ge_cap (x : BitVec 8) : 32 ≤ cap x := Nat.le_max_right _ _

theorem down (d : BitVec 8) (h : d ≠ 0#8) : (d - 1#8).toNat + 1 = d.toNat := by
  have : d.toNat ≠ 0 := fun e => h (BitVec.eq_of_toNat_eq (by rw [e]; rfl))
  have h1 := d.isLt
  rw [BitVec.toNat_sub]
  show (255 + d.toNat) % 256 + 1 = _
  omega

theorem nz {a : Bool} {d : BitVec 8} (h : ¬(!(a && d != 0#8)) = true) : d ≠ 0#8 := by
  rintro rfl
  cases a <;> exact h rfl

theorem up (d : BitVec 8) : (d + 1#8).toNat ≤ d.toNat + 1 := by
  rw [BitVec.toNat_add]
  exact Nat.mod_le _ _

theorem up_lt {i c : BitVec 8} (h : ¬(!decide (i < c)) = true) : (i + 1#8).toNat = i.toNat + 1 ∧ i.toNat < c.toNat := by
  have h : i < c := by
    by_cases hd : i < c
    · exact hd
    · rw [decide_eq_false hd] at h; exact absurd rfl h
  have h1 := BitVec.lt_def.1 h
  have := c.isLt
  rw [BitVec.toNat_add]
  refine ⟨?_, h1⟩
  show (i.toNat + 1) % 256 = _
  omega

theorem andM_bind {K V β : Type} (b : Bool) (y : T K V Bool) (f : Bool → T K V β) : (andM (pure b) y >>= f) = if b = true then y >>= f else f false := by
  cases b <;> rfl

set_option hygiene false in
/-- Pay for the last loops of a deletion. -/
macro "pay_end" : tactic => `(tactic| (
  refine Amt.Par.Pays.forIn _ _ (fun n (s : Slice × Ref × BitVec 8 × BitVec 8 × BitVec 8) => 24 * s.snd.snd.fst.toNat + 6) (fun _ => 0) (by first | omega | (dsimp only [Amt.Par.Price.access]; omega)) (fun n s => ?_) (fun s => ?_)
  · rw [Amt.Par.andM_bind]
    repeat' pay_step
    all_goals first
      | exact Nat.zero_le _
      | (have hd : s.snd.snd.fst ≠ 0#8 := Amt.Par.nz (by assumption)
         have hd := Amt.Par.down _ hd
         dsimp only [Amt.Par.Price.access]; omega)
      | (dsimp only [Amt.Par.Price.access]; omega)
      | omega
  · refine Amt.Par.Pays.forIn _ _ (fun n s => 0) (fun _ => 0) (Nat.zero_le _) (fun n s => ?_) (fun s => ?_)
    · repeat' pay_step
      all_goals exact Nat.zero_le _
    · repeat' pay_step
      all_goals exact Nat.zero_le _))

set_option hygiene false in
/-- Pay for a move of one link. -/
macro "pay_move" : tactic => `(tactic| (
  refine Amt.Par.Pays.ite (fun _ => ?_) (fun hi => ?_)
  · repeat' pay_step
    all_goals first | omega | (dsimp only; omega)
  · have hi := Amt.Par.up_lt hi
    repeat' pay_step
    all_goals first | omega | (dsimp only [Amt.Par.Price.access]; omega)))

set_option hygiene false in
/-- Pay for the links after the deleted one. -/
macro "pay_shift" : tactic => `(tactic| (
  refine Amt.Par.Pays.forIn _ _ (fun n (i : BitVec 8) => 9 * (s.snd.snd.snd.snd.snd.snd.toNat - i.toNat) + 24 * s.snd.snd.fst.toNat + 6)
    (fun i => 24 * s.snd.snd.fst.toNat + 6) (by first | omega | (dsimp only [Amt.Par.Price.access]; omega)) (fun n i => ?_) (fun i => ?_)
  · pay_move
  · pay_end))

set_option hygiene false in
/-- Pay for a deletion. -/
macro "pay_del" σ:term:max d:term:max idx:term:max : tactic => `(tactic| (
  repeat' pay_step
  all_goals try (dsimp only [Amt.Par.Price.access]; omega)
  refine Amt.Par.Pays.forIn _ _ (fun n (s : $σ) => 13 * n + 39 * (n + ($d).toNat) + 9 * Amt.Par.cap $idx + 330) (fun _ => 0) ?_ (fun n s => ?_) (fun s => ?_)
  · dsimp only [Amt.Par.Price.access]
    rw [Amt.Par.cap_pop]
    simp only [BitVec.toNat_ofNat]
    omega
  · repeat' pay_step
    all_goals try exact Nat.zero_le _
    all_goals try (have := Amt.Par.up $d; have := Amt.Par.ge_cap $idx; simp only [Amt.Par.cap_pop, Amt.Par.Price.access]; omega)
    refine Amt.Par.Pays.forIn _ _ (fun n (s : Slice × Ref × BitVec 8 × BitVec 8 × BitVec 32 × BitVec 8 × BitVec 8) => 39 * s.snd.snd.fst.toNat + 9 * Amt.Par.cap s.snd.snd.snd.snd.snd.fst + 9 * Amt.Par.cap s.snd.snd.snd.snd.snd.snd + 11)
      (fun (s : Slice × Ref × BitVec 8 × BitVec 8 × BitVec 32 × BitVec 8 × BitVec 8) => 24 * s.snd.snd.fst.toNat + 9 * Amt.Par.cap s.snd.snd.snd.snd.snd.fst + 9 * Amt.Par.cap s.snd.snd.snd.snd.snd.snd + 11) ?_ (fun n s => ?_) (fun s => ?_)
    · simp only [Amt.Par.cap_pop, Amt.Par.Price.access]
      omega
    · repeat' pay_step
      all_goals first
        | (dsimp only; omega)
        | (have hd : s.snd.snd.fst ≠ 0#8 := Amt.Par.nz (by assumption)
           have hd := Amt.Par.down _ hd
           have := Amt.Par.ge_cap s.snd.snd.snd.snd.snd.fst
           have := Amt.Par.ge_cap s.snd.snd.snd.snd.snd.snd
           simp only [Amt.Par.cap_pop, Amt.Par.Price.access]; omega)
    · have h1 := Amt.Par.le_cap s.snd.snd.snd.snd.snd.fst
      have h2 := Amt.Par.le_cap s.snd.snd.snd.snd.snd.snd
      repeat' pay_step
      all_goals try (dsimp only [Amt.Par.Price.access]; omega)
      · refine Amt.Par.Pays.forIn _ _ (fun n (i : BitVec 8) => 9 * (s.snd.snd.snd.snd.snd.fst.toNat - i.toNat) + 24 * s.snd.snd.fst.toNat + 9 * Amt.Par.cap s.snd.snd.snd.snd.snd.snd + 6)
          (fun i => 24 * s.snd.snd.fst.toNat + 9 * Amt.Par.cap s.snd.snd.snd.snd.snd.snd + 6) (by first | omega | (dsimp only [Amt.Par.Price.access]; omega)) (fun n i => ?_) (fun i => ?_)
        · pay_move
        · pay_shift
      · pay_shift
  · split <;> exact Nat.zero_le _))


set_option hygiene false in
/-- The parts of the cost of `Del` that do not depend on the method: the rounds of the search vary, those of the other loops do not. -/
macro "del_costs" σ:term:max d:term:max idx:term:max : tactic => `(tactic| (
  dsimp only
  generalize hb : budget n = b
  conv =>
    enter [6]
    pattern (forIn b _ _)
    enter [3]
    rw [← hb]
  conv =>
    enter [7]
    pattern (forIn b _ _)
    enter [3]
    rw [← hb]
  clear hb
  revert b
  refine Amt.Par.Costs.of (fun b => ?_) (fun b b' hb => ?_) (fun b => ?_) (fun b s hs => ?_)
  · repeat' den_step
  · repeat' le_step
  · pay_del $σ $d $idx
  have forIn_x : ∀ {K V σ : Type} (st : σ) (f : Unit → σ → M K V (ForInStep σ)), forIn b st f = Go.loop (f ()) b.n st := fun _ _ => rfl
  obtain ⟨rk, hs⟩ := hs))

end Amt.Par

namespace Amt.Go
open Amt

section
variable {K V : Type}

theorem ArrMap.Del_costs [DecidableEq K] [Inhabited V] (sum : Maphash) (kb : K → List UInt8) (n h : Nat) (key : K) (scratch : List PathLink) :
    Par.Costs Par.Price.access 700 52 (fun r => deleteX (V := V) (boxedCfg sum kb) h r (fun b => !b) key scratch) (budget n) (Par.ArrMap.Del sum kb n (some h) key scratch) (ArrMap.Del sum kb n (some h) key scratch) := by
  unfold Par.ArrMap.Del ArrMap.Del
  del_costs (Option (List PathLink) × Slice × Hasher × BitVec 64 × Ref × BitVec 8 × BitVec 8 × BitVec 32 × BitVec 8) s.snd.snd.snd.snd.snd.fst s.snd.snd.snd.snd.snd.snd.snd.snd
  unfold deleteX searchX
  lit [forIn_x, write_new, sum64_flat, Slice.ofRoot]
  byte_del (boxedCfg sum kb) (s.roots h).seed (byteStD scratch (s.roots h).seed (kb key)) key (b.n) h s boxedCfg
    (cases hit with
     | false => lit [h2, eq_test' (h5 rfl), ended]
     | true =>
       boxed_del (boxedCfg sum kb) key
       skip_key (boxedCfg sum kb) (!(goEq key ckey)) (!(Cfg.eq (boxedCfg sum kb) key ckey)))

theorem StringMap.Del_costs [Inhabited V] (sum : Maphash) (n h : Nat) (key : ByteStr) (scratch : List PathLink) :
    Par.Costs Par.Price.access 700 52 (fun r => deleteX (V := V) (boxedCfg sum id) h r (fun b => !b) key scratch) (budget n) (Par.StringMap.Del sum n (some h) key scratch) (StringMap.Del sum n (some h) key scratch) := by
  exact ArrMap.Del_costs sum id n h key scratch

theorem BytesMap.Del_costs [Inhabited V] (sum : Maphash) (n h : Nat) (key : ByteStr) (scratch : List PathLink) :
    Par.Costs Par.Price.access 700 52 (fun r => deleteX (V := V) (boxedCfg sum id) h r (fun b => !b) key scratch) (budget n) (Par.BytesMap.Del sum n (some h) key scratch) (BytesMap.Del sum n (some h) key scratch) := by
  exact ArrMap.Del_costs sum id n h key scratch

theorem IntMap.Del_costs [Inhabited V] (sum : Maphash) (n h : Nat) (key : IntKey) (scratch : List PathLink) :
    Par.Costs Par.Price.access 700 52 (fun r => deleteX (V := V) (intCfg .inline sum) h r (fun b => !b) key scratch) (budget n) (Par.IntMap.Del sum n (some h) key scratch) (IntMap.Del sum n (some h) key scratch) := by
  unfold Par.IntMap.Del IntMap.Del
  del_costs (Option (List PathLink) × Slice × Hasher × BitVec 64 × Ref × BitVec 8 × BitVec 8 × BitVec 32 × BitVec 8) s.snd.snd.snd.snd.snd.fst s.snd.snd.snd.snd.snd.snd.snd.snd
  unfold deleteX searchX
  lit [forIn_x, write_new, sum64_flat, Slice.ofRoot]
  byte_del (intCfg .inline sum) (s.roots h).seed (byteStD scratch (s.roots h).seed (intbytes key)) key (b.n) h s intCfg
    (cases hit with
     | false => lit [h2, eq_test' (h5 rfl), ended]
     | true =>
       inline_del (intCfg .inline sum) key
       skip_key (intCfg .inline sum) (!(goEq key ckey)) (!(Cfg.eq (intCfg .inline sum) key ckey)))

theorem Map.Del_costs [Inhabited V] (I : KeyImpl K) (n h : Nat) (key : K) (scratch : List PathLink) :
    Par.Costs Par.Price.access 700 52 (fun r => deleteX (V := V) (genericCfg I) h r (fun b => !b) key scratch) (budget n) (Par.Map.Del I n (some h) key scratch) (Map.Del I n (some h) key scratch) := by
  unfold Par.Map.Del Map.Del
  del_costs (Option (List PathLink) × Slice × BitVec 64 × Ref × BitVec 8 × BitVec 8 × BitVec 32 × BitVec 8) s.snd.snd.snd.snd.fst s.snd.snd.snd.snd.snd.snd.snd
  unfold deleteX searchX
  lit [forIn_x, Slice.ofRoot]
  gen_del (genericCfg I) (s.roots h).seed (genStD scratch) key (b.n) h s
    (cases hit with
     | false => lit [h2, eq_test' (h5 rfl), ended]
     | true =>
       lit [h2, ne_test (h4 rfl).1, ne_test' (h4 rfl).2, rank_toNat, ended, removeS, itemRef, readKey_kvKey (c := genericCfg I) rfl]
       rcases run_load ⟨lk.ptr, rankOf lk.pmap (radixOf cur.hd)⟩ s' with ⟨e, he⟩ | ⟨x, hx⟩
       · lit [he]
       lit [hx]
       rcases hk : run (kvKey x.ptr) s' with e | ⟨ckey, s2⟩
       · lit [thenE_ok]
       cases kvKey_state hk
       lit [thenE_ok]
       skip_key (genericCfg I) (!(I.equal key ckey)) (!(Cfg.eq (genericCfg I) key ckey)))

theorem ArrSet.Del_costs [DecidableEq K] (sum : Maphash) (kb : K → List UInt8) (n h : Nat) (key : K) (scratch : List PathLink) :
    Par.Costs Par.Price.access 700 52 (fun r => deleteX (V := Unit) (boxedCfg sum kb) h r (fun b => !b) key scratch) (budget n) (Par.ArrSet.Del sum kb n (some h) key scratch) (ArrSet.Del sum kb n (some h) key scratch) := by
  unfold Par.ArrSet.Del ArrSet.Del
  del_costs (Option (List PathLink) × Slice × Hasher × BitVec 64 × Ref × BitVec 8 × BitVec 8 × BitVec 32 × BitVec 8) s.snd.snd.snd.snd.snd.fst s.snd.snd.snd.snd.snd.snd.snd.snd
  unfold deleteX searchX
  lit [forIn_x, write_new, sum64_flat, Slice.ofRoot]
  byte_del (boxedCfg sum kb) (s.roots h).seed (byteStD scratch (s.roots h).seed (kb key)) key (b.n) h s boxedCfg
    (cases hit with
     | false => lit [h2, eq_test' (h5 rfl), ended]
     | true =>
       boxed_del (boxedCfg sum kb) key
       skip_key (boxedCfg sum kb) (!(goEq key ckey)) (!(Cfg.eq (boxedCfg sum kb) key ckey)))

theorem StringSet.Del_costs (sum : Maphash) (n h : Nat) (key : ByteStr) (scratch : List PathLink) :
    Par.Costs Par.Price.access 700 52 (fun r => deleteX (V := Unit) (boxedCfg sum id) h r (fun b => !b) key scratch) (budget n) (Par.StringSet.Del sum n (some h) key scratch) (StringSet.Del sum n (some h) key scratch) := by
  exact ArrSet.Del_costs sum id n h key scratch

theorem BytesSet.Del_costs (sum : Maphash) (n h : Nat) (key : ByteStr) (scratch : List PathLink) :
    Par.Costs Par.Price.access 700 52 (fun r => deleteX (V := Unit) (boxedCfg sum id) h r (fun b => b) key scratch) (budget n) (Par.BytesSet.Del sum n (some h) key scratch) (BytesSet.Del sum n (some h) key scratch) := by
  unfold Par.BytesSet.Del BytesSet.Del
  del_costs (Option (List PathLink) × Slice × Hasher × BitVec 64 × Ref × BitVec 8 × BitVec 8 × BitVec 32 × BitVec 8) s.snd.snd.snd.snd.snd.fst s.snd.snd.snd.snd.snd.snd.snd.snd
  unfold deleteX searchX
  lit [forIn_x, write_new, sum64_flat, Slice.ofRoot, bytesEqual_eq]
  byte_del (boxedCfg sum id) (s.roots h).seed (byteStD scratch (s.roots h).seed (key)) key (b.n) h s boxedCfg
    (cases hit with
     | false => lit [h2, eq_test' (h5 rfl), ended]
     | true =>
       boxed_del (boxedCfg sum id) key
       skip_key (boxedCfg sum id) (goEq key ckey) (Cfg.eq (boxedCfg sum id) key ckey))

theorem IntSet.Del_costs (sum : Maphash) (n h : Nat) (key : IntKey) (scratch : List PathLink) :
    Par.Costs Par.Price.access 700 52 (fun r => deleteX (V := Unit) (intSetCfg sum) h r (fun b => !b) key scratch) (budget n) (Par.IntSet.Del sum n (some h) key scratch) (IntSet.Del sum n (some h) key scratch) := by
  unfold Par.IntSet.Del IntSet.Del
  del_costs (Option (List PathLink) × Slice × Hasher × BitVec 64 × Ref × BitVec 8 × BitVec 8 × BitVec 32 × BitVec 8) s.snd.snd.snd.snd.snd.fst s.snd.snd.snd.snd.snd.snd.snd.snd
  unfold deleteX searchX
  lit [forIn_x, write_new, sum64_flat, Slice.ofRoot]
  byte_del (intSetCfg sum) (s.roots h).seed (byteStD scratch (s.roots h).seed (intbytes key)) key (b.n) h s intSet_digest
    (cases hit with
     | false => lit [h2, eq_test' (h5 rfl), ended]
     | true =>
       inline_del (intSetCfg sum) key
       skip_key (intSetCfg sum) (!(goEq key ckey)) (!(Cfg.eq (intSetCfg sum) key ckey)))

theorem Set.Del_costs (I : KeyImpl K) (n h : Nat) (key : K) (scratch : List PathLink) :
    Par.Costs Par.Price.access 700 52 (fun r => deleteX (V := Unit) (genericCfg I) h r (fun b => !b) key scratch) (budget n) (Par.Set.Del I n (some h) key scratch) (Set.Del I n (some h) key scratch) := by
  unfold Par.Set.Del Set.Del
  del_costs (Option (List PathLink) × Slice × BitVec 64 × Ref × BitVec 8 × BitVec 8 × BitVec 32 × BitVec 8) s.snd.snd.snd.snd.fst s.snd.snd.snd.snd.snd.snd.snd
  unfold deleteX searchX
  lit [forIn_x, Slice.ofRoot]
  gen_del (genericCfg I) (s.roots h).seed (genStD scratch) key (b.n) h s
    (cases hit with
     | false => lit [h2, eq_test' (h5 rfl), ended]
     | true =>
       lit [h2, ne_test (h4 rfl).1, ne_test' (h4 rfl).2, rank_toNat, ended, removeS, itemRef, readKey_kvKey (c := genericCfg I) rfl]
       rcases run_load ⟨lk.ptr, rankOf lk.pmap (radixOf cur.hd)⟩ s' with ⟨e, he⟩ | ⟨x, hx⟩
       · lit [he]
       lit [hx]
       rcases hk : run (kvKey x.ptr) s' with e | ⟨ckey, s2⟩
       · lit [thenE_ok]
       cases kvKey_state hk
       lit [thenE_ok]
       skip_key (genericCfg I) (!(I.equal key ckey)) (!(Cfg.eq (genericCfg I) key ckey)))

end

end Amt.Go
