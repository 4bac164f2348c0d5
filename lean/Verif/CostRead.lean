/-
The accesses to memory of the reading methods, in terms of the rounds of their search.
-/
import Verif.Cost

set_option linter.unusedVariables false
set_option linter.unusedSectionVars false

namespace Amt.Par
open Amt
open Amt.Go

theorem forIn_b {K V σ : Type} (b : Go.Budget) (st : σ) (f : Unit → σ → M K V (ForInStep σ)) : forIn b st f = Go.loop (f ()) b.n st := rfl

/-- Pay for a search, 13 accesses for each round. -/
macro "pay_search" : tactic => `(tactic| (
  repeat' pay_step
  all_goals try (dsimp only [Price.access]; omega)
  refine Pays.forIn _ _ (fun n _ => 13 * n + 5) (fun _ => 0) (by dsimp only [Price.access]; omega) (fun n s => ?_) (fun s => ?_)
  · repeat' pay_step
    all_goals (dsimp only [Price.access]; omega)
  · split <;> exact Nat.zero_le _))

/-- The parts of the cost of a read that do not depend on the method. -/
macro "read_costs" : tactic => `(tactic| (
  dsimp only
  generalize budget _ = b
  revert b
  refine Costs.of (fun b => ?_) (fun b b' hb => ?_) (fun b => ?_) (fun b s hs => ?_)
  · repeat' den_step
  · repeat' le_step
  · pay_search))

section
variable {K V : Type}

theorem ArrMap.Ptr_costs [DecidableEq K] [Inhabited V] (sum : Maphash) (kb : K → List UInt8) (n h : Nat) (key : K) :
    Costs Price.access 9 13 (fun r => ptrX (V := V) (boxedCfg sum kb) h r key) (budget n) (ArrMap.Ptr sum kb n (some h) key) (Go.ArrMap.Ptr sum kb n (some h) key) := by
  unfold ArrMap.Ptr Go.ArrMap.Ptr
  read_costs
  rename_i b s hs
  unfold ptrX lookupX searchX
  lit [forIn_b, write_new, sum64_flat]
  byte_search (boxedCfg sum kb) (s.roots h).seed kb key (b.n) h s boxedCfg
    (dsimp only [byteSt]
     cases hit with
     | false => lit [h2, eq_test' (h5 rfl)]; rfl
     | true =>
       lit [h2, ne_test (h4 rfl).1, ne_test' (h4 rfl).2, rank_toNat, ended, itemRef, readKey_kvKey (c := boxedCfg sum kb) rfl]
       simp only [goEq_comm _ key]
       rfl)

theorem IntMap.Ptr_costs [Inhabited V] (sum : Maphash) (n h : Nat) (key : IntKey) :
    Costs Price.access 9 13 (fun r => ptrX (V := V) (intCfg .inline sum) h r key) (budget n) (IntMap.Ptr sum n (some h) key) (Go.IntMap.Ptr sum n (some h) key) := by
  unfold IntMap.Ptr Go.IntMap.Ptr
  read_costs
  rename_i b s hs
  unfold ptrX lookupX searchX
  lit [forIn_b, write_new, sum64_flat]
  byte_search (intCfg .inline sum) (s.roots h).seed intbytes key (b.n) h s intCfg
    (dsimp only [byteSt]
     cases hit with
     | false => lit [h2, eq_test' (h5 rfl)]; rfl
     | true =>
       lit [h2, ne_test (h4 rfl).1, ne_test' (h4 rfl).2, rank_toNat, ended, itemRef]
       rcases run_load ⟨lk.ptr, rankOf lk.pmap (radixOf cur.hd)⟩ s' with ⟨e, he⟩ | ⟨x, hx⟩
       · lit [he]
       · lit [hx, goEq_comm _ key]
         rfl)

theorem Map.Ptr_costs [Inhabited V] (I : KeyImpl K) (n h : Nat) (key : K) :
    Costs Price.access 9 13 (fun r => ptrX (V := V) (genericCfg I) h r key) (budget n) (Map.Ptr I n (some h) key) (Go.Map.Ptr I n (some h) key) := by
  unfold Map.Ptr Go.Map.Ptr
  read_costs
  rename_i b s hs
  unfold ptrX lookupX searchX
  lit [forIn_b, write_new, sum64_flat]
  gen_search (genericCfg I) (s.roots h).seed key (b.n) h s
    (dsimp only [genSt]
     cases hit with
     | false => lit [h2, eq_test' (h5 rfl)]; rfl
     | true =>
       lit [h2, ne_test (h4 rfl).1, ne_test' (h4 rfl).2, rank_toNat, ended, itemRef, readKey_kvKey (c := genericCfg I) rfl]
       rfl)

theorem ArrSet.Has_costs [DecidableEq K] (sum : Maphash) (kb : K → List UInt8) (n h : Nat) (key : K) :
    Costs Price.access 9 13 (fun r => hasX (V := Unit) (boxedCfg sum kb) h r key) (budget n) (ArrSet.Has sum kb n (some h) key) (Go.ArrSet.Has sum kb n (some h) key) := by
  unfold ArrSet.Has Go.ArrSet.Has
  read_costs
  rename_i b s hs
  unfold hasX lookupX searchX
  lit [forIn_b, write_new, sum64_flat]
  byte_search (boxedCfg sum kb) (s.roots h).seed kb key (b.n) h s boxedCfg
    (dsimp only [byteSt]
     cases hit with
     | false => lit [h2, eq_test' (h5 rfl)]; rfl
     | true =>
       lit [h2, ne_test (h4 rfl).1, ne_test' (h4 rfl).2, rank_toNat, ended, itemRef, readKey_kvKey (c := boxedCfg sum kb) rfl]
       simp only [Option.isSome_some, Option.isSome_none, ite_bool]
       rfl)

theorem IntSet.Has_costs (sum : Maphash) (n h : Nat) (key : IntKey) :
    Costs Price.access 9 13 (fun r => hasX (V := Unit) (intSetCfg sum) h r key) (budget n) (IntSet.Has sum n (some h) key) (Go.IntSet.Has sum n (some h) key) := by
  unfold IntSet.Has Go.IntSet.Has
  read_costs
  rename_i b s hs
  unfold hasX lookupX searchX
  lit [forIn_b, write_new, sum64_flat]
  byte_search (intSetCfg sum) (s.roots h).seed intbytes key (b.n) h s intSet_digest
    (dsimp only [byteSt]
     cases hit with
     | false => lit [h2, eq_test' (h5 rfl)]; rfl
     | true =>
       lit [h2, ne_test (h4 rfl).1, ne_test' (h4 rfl).2, rank_toNat, ended, itemRef]
       rcases run_load ⟨lk.ptr, rankOf lk.pmap (radixOf cur.hd)⟩ s' with ⟨e, he⟩ | ⟨x, hx⟩
       · lit [he]
       · lit [hx, Option.isSome_some, Option.isSome_none, ite_bool]
         rfl)

theorem Set.Has_costs (I : KeyImpl K) (n h : Nat) (key : K) :
    Costs Price.access 9 13 (fun r => hasX (V := Unit) (genericCfg I) h r key) (budget n) (Set.Has I n (some h) key) (Go.Set.Has I n (some h) key) := by
  unfold Set.Has Go.Set.Has
  read_costs
  rename_i b s hs
  unfold hasX lookupX searchX
  lit [forIn_b, write_new, sum64_flat]
  gen_search (genericCfg I) (s.roots h).seed key (b.n) h s
    (dsimp only [genSt]
     cases hit with
     | false => lit [h2, eq_test' (h5 rfl)]; rfl
     | true =>
       lit [h2, ne_test (h4 rfl).1, ne_test' (h4 rfl).2, rank_toNat, ended, itemRef, readKey_kvKey (c := genericCfg I) rfl]
       simp only [Option.isSome_some, Option.isSome_none, ite_bool]
       rfl)

theorem StringMap.Ptr_costs [Inhabited V] (sum : Maphash) (n h : Nat) (key : ByteStr) :
    Costs Price.access 9 13 (fun r => ptrX (V := V) (boxedCfg sum id) h r key) (budget n) (StringMap.Ptr sum n (some h) key) (Go.StringMap.Ptr sum n (some h) key) :=
  ArrMap.Ptr_costs sum id n h key

theorem BytesMap.Ptr_costs [Inhabited V] (sum : Maphash) (n h : Nat) (key : ByteStr) :
    Costs Price.access 9 13 (fun r => ptrX (V := V) (boxedCfg sum id) h r key) (budget n) (BytesMap.Ptr sum n (some h) key) (Go.BytesMap.Ptr sum n (some h) key) :=
  ArrMap.Ptr_costs sum id n h key

theorem StringSet.Has_costs (sum : Maphash) (n h : Nat) (key : ByteStr) :
    Costs Price.access 9 13 (fun r => hasX (V := Unit) (boxedCfg sum id) h r key) (budget n) (StringSet.Has sum n (some h) key) (Go.StringSet.Has sum n (some h) key) :=
  ArrSet.Has_costs sum id n h key

theorem BytesSet.Has_costs (sum : Maphash) (n h : Nat) (key : ByteStr) :
    Costs Price.access 9 13 (fun r => hasX (V := Unit) (boxedCfg sum id) h r key) (budget n) (BytesSet.Has sum n (some h) key) (Go.BytesSet.Has sum n (some h) key) :=
  ArrSet.Has_costs sum id n h key

end

end Amt.Par
