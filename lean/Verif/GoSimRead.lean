/-
The translated `Ptr`, `Get`, `Val`, `Has` and `All` do what `lookup` and `scan` of `Model.lean` do.
-/
import Verif.GoSlot
import Verif.GoStringMap
import Verif.GoStringSet
import Verif.GoBytesMap
import Verif.GoBytesSet
import Verif.GoArrMap
import Verif.GoArrSet
import Verif.GoIntMap
import Verif.GoIntSet
import Verif.GoMap
import Verif.GoSet

set_option linter.unusedVariables false
set_option linter.unusedSectionVars false
set_option linter.unusedSimpArgs false

namespace Amt.Go
open Amt

/-! ### Searching with the loop bound of the translation -/

section
variable {K V : Type} (c : Cfg K)

/-- What `search` returns, from what `walk` returns. -/
def ended (r : Cur × Link × Bool × Nat) : Cur × Bool :=
  (if r.2.2.1 then { r.1 with path := r.1.path ++ [(radixOf r.1.hd, some r.1.l)] } else r.1, r.2.2.1)

/-- `search`, by `walk`. -/
def searchX (sd : Seed) (key : K) (n : Nat) (cur : Cur) : M K V (Cur × Bool) :=
  walk c sd key n cur >>= fun r => pure (ended r)

/-- `lookup`, by `walk`. -/
def lookupX (h n : Nat) (key : K) : M K V (Option Ptr) := do
  let r ← getRoot h
  let (cur, hit) ← searchX c r.seed key n (start c r.seed key h)
  if hit then
    let item ← itemRef cur
    let x ← load item
    let k ← readKey c x
    if c.eq key k then pure (some x.ptr) else pure none
  else pure none

/-- `upsert`, by `walk`. -/
def upsertX {R : Type} (h n : Nat) (key : K) (ins : Ins K V R) : M K V R := do
  let r ← getRoot h
  let (cur, hit) ← searchX c r.seed key n (start c r.seed key h)
  if hit then conflict c r.seed h n key ins cur
  else insertSlot c h key ins cur

theorem search_walk (sd : Seed) (key : K) : ∀ n cur, Ext (search (V := V) c sd key n cur) (searchX c sd key n cur) := by
  intro n
  induction n with
  | zero => intro cur; exact Ext.diverge _
  | succ n ih =>
    intro cur
    unfold searchX
    rw [search, walk, bind_assoc_M]
    refine Ext.bind (Ext.refl _) fun lk => ?_
    dsimp only
    split
    · split
      · exact ih _
      · exact Ext.refl _
    · exact Ext.refl _

theorem walk_search (sd : Seed) (key : K) : ∀ n cur, Ext (searchX (V := V) c sd key n cur) (search c sd key (n + 1) cur) := by
  intro n
  induction n with
  | zero =>
    intro cur
    unfold searchX
    rw [search, walk, bind_assoc_M]
    exact Ext.bind (Ext.refl _) fun lk => Ext.diverge _
  | succ n ih =>
    intro cur
    unfold searchX
    rw [search, walk, bind_assoc_M]
    refine Ext.bind (Ext.refl _) fun lk => ?_
    dsimp only
    split
    · split
      · exact ih _
      · exact Ext.refl _
    · exact Ext.refl _

theorem lookup_lookupX (h n : Nat) (key : K) : Ext (lookup (V := V) c h n key) (lookupX c h n key) :=
  Ext.bind (Ext.refl _) fun r => Ext.bind (search_walk c _ _ _ _) fun x => Ext.refl _

theorem lookupX_lookup (h n : Nat) (key : K) : Ext (lookupX (V := V) c h n key) (lookup c h (n + 1) key) :=
  Ext.bind (Ext.refl _) fun r => Ext.bind (walk_search c _ _ _ _) fun x => Ext.refl _

theorem upsert_upsertX {R : Type} (h n : Nat) (key : K) (ins : Ins K V R) : Ext (upsert c h n key ins) (upsertX c h n key ins) :=
  Ext.bind (Ext.refl _) fun r => Ext.bind (search_walk c _ _ _ _) fun x => Ext.refl _

end

/-! ### The search loop of the byte-hashed containers -/

/-- The variables of the search loop of the byte-hashed containers. -/
def byteSt {ρ : Type} (sd : Seed) (kb : List UInt8) (cur : Cur) (idx : BitVec 8) :
    Option ρ × Hasher × BitVec 64 × Ref × BitVec 8 × BitVec 8 × BitVec 32 × BitVec 8 :=
  (none, ⟨sd, flat kb cur.w⟩, cur.hd, cur.l, BitVec.ofNat 8 cur.d, (cur.hd &&& 15#64).setWidth 8, bitOf (radixOf cur.hd), idx)

/-- The variables of the search loop of the generic containers. -/
def genSt {ρ : Type} (cur : Cur) (idx : BitVec 8) :
    Option ρ × BitVec 64 × Ref × BitVec 8 × BitVec 8 × BitVec 32 × BitVec 8 :=
  (none, cur.hd, cur.l, BitVec.ofNat 8 cur.d, (cur.hd &&& 15#64).setWidth 8, bitOf (radixOf cur.hd), idx)

theorem shr4 {d : Nat} (h : d < 256) : ((BitVec.ofNat 8 d >>> 4).setWidth 64).toNat = d / 16 := by
  rw [BitVec.toNat_setWidth, BitVec.toNat_ushiftRight, ofNat_toNat h, Nat.shiftRight_eq_div_pow]
  omega

/-- A descent of the search loop. -/
macro "byte_step" hd:ident hl:ident hp:ident ht:ident c:ident : tactic => `(tactic| (
  dsimp only [byteSt]
  lit [$hl:ident, ne_test $hp, eq_test $ht, succ_eq, rank_toNat]
  rw [mod16 (by omega)]
  simp only [decide_eq_true_eq, descend, write_flat, sum64_flat]
  split
  · lit [lit_bit, lit_rank]
  · lit [lit_bit, lit_rank, $c:ident]))

/-- A descent of the search loop of a generic container. -/
macro "gen_step" hd:ident hl:ident hp:ident ht:ident : tactic => `(tactic| (
  dsimp only [genSt]
  lit [$hl:ident, ne_test $hp, eq_test $ht, succ_eq, rank_toNat]
  rw [and15 (by omega)]
  simp only [decide_eq_true_eq, descend]
  split
  · lit [lit_bit, lit_rank]
  · lit [lit_bit, lit_rank, genericCfg, shr4 (Nat.mod_lt _ (by decide : 0 < 256))]))

set_option hygiene false in
/-- The search loop of a byte-hashed container `c`; leaves what follows it for a miss and for a hit. -/
macro "byte_search" c:term:max sd:term:max kb:term:max key:term:max n:term:max h:term:max s:ident cfg:ident hit:tactic : tactic => `(tactic| (
  rcases run_load (linkOf $h) $s with ⟨e, he⟩ | ⟨lk, hl⟩
  · rw [he, walk_err _ _ _ _ _ he]
    rfl
  rw [hl, thenE_ok]
  rw [loop_walk $c $sd $key (byteSt $sd ($kb $key)) (s := $s) ?_ $n (start $c $sd $key $h) lk _ (Nat.zero_lt_succ _) hl ?_]
  rotate_left
  · intro cur lk hd hl hp ht
    byte_step hd hl hp ht $cfg
  · rw [lit_bit, lit_rank]
    rfl
  · cases hw : run (walk $c $sd $key $n (start $c $sd $key $h)) $s with
    | error e => rfl
    | ok r =>
      obtain ⟨⟨cur, lk, hit, m⟩, s'⟩ := r
      obtain ⟨h1, h2, h3, h4, h5⟩ := walk_ends _ _ _ _ _ _ ⟨Nat.zero_lt_succ _, rfl⟩ hw
      subst h1
      dsimp only at h2 h4 h5
      $hit))

set_option hygiene false in
/-- The same for a generic container. -/
macro "gen_search" c:term:max sd:term:max key:term:max n:term:max h:term:max s:ident hit:tactic : tactic => `(tactic| (
  rcases run_load (linkOf $h) $s with ⟨e, he⟩ | ⟨lk, hl⟩
  · rw [he, walk_err _ _ _ _ _ he]
    rfl
  rw [hl, thenE_ok]
  rw [loop_walk $c $sd $key genSt (s := $s) ?_ $n (start $c $sd $key $h) lk _ (Nat.zero_lt_succ _) hl ?_]
  rotate_left
  · intro cur lk hd hl hp ht
    gen_step hd hl hp ht
  · rw [lit_bit, lit_rank]
    rfl
  · cases hw : run (walk $c $sd $key $n (start $c $sd $key $h)) $s with
    | error e => rfl
    | ok r =>
      obtain ⟨⟨cur, lk, hit, m⟩, s'⟩ := r
      obtain ⟨h1, h2, h3, h4, h5⟩ := walk_ends _ _ _ _ _ _ ⟨Nat.zero_lt_succ _, rfl⟩ hw
      subst h1
      dsimp only at h2 h4 h5
      $hit))

section
variable {K V : Type}

/-- `lookupX`, followed by `&kv.v`. -/
def ptrX (c : Cfg K) (h n : Nat) (key : K) : M K V Ptr := do
  match ← lookupX c h n key with
  | none => pure .nil
  | some p => fieldAddr p

theorem goEq_comm [DecidableEq K] (a b : K) : goEq a b = goEq b a := decide_eq_decide.2 ⟨Eq.symm, Eq.symm⟩

theorem readKey_kvKey {c : Cfg K} (hc : c.store = .boxed) (x : Link) : readKey (V := V) c x = kvKey x.ptr := by
  unfold readKey; rw [hc]; rfl

theorem readKey_dec {c : Cfg K} (hc : c.store ≠ .boxed) (x : Link) :
    readKey (V := V) c x = match c.dec x.pmap x.tmap with | none => M.fail .wrongType | some k => pure k := by
  unfold readKey
  cases h : c.store
  · exact absurd h hc
  · rfl
  · rfl

theorem ArrMap.Ptr_eq [DecidableEq K] [Inhabited V] (sum : Maphash) (kb : K → List UInt8) (n h : Nat) (key : K) (s : St K V) :
    run (ArrMap.Ptr sum kb n (some h) key) s = run (ptrX (boxedCfg sum kb) h (n + 300) key) s := by
  unfold ArrMap.Ptr ptrX lookupX searchX
  lit [forIn_loop, write_new, sum64_flat]
  byte_search (boxedCfg sum kb) (s.roots h).seed kb key (n + 300) h s boxedCfg
    (dsimp only [byteSt]
     cases hit with
     | false => lit [h2, eq_test' (h5 rfl)]; rfl
     | true =>
       lit [h2, ne_test (h4 rfl).1, ne_test' (h4 rfl).2, rank_toNat, ended, itemRef, readKey_kvKey (c := boxedCfg sum kb) rfl]
       simp only [goEq_comm _ key]
       rfl)

theorem IntMap.Ptr_eq [Inhabited V] (sum : Maphash) (n h : Nat) (key : IntKey) (s : St IntKey V) :
    run (IntMap.Ptr sum n (some h) key) s = run (ptrX (intCfg .inline sum) h (n + 300) key) s := by
  unfold IntMap.Ptr ptrX lookupX searchX
  lit [forIn_loop, write_new, sum64_flat]
  byte_search (intCfg .inline sum) (s.roots h).seed intbytes key (n + 300) h s intCfg
    (dsimp only [byteSt]
     cases hit with
     | false => lit [h2, eq_test' (h5 rfl)]; rfl
     | true =>
       lit [h2, ne_test (h4 rfl).1, ne_test' (h4 rfl).2, rank_toNat, ended, itemRef]
       rcases run_load ⟨lk.ptr, rankOf lk.pmap (radixOf cur.hd)⟩ s' with ⟨e, he⟩ | ⟨x, hx⟩
       · lit [he]
       · lit [hx, goEq_comm _ key]
         rfl)

theorem Map.Ptr_eq [Inhabited V] (I : KeyImpl K) (n h : Nat) (key : K) (s : St K V) :
    run (Map.Ptr I n (some h) key) s = run (ptrX (genericCfg I) h (n + 300) key) s := by
  unfold Map.Ptr ptrX lookupX searchX
  lit [forIn_loop, write_new, sum64_flat]
  gen_search (genericCfg I) (s.roots h).seed key (n + 300) h s
    (dsimp only [genSt]
     cases hit with
     | false => lit [h2, eq_test' (h5 rfl)]; rfl
     | true =>
       lit [h2, ne_test (h4 rfl).1, ne_test' (h4 rfl).2, rank_toNat, ended, itemRef, readKey_kvKey (c := genericCfg I) rfl]
       rfl)

theorem ite_bool {α : Type} (b : Bool) (s : α) : (if b = true then .ok (true, s) else .ok (false, s) : Except Fault (Bool × α)) = .ok (b, s) := by
  cases b <;> rfl

/-- `lookupX`, as `Has` uses it. -/
def hasX (c : Cfg K) (h n : Nat) (key : K) : M K V Bool := do
  let p ← lookupX c h n key
  pure p.isSome

theorem ArrSet.Has_eq [DecidableEq K] (sum : Maphash) (kb : K → List UInt8) (n h : Nat) (key : K) (s : St K Unit) :
    run (ArrSet.Has sum kb n (some h) key) s = run (hasX (boxedCfg sum kb) h (n + 300) key) s := by
  unfold ArrSet.Has hasX lookupX searchX
  lit [forIn_loop, write_new, sum64_flat]
  byte_search (boxedCfg sum kb) (s.roots h).seed kb key (n + 300) h s boxedCfg
    (dsimp only [byteSt]
     cases hit with
     | false => lit [h2, eq_test' (h5 rfl)]; rfl
     | true =>
       lit [h2, ne_test (h4 rfl).1, ne_test' (h4 rfl).2, rank_toNat, ended, itemRef, readKey_kvKey (c := boxedCfg sum kb) rfl]
       simp only [Option.isSome_some, Option.isSome_none, ite_bool]
       rfl)

theorem intSet_digest (sum : Maphash) (sd : Seed) (key : IntKey) (w d : Nat) : (intSetCfg sum).digest sd key w d = digestOf sum sd (intbytes key) w := rfl

theorem IntSet.Has_eq (sum : Maphash) (n h : Nat) (key : IntKey) (s : St IntKey Unit) :
    run (IntSet.Has sum n (some h) key) s = run (hasX (intSetCfg sum) h (n + 300) key) s := by
  unfold IntSet.Has hasX lookupX searchX
  lit [forIn_loop, write_new, sum64_flat]
  byte_search (intSetCfg sum) (s.roots h).seed intbytes key (n + 300) h s intSet_digest
    (dsimp only [byteSt]
     cases hit with
     | false => lit [h2, eq_test' (h5 rfl)]; rfl
     | true =>
       lit [h2, ne_test (h4 rfl).1, ne_test' (h4 rfl).2, rank_toNat, ended, itemRef]
       rcases run_load ⟨lk.ptr, rankOf lk.pmap (radixOf cur.hd)⟩ s' with ⟨e, he⟩ | ⟨x, hx⟩
       · lit [he]
       · lit [hx, Option.isSome_some, Option.isSome_none, ite_bool]
         rfl)

theorem Set.Has_eq (I : KeyImpl K) (n h : Nat) (key : K) (s : St K Unit) :
    run (Set.Has I n (some h) key) s = run (hasX (genericCfg I) h (n + 300) key) s := by
  unfold Set.Has hasX lookupX searchX
  lit [forIn_loop, write_new, sum64_flat]
  gen_search (genericCfg I) (s.roots h).seed key (n + 300) h s
    (dsimp only [genSt]
     cases hit with
     | false => lit [h2, eq_test' (h5 rfl)]; rfl
     | true =>
       lit [h2, ne_test (h4 rfl).1, ne_test' (h4 rfl).2, rank_toNat, ended, itemRef, readKey_kvKey (c := genericCfg I) rfl]
       simp only [Option.isSome_some, Option.isSome_none, ite_bool]
       rfl)

theorem StringMap.Ptr_eq [Inhabited V] (sum : Maphash) (n h : Nat) (key : ByteStr) (s : St ByteStr V) :
    run (StringMap.Ptr sum n (some h) key) s = run (ptrX (boxedCfg sum id) h (n + 300) key) s :=
  ArrMap.Ptr_eq sum id n h key s

theorem BytesMap.Ptr_eq [Inhabited V] (sum : Maphash) (n h : Nat) (key : ByteStr) (s : St ByteStr V) :
    run (BytesMap.Ptr sum n (some h) key) s = run (ptrX (boxedCfg sum id) h (n + 300) key) s :=
  ArrMap.Ptr_eq sum id n h key s

theorem StringSet.Has_eq (sum : Maphash) (n h : Nat) (key : ByteStr) (s : St ByteStr Unit) :
    run (StringSet.Has sum n (some h) key) s = run (hasX (boxedCfg sum id) h (n + 300) key) s :=
  ArrSet.Has_eq sum id n h key s

theorem BytesSet.Has_eq (sum : Maphash) (n h : Nat) (key : ByteStr) (s : St ByteStr Unit) :
    run (BytesSet.Has sum n (some h) key) s = run (hasX (boxedCfg sum id) h (n + 300) key) s :=
  ArrSet.Has_eq sum id n h key s

/-! ### Iteration -/

theorem tz_le (x : BitVec 32) : trailingZeros x ≤ 32 := by
  unfold trailingZeros
  cases h : (List.range 32).find? (fun i => x.getLsbD i) with
  | none => exact Nat.le_refl _
  | some i =>
    have := List.mem_range.1 (List.mem_of_find?_eq_some h)
    exact Nat.le_of_lt this

/-- The loop over the items of a branch. -/
theorem scan_loop {U : Type} (visit : U → Link → M K V (U × Bool)) (rec : U → Ref → M K V (U × Bool)) (l : Ref) (tmap : BitVec 32)
    (cnt : Nat) (hcnt : cnt ≤ 32)
    {f : Option (U × Bool) × U × BitVec 32 × BitVec 8 → M K V (ForInStep (Option (U × Bool) × U × BitVec 32 × BitVec 8))}
    {F : (Option (U × Bool) × U × BitVec 32 × BitVec 8) × St K V → Except Fault ((U × Bool) × St K V)}
    (hf : ∀ u pm i s, i ≤ cnt → run (f (none, u, pm, BitVec.ofNat 8 i)) s =
      if i = cnt then .ok (.done (none, u, pm, BitVec.ofNat 8 i), s)
      else thenE (run (load l) s) fun lk =>
        thenE (if tmap &&& bitOf (trailingZeros pm) ≠ 0#32 then thenE (run (load ⟨lk.1.ptr, i⟩) lk.2) fun x => run (visit u x.1) x.2
          else run (rec u ⟨lk.1.ptr, i⟩) lk.2) fun r =>
          if (!r.1.2) = true then .ok (.done (some (r.1.1, false), r.1.1, pm, BitVec.ofNat 8 i), r.2)
          else .ok (.yield (none, r.1.1, pm &&& ~~~bitOf (trailingZeros pm), BitVec.ofNat 8 (i + 1)), r.2))
    (hr : ∀ r t s, F ((some r, t), s) = .ok (r, s)) (hb : ∀ u t s, F ((none, u, t), s) = .ok ((u, true), s)) :
    ∀ n m i pm u s, n + i = cnt → n < m →
      thenE (run (loop f m (none, u, pm, BitVec.ofNat 8 i)) s) F = run (scanItems visit rec l tmap n i pm u) s := by
  intro n
  induction n with
  | zero =>
    intro m i pm u s hn hm
    obtain ⟨m, rfl⟩ : ∃ k, m = k + 1 := ⟨m - 1, by omega⟩
    rw [loop_succ, run_bind, hf _ _ _ _ (by omega), if_pos (by omega)]
    lit [hb]
    rfl
  | succ n ih =>
    intro m i pm u s hn hm
    obtain ⟨m, rfl⟩ : ∃ k, m = k + 1 := ⟨m - 1, by omega⟩
    rw [loop_succ, run_bind, hf _ _ _ _ (by omega), if_neg (by omega), scanItems]
    simp only [thenE_assoc, run_bind]
    congr 1
    funext lk
    have : ∀ r : (U × Bool) × St K V, (thenE (if (!r.1.2) = true then .ok (.done (some (r.1.1, false), r.1.1, pm, BitVec.ofNat 8 i), r.2)
          else .ok (.yield (none, r.1.1, pm &&& ~~~bitOf (trailingZeros pm), BitVec.ofNat 8 (i + 1)), r.2) :
            Except Fault (ForInStep (Option (U × Bool) × U × BitVec 32 × BitVec 8) × St K V)) fun r => thenE (run (next f m r.1) r.2) F)
        = run (if r.1.2 then scanItems visit rec l tmap n (i + 1) (pm &&& ~~~bitOf (trailingZeros pm)) r.1.1 else pure (r.1.1, false)) r.2 := by
      rintro ⟨⟨u', go⟩, s'⟩
      cases go with
      | false => lit [Bool.not_false, hr]
      | true => lit [Bool.not_true]; exact ih _ _ _ _ _ (by omega) (by omega)
    simp only [this, run_ite, thenE_ite, thenE_assoc, run_bind]

theorem lt_count {i n : Nat} (hi : i ≤ n) (hn : n ≤ 32) : (!decide (BitVec.ofNat 8 i < BitVec.ofNat 8 n)) = decide (i = n) := by
  have : BitVec.ofNat 8 i < BitVec.ofNat 8 n ↔ i < n := by
    rw [BitVec.lt_def, ofNat_toNat (by omega), ofNat_toNat (by omega)]
  by_cases h : i = n
  · rw [decide_eq_true h, decide_eq_false (by rw [this]; omega)]; rfl
  · rw [decide_eq_false h, decide_eq_true (by rw [this]; omega)]; rfl

theorem lit_tz (x : BitVec 32) : 1#32 <<< BitVec.ofNat 8 (trailingZeros x) = bitOf (trailingZeros x) :=
  bit_eq (by have := tz_le x; omega)

theorem small_toNat {i n : Nat} (h : i ≤ n) (hn : n ≤ 32) : (BitVec.ofNat 8 i).toNat = i := ofNat_toNat (by omega)

set_option hygiene false in
/-- A translated scan function `f` with the callback `visit`. -/
macro "scan_eq" f:ident visit:term:max : tactic => `(tactic| (
  intro n
  induction n with
  | zero => intro u l; rfl
  | succ n ih =>
    intro u l
    funext s
    show run ($f do_ (n + 1) u l) s = run (scan $visit (n + 1) u l) s
    unfold $f scan
    lit [forIn_loop]
    rcases run_load l s with ⟨e, he⟩ | ⟨lk, hl⟩
    · lit [he]
    lit [hl]
    rw [scan_loop $visit (scan $visit n) l lk.tmap (popcount lk.pmap) (popcount_le _)
      ?_ ?_ ?_ (popcount lk.pmap) (n + 300) 0 lk.pmap u s (by omega) (by have := popcount_le lk.pmap; omega)]
    · intro u pm i s hi
      have hn := popcount_le lk.pmap
      dsimp only
      rw [lt_count hi hn, succ_small hi hn, lit_tz, small_toNat hi hn]
      simp only [decide_eq_true_eq, bne_iff_ne, ih]
      split
      · rfl
      · lit [thenE_ok]
        all_goals
          congr 1
          funext x
          split
          · rcases run_load ⟨x.1.ptr, i⟩ x.2 with ⟨e, he⟩ | ⟨y, hy⟩
            · lit [he]
            · lit [hy]
          · rfl
    · intro r t s; rfl
    · intro u t s; rfl))

/-- The item callback of the maps whose keys are in the cells. -/
def visitKv {U : Type} (do_ : U → K → Ptr → M K V (U × Bool)) (u : U) (x : Link) : M K V (U × Bool) := do
  do_ u (← kvKey x.ptr) (← fieldAddr x.ptr)

/-- The item callback of `IntMap`. -/
def visitInt {U : Type} (do_ : U → IntKey → Ptr → M IntKey V (U × Bool)) (u : U) (x : Link) : M IntKey V (U × Bool) := do
  do_ u (x.pmap.setWidth 64 ||| (x.tmap.setWidth 64 <<< 32)) (← fieldAddr x.ptr)

/-- The item callback of the sets whose keys are in the cells. -/
def visitK {U : Type} (do_ : U → K → M K V (U × Bool)) (u : U) (x : Link) : M K V (U × Bool) := do
  do_ u (← kvKey x.ptr)

/-- The item callback of `IntSet`. -/
def visitI {U : Type} (do_ : U → IntKey → M IntKey V (U × Bool)) (u : U) (x : Link) : M IntKey V (U × Bool) :=
  do_ u (x.pmap.setWidth 64 ||| (x.tmap.setWidth 64 <<< 32))

theorem Map.mapScan_eq [Inhabited V] {U : Type} (do_ : U → K → Amt.Ptr → M K V (U × Bool)) : ∀ n u l,
    Map.mapScan do_ n u l = scan (visitKv do_) n u l := by
  unfold visitKv
  scan_eq Map.mapScan (fun u x => do do_ u (← kvKey x.ptr) (← fieldAddr x.ptr))

theorem ArrMap.arrScan_eq [Inhabited V] {U : Type} (do_ : U → K → Amt.Ptr → M K V (U × Bool)) : ∀ n u l,
    ArrMap.arrScan do_ n u l = scan (visitKv do_) n u l := by
  unfold visitKv
  scan_eq ArrMap.arrScan (fun u x => do do_ u (← kvKey x.ptr) (← fieldAddr x.ptr))

theorem StringMap.stringScan_eq [Inhabited V] {U : Type} (do_ : U → ByteStr → Amt.Ptr → M ByteStr V (U × Bool)) : ∀ n u l,
    StringMap.stringScan do_ n u l = scan (visitKv do_) n u l := by
  unfold visitKv
  scan_eq StringMap.stringScan (fun u x => do do_ u (← kvKey x.ptr) (← fieldAddr x.ptr))

theorem BytesMap.bytesScan_eq [Inhabited V] {U : Type} (do_ : U → ByteStr → Amt.Ptr → M ByteStr V (U × Bool)) : ∀ n u l,
    BytesMap.bytesScan do_ n u l = scan (visitKv do_) n u l := by
  unfold visitKv
  scan_eq BytesMap.bytesScan (fun u x => do do_ u (← kvKey x.ptr) (← fieldAddr x.ptr))

theorem IntMap.intScan_eq [Inhabited V] {U : Type} (do_ : U → IntKey → Amt.Ptr → M IntKey V (U × Bool)) : ∀ n u l,
    IntMap.intScan do_ n u l = scan (visitInt do_) n u l := by
  unfold visitInt
  scan_eq IntMap.intScan (fun u x => do do_ u (x.pmap.setWidth 64 ||| (x.tmap.setWidth 64 <<< 32)) (← fieldAddr x.ptr))

theorem Set.setScan_eq {U : Type} (do_ : U → K → M K Unit (U × Bool)) : ∀ n u l, Set.setScan do_ n u l = scan (visitK do_) n u l := by
  unfold visitK
  scan_eq Set.setScan (fun u x => do do_ u (← kvKey x.ptr))

theorem ArrSet.arrSetScan_eq {U : Type} (do_ : U → K → M K Unit (U × Bool)) : ∀ n u l,
    ArrSet.arrSetScan do_ n u l = scan (visitK do_) n u l := by
  unfold visitK
  scan_eq ArrSet.arrSetScan (fun u x => do do_ u (← kvKey x.ptr))

theorem StringSet.stringSetScan_eq {U : Type} (do_ : U → ByteStr → M ByteStr Unit (U × Bool)) : ∀ n u l,
    StringSet.stringSetScan do_ n u l = scan (visitK do_) n u l := by
  unfold visitK
  scan_eq StringSet.stringSetScan (fun u x => do do_ u (← kvKey x.ptr))

theorem BytesSet.bytesSetScan_eq {U : Type} (do_ : U → ByteStr → M ByteStr Unit (U × Bool)) : ∀ n u l,
    BytesSet.bytesSetScan do_ n u l = scan (visitK do_) n u l := by
  unfold visitK
  scan_eq BytesSet.bytesSetScan (fun u x => do do_ u (← kvKey x.ptr))

theorem IntSet.intSetScan_eq {U : Type} (do_ : U → IntKey → M IntKey Unit (U × Bool)) : ∀ n u l,
    IntSet.intSetScan do_ n u l = scan (visitI do_) n u l := by
  unfold visitI
  scan_eq IntSet.intSetScan (fun u x => do_ u (x.pmap.setWidth 64 ||| (x.tmap.setWidth 64 <<< 32)))

end

end Amt.Go
