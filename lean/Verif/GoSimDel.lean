/-
The translated `Del` does what `delete` of `Model.lean`, with the scratch area of `Scratch.lean`, does.
-/
import Verif.GoUnlink
import Verif.GoSimIns

set_option linter.unusedVariables false
set_option linter.unusedSectionVars false
set_option linter.unusedSimpArgs false

namespace Amt.Go
open Amt

section
variable {K V R : Type}

/-- The slice that holds `path`. -/
def sliceOf (scratch : List PathLink) (path : List PathLink) : Slice := path.foldl Slice.append (Slice.empty scratch)

theorem sliceOf_snoc (scratch path : List PathLink) (e : PathLink) : sliceOf scratch (path ++ [e]) = (sliceOf scratch path).append e := by
  rw [sliceOf, List.foldl_append]
  rfl

theorem take_radices {xs : List PathLink} (n : Nat) {e : PathLink} (hx : ∀ y ∈ xs, y.1 < 16) (he : e.1 < 16) : ∀ y ∈ (xs ++ [e]).take n, y.1 < 16 := by
  intro x h
  rcases List.mem_append.1 (List.mem_of_mem_take h) with h | h
  · exact hx x h
  · rw [List.mem_singleton.1 h]; exact he

theorem append_radices {p : Slice} (hp : Radices p) {e : PathLink} (he : e.1 < 16) : Radices (p.append e) := by
  obtain ⟨arr, big, len⟩ := p
  cases big with
  | none =>
    rw [Slice.append]
    dsimp only
    by_cases hl : len < arr.length
    · rw [if_pos hl]
      intro x hx
      simp only [Slice.view] at hx
      obtain ⟨i, hi⟩ := List.getElem?_of_mem hx
      rw [List.getElem?_take] at hi
      by_cases hlt : i < len + 1
      · rw [if_pos hlt, List.getElem?_set] at hi
        by_cases hil : len = i
        · rw [if_pos hil, if_pos (by omega)] at hi
          cases hi; exact he
        · rw [if_neg hil] at hi
          refine hp x (List.mem_of_getElem? (i := i) ?_)
          simp only [Slice.view]
          rw [List.getElem?_take, if_pos (by omega)]
          exact hi
      · rw [if_neg hlt] at hi; cases hi
    · rw [if_neg hl]
      exact take_radices _ hp he
  | some b => exact take_radices _ hp he

theorem sliceOf_radices (scratch : List PathLink) {path : List PathLink} (h : ∀ e ∈ path, e.1 < 16) : Radices (sliceOf scratch path) := by
  have key : ∀ (path : List PathLink) (p : Slice), Radices p → (∀ e ∈ path, e.1 < 16) → Radices (path.foldl Slice.append p) := by
    intro path
    induction path with
    | nil => intro p hp _; exact hp
    | cons e path ih =>
      intro p hp h
      exact ih _ (append_radices hp (h e (List.mem_cons_self ..))) fun x hx => h x (List.mem_cons_of_mem _ hx)
  exact key path _ (by intro e he; simp [Slice.view, Slice.empty] at he) h

theorem radixOf_lt (hd : BitVec 64) : radixOf hd < 16 := by
  have := radix_toNat hd
  rw [← this, BitVec.toNat_setWidth, BitVec.toNat_and]
  exact Nat.lt_of_le_of_lt (Nat.mod_le _ _) (Nat.lt_of_le_of_lt Nat.and_le_right (by decide))

theorem snoc_radices {path : List PathLink} (h : ∀ e ∈ path, e.1 < 16) (hd : BitVec 64) (l : Option Ref) : ∀ e ∈ path ++ [(radixOf hd, l)], e.1 < 16 := by
  intro e he
  rcases List.mem_append.1 he with h' | h'
  · exact h e h'
  · rw [List.mem_singleton.1 h']; exact radixOf_lt hd

theorem walk_radices (c : Cfg K) (sd : Seed) (key : K) {s s' : St K V} : ∀ n cur r, (∀ e ∈ cur.path, e.1 < 16) → run (walk c sd key n cur) s = .ok (r, s') →
    ∀ e ∈ r.1.path, e.1 < 16 := by
  intro n
  induction n with
  | zero =>
    intro cur r hc h
    rw [walk] at h
    obtain ⟨_, _, _, h⟩ := ok_bind h
    cases h
  | succ n ih =>
    intro cur r hc h
    rw [walk] at h
    obtain ⟨lk, s1, h1, h⟩ := ok_bind h
    cases run_load_state h1
    dsimp only at h
    split at h
    · split at h
      · refine ih _ _ ?_ h
        rw [descend_path]
        exact snoc_radices hc _ _
      · cases h; exact hc
    · cases h; exact hc

/-- `deleteS`, by `walk`. -/
def deleteX (c : Cfg K) (h n : Nat) (skip : Bool → Bool) (key : K) (scratch : List PathLink) : M K V (List PathLink) := do
  let r ← getRoot h
  let (cur, hit) ← searchX c r.seed key n (start c r.seed key h)
  if hit then do
    let p ← removeS c h skip key cur (sliceOf scratch cur.path)
    pure p.arr
  else pure (sliceOf scratch cur.path).arr

/-- The variables of the search loop of `Del`. -/
def byteStD {ρ : Type} (scratch : List PathLink) (sd : Seed) (kb : List UInt8) (cur : Cur) (idx : BitVec 8) :
    Option ρ × Slice × Hasher × BitVec 64 × Ref × BitVec 8 × BitVec 8 × BitVec 32 × BitVec 8 :=
  (none, sliceOf scratch cur.path, (byteSt (ρ := Unit) sd kb cur idx).2)

/-- The variables of the search loop of `Map.Del`. -/
def genStD {ρ : Type} (scratch : List PathLink) (cur : Cur) (idx : BitVec 8) :
    Option ρ × Slice × BitVec 64 × Ref × BitVec 8 × BitVec 8 × BitVec 32 × BitVec 8 :=
  (none, sliceOf scratch cur.path, (genSt (ρ := Unit) cur idx).2)

set_option hygiene false in
/-- As `byte_find`, for `Del`. -/
macro "byte_del" c:term:max sd:term:max st:term:max key:term:max n:term:max h:term:max s:ident cfg:ident hit:tactic : tactic => `(tactic| (
  rcases run_load (linkOf $h) $s with ⟨e, he⟩ | ⟨lk, hl⟩
  · rw [he, walk_err _ _ _ _ _ he]
    rfl
  rw [hl, thenE_ok]
  rw [loop_walk $c $sd $key $st (s := $s) ?_ $n (start $c $sd $key $h) lk _ (Nat.zero_lt_succ _) hl ?_]
  rotate_left
  · intro cur lk hd hl hp ht
    dsimp only [byteStD, byteSt]
    lit [hl, ne_test hp, eq_test ht, succ_eq, rank_toNat]
    rw [mod16 (by omega)]
    simp only [decide_eq_true_eq, descend, write_flat, sum64_flat]
    split
    · lit [lit_bit, lit_rank, sliceOf_snoc, radix_toNat]
    · lit [lit_bit, lit_rank, $cfg:ident, id_eq, sliceOf_snoc, radix_toNat]
  · rw [lit_bit, lit_rank]
    rfl
  · cases hw : run (walk $c $sd $key $n (start $c $sd $key $h)) $s with
    | error e => rfl
    | ok r =>
      obtain ⟨⟨cur, lk, hit, m⟩, s'⟩ := r
      obtain ⟨h1, h2, h3, h4, h5⟩ := walk_ends _ _ _ _ _ _ ⟨Nat.zero_lt_succ _, rfl⟩ hw
      have h6 := walk_radices _ _ _ _ _ _ (by intro e he; cases he) hw
      subst h1
      dsimp only at h2 h3 h4 h5 h6
      (dsimp only [byteStD, byteSt])
      $hit))

set_option hygiene false in
/-- The key is found, and taken out or not. -/
macro "del_tail" : tactic => `(tactic| (
  have e := delTail_eq hs n h (p := (sliceOf scratch cur.path).append (radixOf cur.hd, some cur.l)) (by rw [← sliceOf_snoc]; exact sliceOf_radices _ (snoc_radices h6 _ _))
    h2 h3.d (rankOf_le lk.pmap (radixOf cur.hd)) ((cur.hd &&& 15#64).setWidth 8) (bitOf (radixOf cur.hd))
  refine Eq.trans ?_ (e.trans ?_)
  · unfold delTail
    lit [forIn_loop, h2, radix_toNat]
  · unfold delL
    lit [h2, sliceOf_snoc]))

set_option hygiene false in
/-- The keys are compared. -/
macro "skip_key" c:term:max q:term:max t:term:max : tactic => `(tactic| (
  by_cases hq : $q = true
  · simp only [if_pos hq]
    rw [if_pos (show $t = true from hq)]
    lit [sliceOf_snoc, radix_toNat]
  simp only [if_neg hq]
  rw [if_neg (show ¬$t = true from hq)]
  del_tail))

set_option hygiene false in
/-- The search ended at a key: the key is read from its cell. -/
macro "boxed_del" c:term:max key:term:max : tactic => `(tactic| (
  lit [h2, ne_test (h4 rfl).1, ne_test' (h4 rfl).2, rank_toNat, ended, removeS, itemRef, readKey_kvKey (c := $c) rfl]
  rcases run_load ⟨lk.ptr, rankOf lk.pmap (radixOf cur.hd)⟩ s' with ⟨e, he⟩ | ⟨x, hx⟩
  · lit [he]
  lit [hx]
  rcases hk : run (kvKey x.ptr) s' with e | ⟨ckey, s2⟩
  · lit [thenE_ok]
  cases kvKey_state hk
  lit [goEq_comm _ $key]))

set_option hygiene false in
/-- The search ended at a key: the key is in the link. -/
macro "inline_del" c:term:max key:term:max : tactic => `(tactic| (
  lit [h2, ne_test (h4 rfl).1, ne_test' (h4 rfl).2, rank_toNat, ended, removeS, itemRef]
  rcases run_load ⟨lk.ptr, rankOf lk.pmap (radixOf cur.hd)⟩ s' with ⟨e, he⟩ | ⟨x, hx⟩
  · lit [he]
  have hk : run (readKey $c x) s' = .ok (x.pmap.setWidth 64 ||| (x.tmap.setWidth 64 <<< 32), s') := rfl
  lit [hx, goEq_comm _ $key]
  rw [hk]
  (lit [thenE_ok])
  generalize x.pmap.setWidth 64 ||| (x.tmap.setWidth 64 <<< 32) = ckey))

theorem ArrMap.Del_eq [DecidableEq K] [Inhabited V] (sum : Maphash) (kb : K → List UInt8) (n h : Nat) (key : K) (scratch : List PathLink) {s : St K V} (hs : Tidy s) :
    run (ArrMap.Del sum kb n (some h) key scratch) s = run (deleteX (boxedCfg sum kb) h (n + 300) (fun b => !b) key scratch) s := by
  obtain ⟨rk, hs⟩ := hs
  unfold ArrMap.Del deleteX searchX
  lit [forIn_loop, write_new, sum64_flat, Slice.ofRoot]
  byte_del (boxedCfg sum kb) (s.roots h).seed (byteStD scratch (s.roots h).seed (kb key)) key (n + 300) h s boxedCfg
    (cases hit with
     | false => lit [h2, eq_test' (h5 rfl), ended]
     | true =>
       boxed_del (boxedCfg sum kb) key
       skip_key (boxedCfg sum kb) (!(goEq key ckey)) (!(Cfg.eq (boxedCfg sum kb) key ckey)))

theorem StringMap.Del_eq [Inhabited V] (sum : Maphash) (n h : Nat) (key : ByteStr) (scratch : List PathLink) {s : St ByteStr V} (hs : Tidy s) :
    run (StringMap.Del sum n (some h) key scratch) s = run (deleteX (boxedCfg sum id) h (n + 300) (fun b => !b) key scratch) s := by
  rw [show StringMap.Del sum n (some h) key scratch = ArrMap.Del sum id n (some h) key scratch from rfl]
  exact ArrMap.Del_eq sum id n h key scratch hs

theorem BytesMap.Del_eq [Inhabited V] (sum : Maphash) (n h : Nat) (key : ByteStr) (scratch : List PathLink) {s : St ByteStr V} (hs : Tidy s) :
    run (BytesMap.Del sum n (some h) key scratch) s = run (deleteX (boxedCfg sum id) h (n + 300) (fun b => !b) key scratch) s := by
  rw [show BytesMap.Del sum n (some h) key scratch = ArrMap.Del sum id n (some h) key scratch from rfl]
  exact ArrMap.Del_eq sum id n h key scratch hs

theorem IntMap.Del_eq [Inhabited V] (sum : Maphash) (n h : Nat) (key : IntKey) (scratch : List PathLink) {s : St IntKey V} (hs : Tidy s) :
    run (IntMap.Del sum n (some h) key scratch) s = run (deleteX (intCfg .inline sum) h (n + 300) (fun b => !b) key scratch) s := by
  obtain ⟨rk, hs⟩ := hs
  unfold IntMap.Del deleteX searchX
  lit [forIn_loop, write_new, sum64_flat, Slice.ofRoot]
  byte_del (intCfg .inline sum) (s.roots h).seed (byteStD scratch (s.roots h).seed (intbytes key)) key (n + 300) h s intCfg
    (cases hit with
     | false => lit [h2, eq_test' (h5 rfl), ended]
     | true =>
       inline_del (intCfg .inline sum) key
       skip_key (intCfg .inline sum) (!(goEq key ckey)) (!(Cfg.eq (intCfg .inline sum) key ckey)))

theorem ArrSet.Del_eq [DecidableEq K] (sum : Maphash) (kb : K → List UInt8) (n h : Nat) (key : K) (scratch : List PathLink) {s : St K Unit} (hs : Tidy s) :
    run (ArrSet.Del sum kb n (some h) key scratch) s = run (deleteX (boxedCfg sum kb) h (n + 300) (fun b => !b) key scratch) s := by
  obtain ⟨rk, hs⟩ := hs
  unfold ArrSet.Del deleteX searchX
  lit [forIn_loop, write_new, sum64_flat, Slice.ofRoot]
  byte_del (boxedCfg sum kb) (s.roots h).seed (byteStD scratch (s.roots h).seed (kb key)) key (n + 300) h s boxedCfg
    (cases hit with
     | false => lit [h2, eq_test' (h5 rfl), ended]
     | true =>
       boxed_del (boxedCfg sum kb) key
       skip_key (boxedCfg sum kb) (!(goEq key ckey)) (!(Cfg.eq (boxedCfg sum kb) key ckey)))

theorem StringSet.Del_eq (sum : Maphash) (n h : Nat) (key : ByteStr) (scratch : List PathLink) {s : St ByteStr Unit} (hs : Tidy s) :
    run (StringSet.Del sum n (some h) key scratch) s = run (deleteX (boxedCfg sum id) h (n + 300) (fun b => !b) key scratch) s := by
  rw [show StringSet.Del sum n (some h) key scratch = ArrSet.Del sum id n (some h) key scratch from rfl]
  exact ArrSet.Del_eq sum id n h key scratch hs

theorem BytesSet.Del_eq (sum : Maphash) (n h : Nat) (key : ByteStr) (scratch : List PathLink) {s : St ByteStr Unit} (hs : Tidy s) :
    run (BytesSet.Del sum n (some h) key scratch) s = run (deleteX (boxedCfg sum id) h (n + 300) (fun b => b) key scratch) s := by
  obtain ⟨rk, hs⟩ := hs
  unfold BytesSet.Del deleteX searchX
  lit [forIn_loop, write_new, sum64_flat, Slice.ofRoot, bytesEqual_eq]
  byte_del (boxedCfg sum id) (s.roots h).seed (byteStD scratch (s.roots h).seed (key)) key (n + 300) h s boxedCfg
    (cases hit with
     | false => lit [h2, eq_test' (h5 rfl), ended]
     | true =>
       boxed_del (boxedCfg sum id) key
       skip_key (boxedCfg sum id) (goEq key ckey) (Cfg.eq (boxedCfg sum id) key ckey))

theorem IntSet.Del_eq (sum : Maphash) (n h : Nat) (key : IntKey) (scratch : List PathLink) {s : St IntKey Unit} (hs : Tidy s) :
    run (IntSet.Del sum n (some h) key scratch) s = run (deleteX (intSetCfg sum) h (n + 300) (fun b => !b) key scratch) s := by
  obtain ⟨rk, hs⟩ := hs
  unfold IntSet.Del deleteX searchX
  lit [forIn_loop, write_new, sum64_flat, Slice.ofRoot]
  byte_del (intSetCfg sum) (s.roots h).seed (byteStD scratch (s.roots h).seed (intbytes key)) key (n + 300) h s intSet_digest
    (cases hit with
     | false => lit [h2, eq_test' (h5 rfl), ended]
     | true =>
       inline_del (intSetCfg sum) key
       skip_key (intSetCfg sum) (!(goEq key ckey)) (!(Cfg.eq (intSetCfg sum) key ckey)))

set_option hygiene false in
/-- As `gen_find`, for `Del`. -/
macro "gen_del" c:term:max sd:term:max st:term:max key:term:max n:term:max h:term:max s:ident hit:tactic : tactic => `(tactic| (
  rcases run_load (linkOf $h) $s with ⟨e, he⟩ | ⟨lk, hl⟩
  · rw [he, walk_err _ _ _ _ _ he]
    rfl
  rw [hl, thenE_ok]
  rw [loop_walk $c $sd $key $st (s := $s) ?_ $n (start $c $sd $key $h) lk _ (Nat.zero_lt_succ _) hl ?_]
  rotate_left
  · intro cur lk hd hl hp ht
    dsimp only [genStD, genSt]
    lit [hl, ne_test hp, eq_test ht, succ_eq, rank_toNat]
    rw [and15 (by omega)]
    simp only [decide_eq_true_eq, descend]
    split
    · lit [lit_bit, lit_rank, sliceOf_snoc, radix_toNat]
    · lit [lit_bit, lit_rank, genericCfg, shr4 (Nat.mod_lt _ (by decide : 0 < 256)), sliceOf_snoc, radix_toNat]
  · rw [lit_bit, lit_rank]
    rfl
  · cases hw : run (walk $c $sd $key $n (start $c $sd $key $h)) $s with
    | error e => rfl
    | ok r =>
      obtain ⟨⟨cur, lk, hit, m⟩, s'⟩ := r
      obtain ⟨h1, h2, h3, h4, h5⟩ := walk_ends _ _ _ _ _ _ ⟨Nat.zero_lt_succ _, rfl⟩ hw
      have h6 := walk_radices _ _ _ _ _ _ (by intro e he; cases he) hw
      subst h1
      dsimp only at h2 h3 h4 h5 h6
      (dsimp only [genStD, genSt])
      $hit))

theorem Map.Del_eq [Inhabited V] (I : KeyImpl K) (n h : Nat) (key : K) (scratch : List PathLink) {s : St K V} (hs : Tidy s) :
    run (Map.Del I n (some h) key scratch) s = run (deleteX (genericCfg I) h (n + 300) (fun b => !b) key scratch) s := by
  obtain ⟨rk, hs⟩ := hs
  unfold Map.Del deleteX searchX
  lit [forIn_loop, Slice.ofRoot]
  gen_del (genericCfg I) (s.roots h).seed (genStD scratch) key (n + 300) h s
    (cases hit with
     | false => lit [h2, eq_test' (h5 rfl), ended]
     | true =>
       lit [h2, ne_test (h4 rfl).1, ne_test' (h4 rfl).2, rank_toNat, ended, removeS, itemRef, readKey_kvKey (c := genericCfg I) rfl]
       rcases run_load ⟨lk.ptr, rankOf lk.pmap (radixOf cur.hd)⟩ s' with ⟨e, he⟩ | ⟨x, hx⟩
       · lit [he]
       lit [hx]
       rcases hk : run (kvKey x.ptr) s' with e | ⟨ckey, s2⟩
       · lit [thenE_ok]
       cases kvKey_state hk
       lit [thenE_ok]
       skip_key (genericCfg I) (!(I.equal key ckey)) (!(Cfg.eq (genericCfg I) key ckey)))

theorem Set.Del_eq (I : KeyImpl K) (n h : Nat) (key : K) (scratch : List PathLink) {s : St K Unit} (hs : Tidy s) :
    run (Set.Del I n (some h) key scratch) s = run (deleteX (genericCfg I) h (n + 300) (fun b => !b) key scratch) s := by
  obtain ⟨rk, hs⟩ := hs
  unfold Set.Del deleteX searchX
  lit [forIn_loop, Slice.ofRoot]
  gen_del (genericCfg I) (s.roots h).seed (genStD scratch) key (n + 300) h s
    (cases hit with
     | false => lit [h2, eq_test' (h5 rfl), ended]
     | true =>
       lit [h2, ne_test (h4 rfl).1, ne_test' (h4 rfl).2, rank_toNat, ended, removeS, itemRef, readKey_kvKey (c := genericCfg I) rfl]
       rcases run_load ⟨lk.ptr, rankOf lk.pmap (radixOf cur.hd)⟩ s' with ⟨e, he⟩ | ⟨x, hx⟩
       · lit [he]
       lit [hx]
       rcases hk : run (kvKey x.ptr) s' with e | ⟨ckey, s2⟩
       · lit [thenE_ok]
       cases kvKey_state hk
       lit [thenE_ok]
       skip_key (genericCfg I) (!(I.equal key ckey)) (!(Cfg.eq (genericCfg I) key ckey)))

end

end Amt.Go
