/-
The translated `Set`, `Mod` and `Add` do what `upsert` of `Model.lean` does.
-/
import Verif.GoLevel
import Verif.GoSimRead

set_option linter.unusedVariables false
set_option linter.unusedSectionVars false
set_option linter.unusedSimpArgs false

namespace Amt.Go
open Amt

section
variable {K V R : Type}

/-- `upsert` with the search bound of the translation, and with the cell for a free slot made as late as in Go. -/
def upsertL (c : Cfg K) (h n : Nat) (key : K) (ins : Ins K V R) (cell : M K V Ptr) (r : R) : M K V R := do
  let m ← getRoot h
  let (cur, hit) ← searchX c m.seed key n (start c m.seed key h)
  if hit then conflict c m.seed h n key ins cur
  else do
    let lk ← load cur.l
    slotL h cur.l cur.d (rankOf lk.pmap (radixOf cur.hd)) (bitOf (radixOf cur.hd)) cell (mkLink c key) r

theorem thenE_id {α : Type} (x : Except Fault α) : thenE x .ok = x := by
  cases x <;> rfl

/-- The loop that hashes the conflicting key. -/
theorem chw_loop {β : Type} (sd : Seed) (kb : List UInt8) {d : Nat} (hd : d < 256) {f : Hasher × BitVec 8 → M K V (ForInStep (Hasher × BitVec 8))}
    (hf : ∀ x cd s, run (f (x, cd)) s = if (!decide (cd ≤ BitVec.ofNat 8 d)) = true then .ok (.done (x, cd), s) else .ok (.yield (x.write kb, cd + 16#8), s))
    {F : (Hasher × BitVec 8) × St K V → Except Fault β} (hF : ∀ x cd s, F ((x, cd), s) = F ((x, 0#8), s)) :
    ∀ n cd w s, cd < 256 → thenE (run (loop f n (⟨sd, flat kb w⟩, BitVec.ofNat 8 cd)) s) F = thenE (chwLoop d n cd w) fun w => F ((⟨sd, flat kb w⟩, 0#8), s) := by
  intro n
  induction n with
  | zero => intro cd w s hcd; rfl
  | succ n ih =>
    intro cd w s hcd
    have hle : BitVec.ofNat 8 cd ≤ BitVec.ofNat 8 d ↔ cd ≤ d := by
      rw [BitVec.le_def, ofNat_toNat hcd, ofNat_toNat hd]
    rw [loop_succ, run_bind, hf, chwLoop]
    by_cases h : cd ≤ d
    · rw [decide_eq_true (hle.2 h), if_pos h]
      lit [Bool.not_true, write_flat]
      have : BitVec.ofNat 8 cd + 16#8 = BitVec.ofNat 8 ((cd + 16) % 256) := by
        apply BitVec.eq_of_toNat_eq
        simp only [BitVec.toNat_add, BitVec.toNat_ofNat]
        omega
      rw [this]
      exact ih _ _ _ (by omega)
    · rw [decide_eq_false (fun hh => h (hle.1 hh)), if_neg h]
      lit [Bool.not_false, hF]

/-- See `chw_loop`. -/
theorem chw_run {β : Type} (sd : Seed) (kb : List UInt8) {d : Nat} (hd : d < 256) {f : Hasher × BitVec 8 → M K V (ForInStep (Hasher × BitVec 8))}
    (hf : ∀ x cd s, run (f (x, cd)) s = if (!decide (cd ≤ BitVec.ofNat 8 d)) = true then .ok (.done (x, cd), s) else .ok (.yield (x.write kb, cd + 16#8), s))
    {F : (Hasher × BitVec 8) × St K V → Except Fault β} (hF : ∀ x cd s, F ((x, cd), s) = F ((x, 0#8), s)) (x : Hasher) (n : Nat) (s : St K V) :
    thenE (run (loop f n (x.setSeed sd, 0#8)) s) F = thenE (chwLoop d n 0 0) fun w => F ((⟨sd, flat kb w⟩, 0#8), s) :=
  chw_loop sd kb hd hf hF n 0 0 s (by decide)

theorem liftE_byteChash (sum : Maphash) (kb : K → List UInt8) (sd : Seed) (key ckey : K) (d n : Nat) (s : St K V) :
    run (liftE (byteChash sum kb sd key ckey d n)) s = thenE (chwLoop d n 0 0) fun w => .ok ((digestOf sum sd (kb ckey) w >>> (4 * (d % 16)), w), s) := by
  unfold byteChash
  cases chwLoop d n 0 0 <;> rfl

theorem mod16p {d : Nat} (h : d < 256) : ((BitVec.ofNat 8 d % 16#8 != 0#8) = true) = (d % 16 ≠ 0) := by
  rw [mod16 h, decide_eq_true_eq]

theorem and15p {d : Nat} (h : d < 256) : ((BitVec.ofNat 8 d &&& 15#8 != 0#8) = true) = (d % 16 ≠ 0) := by
  rw [and15 h, decide_eq_true_eq]

/-- `x >> (4 * (d % 16))`. -/
theorem shr_chd (x : BitVec 64) {d : Nat} (h : d < 256) : x >>> (4#8 * (BitVec.ofNat 8 d % 16#8)) = x >>> (4 * (d % 16)) := by
  show x >>> (4#8 * (BitVec.ofNat 8 d % 16#8)).toNat = _
  congr 1
  simp only [BitVec.toNat_mul, BitVec.toNat_umod, BitVec.toNat_ofNat]
  show 4 * (d % 256 % 16) % 256 = _
  omega

theorem kvKey_state {p : Ptr} {s t : St K V} {k : K} (h : run (kvKey p) s = .ok (k, t)) : t = s := by
  unfold kvKey at h
  obtain ⟨kv, s1, h1, h2⟩ := ok_bind h
  have : s1 = s := by
    unfold run loadKv at h1
    split at h1
    · cases h1
    · split at h1 <;> cases h1
      rfl
  subst this
  split at h2
  · cases h2
  · cases h2; rfl

theorem Makes.kv (c : Cfg K) (key : K) (v : V) (r : R) : Makes (do let p ← newKv c key v; pure (p, r) : M K V (Ptr × R)) := by
  intro rk s x t hs he
  unfold newKv at he
  cases hc : c.store <;> rw [hc] at he
  · cases he
    exact ⟨Step.grow_kv hs _ _, Nat.le_succ _, grow_keeps _ _, fun _ => Up.cell rk⟩
  · cases he
    exact ⟨Step.grow_kv hs _ _, Nat.le_succ _, grow_keeps _ _, fun _ => Up.cell rk⟩
  · cases he
    exact ⟨hs, Nat.le_refl _, fun _ _ => rfl, fun _ => Up.nil⟩

/-- The variables of the loop that pushes two keys down. -/
def pushSt (sd : Seed) (kb ckb : List UInt8) (p : Spl) : Hasher × BitVec 64 × BitVec 8 × Ref × Hasher × BitVec 64 :=
  (⟨sd, flat kb p.w⟩, p.hd, BitVec.ofNat 8 p.d, p.item, ⟨sd, flat ckb p.cw⟩, p.chd)

/-- A new cell, and the callback on it (e.g. string_map.go:274-275, 290-291). -/
def modNew {U : Type} [Inhabited V] (c : Cfg K) (key : K) (mod : U → Ptr → Bool → M K V U) (u : U) : M K V (Ptr × U) := do
  let p ← newKv c key default
  let q ← fieldAddr p
  let u ← mod u q false
  pure (p, u)

/-- `Mod` with any program as the callback. -/
def modG {U : Type} [Inhabited V] (c : Cfg K) (chash : Chash K) (guard : Bool) (key : K) (mod : U → Ptr → Bool → M K V U) (u : U) : Ins K V U where
  chash := chash
  guard := guard
  hit p := do
    let q ← fieldAddr p
    mod u q true
  newSplit := modNew c key mod u
  newSlot := modNew c key mod u

/-- The variables of the search loop of `Mod`. -/
def byteStU {ρ U : Type} (u : U) (sd : Seed) (kb : List UInt8) (cur : Cur) (idx : BitVec 8) :
    Option ρ × U × Hasher × BitVec 64 × Ref × BitVec 8 × BitVec 8 × BitVec 32 × BitVec 8 :=
  (none, u, (byteSt (ρ := Unit) sd kb cur idx).2)

set_option hygiene false in
/-- As `byte_search`, for variables `st`. -/
macro "byte_find" c:term:max sd:term:max st:term:max unf:ident key:term:max n:term:max h:term:max s:ident cfg:ident hit:tactic : tactic => `(tactic| (
  rcases run_load (linkOf $h) $s with ⟨e, he⟩ | ⟨lk, hl⟩
  · rw [he, walk_err _ _ _ _ _ he]
    rfl
  rw [hl, thenE_ok]
  rw [loop_walk $c $sd $key $st (s := $s) ?_ $n (start $c $sd $key $h) lk _ (Nat.zero_lt_succ _) hl ?_]
  rotate_left
  · intro cur lk hd hl hp ht
    dsimp only [$unf:ident, byteSt]
    lit [hl, ne_test hp, eq_test ht, succ_eq, rank_toNat]
    rw [mod16 (by omega)]
    simp only [decide_eq_true_eq, descend, write_flat, sum64_flat]
    split
    · lit [lit_bit, lit_rank]
    · lit [lit_bit, lit_rank, $cfg:ident, id_eq]
  · rw [lit_bit, lit_rank]
    rfl
  · cases hw : run (walk $c $sd $key $n (start $c $sd $key $h)) $s with
    | error e => rfl
    | ok r =>
      obtain ⟨⟨cur, lk, hit, m⟩, s'⟩ := r
      obtain ⟨h1, h2, h3, h4, h5⟩ := walk_ends _ _ _ _ _ _ ⟨Nat.zero_lt_succ _, rfl⟩ hw
      subst h1
      dsimp only at h2 h3 h4 h5
      (dsimp only [$unf:ident, byteSt])
      $hit))

set_option hygiene false in
/-- The search ended at a free slot. -/
macro "free_slot" c:term:max key:term:max cell:term:max keeps:term:max r:term:max : tactic => `(tactic| (
  lit [h2, eq_test' (h5 rfl)]
  simp only [ended, h2, thenE_ok]
  have e := slotTail_eq hs (cell := $cell) $keeps (mkLink $c $key) n h h2 h3.d (rankOf_le lk.pmap (radixOf cur.hd)) (bitOf (radixOf cur.hd)) $r
  refine Eq.trans ?_ (e.trans ?_)
  · unfold slotTail
    lit [forIn_loop, h2]
    rfl
  · lit [h2]))

set_option hygiene false in
/-- The search ended at a key: the key is read from its cell. -/
macro "boxed_key" c:term:max key:term:max : tactic => `(tactic| (
  lit [h2, ne_test (h4 rfl).1, ne_test' (h4 rfl).2, rank_toNat, ended, conflict, itemRef, readKey_kvKey (c := $c) rfl]
  rcases run_load ⟨lk.ptr, rankOf lk.pmap (radixOf cur.hd)⟩ s' with ⟨e, he⟩ | ⟨x, hx⟩
  · lit [he]
  lit [hx]
  rcases hk : run (kvKey x.ptr) s' with e | ⟨ckey, s2⟩
  · lit [thenE_ok]
  cases kvKey_state hk
  lit [goEq_comm _ $key]))

set_option hygiene false in
/-- The keys are equal, or not. -/
macro "same_key" c:term:max key:term:max : tactic => `(tactic| (
  by_cases hq : goEq $key ckey = true
  · simp only [if_pos hq]
    rw [if_pos (show Cfg.eq $c $key ckey = true from hq)]
    first | rfl | (simp only [modG]; lit [thenE_ok])
  simp only [if_neg hq]
  rw [if_neg (show ¬Cfg.eq $c $key ckey = true from hq)]))

set_option hygiene false in
/-- Both keys are pushed down. -/
macro "push_down" c:term:max ins:term:max insu:ident key:term:max mk:term:max t:term:max puts:term:max "[" ts:Lean.Parser.Tactic.simpLemma,* "]" : tactic => `(tactic| (
  have k1 := hs.modMaps (r := cur.l) (f := fun y => { y with tmap := y.tmap &&& ~~~bitOf (radixOf cur.hd) }) (by intro _; rfl) (modLink_run h2 _)
  have k2 := k1.rank.modRoot (run_modRoot h (fun m => { m with dep := m.dep - BitVec.ofNat 64 cur.d }) _)
  refine Eq.trans (split_loop _ $c (s'.roots h).seed h $key ckey x.ptr $ins $mk $t
    ?_ (G := .ok) ?_ (n + 300) ⟨⟨lk.ptr, rankOf lk.pmap (radixOf cur.hd)⟩, cur.d, cur.hd, _, cur.w, _⟩
    rk _ h3.d k2.rank (((hs.load hx).step k1).step k2) rfl) ?_
  · intro p rk s hd hs hu hr
    simp only [$insu:ident]
    rw [← levelG_eq (c := $c) $puts (Nat.mod_lt _ (by decide)) _ _ hs hu]
    unfold levelG
    dsimp only [$ts,*, pushSt, Spl.next]
    simp only [succ_eq, mod16p (Nat.mod_lt (p.d + 1) (by decide : 0 < 256)), write_flat, sum64_flat]
    split
    · lit [thenE_ok]; rfl
    · lit [thenE_ok]; rfl
  · intro r t s; rfl
  · exact thenE_id _))

set_option hygiene false in
/-- As `push_down`, without the pointer of the conflicting key (int_set.go:136-140). -/
macro "push_nil" c:term:max ins:term:max insu:ident key:term:max mk:term:max t:term:max puts:term:max "[" ts:Lean.Parser.Tactic.simpLemma,* "]" : tactic => `(tactic| (
  have k1 := hs.modMaps (r := cur.l) (f := fun y => { y with tmap := y.tmap &&& ~~~bitOf (radixOf cur.hd) }) (by intro _; rfl) (modLink_run h2 _)
  have k2 := k1.rank.modRoot (run_modRoot h (fun m => { m with dep := m.dep - BitVec.ofNat 64 cur.d }) _)
  refine Eq.trans (split_loop _ $c (s'.roots h).seed h $key ckey .nil $ins $mk $t
    ?_ (G := .ok) ?_ (n + 300) ⟨⟨lk.ptr, rankOf lk.pmap (radixOf cur.hd)⟩, cur.d, cur.hd, _, cur.w, _⟩
    rk _ h3.d k2.rank Up.nil rfl) ?_
  · intro p rk s hd hs hu hr
    simp only [$insu:ident]
    rw [← levelG_eq (c := $c) $puts (Nat.mod_lt _ (by decide)) _ _ hs hu]
    unfold levelG
    dsimp only [$ts,*, pushSt, Spl.next]
    simp only [succ_eq, mod16p (Nat.mod_lt (p.d + 1) (by decide : 0 < 256)), write_flat, sum64_flat]
    split
    · lit [thenE_ok]; rfl
    · lit [thenE_ok]; rfl
  · intro r t s; rfl
  · exact thenE_id _))

set_option hygiene false in
/-- The hash of the conflicting key. -/
macro "byte_rehash" insu:ident ckb:term:max t:tactic : tactic => `(tactic| (
  rw [chw_run (s'.roots h).seed $ckb h3.d ?_ ?_]
  rotate_left
  · intro x cd s; exact run_ite _ _ _ _
  · intro x cd s; rfl
  simp only [$insu:ident]
  rw [liftE_byteChash]
  cases hch : chwLoop cur.d (n + 300) 0 0 with
  | error e => rfl
  | ok w =>
    lit [h2, setTmap, modLink_run h2, run_modRoot, sum64_flat, shr_chd _ h3.d, setWidth_dep h3.d, false_and]
    $t))

theorem ArrMap.Set_eq [DecidableEq K] [Inhabited V] (sum : Maphash) (kb : K → List UInt8) (n h : Nat) (key : K) (v : V) {s : St K V} (hs : Tidy s) :
    run (ArrMap.Set sum kb n (some h) key v) s =
      run (upsertL (boxedCfg sum kb) h (n + 300) key (setInsArr (boxedCfg sum kb) (byteChash sum kb) key v) (newKv (boxedCfg sum kb) key v) ()) s := by
  obtain ⟨rk, hs⟩ := hs
  unfold ArrMap.Set upsertL searchX
  lit [forIn_loop, write_new, sum64_flat]
  byte_find (boxedCfg sum kb) (s.roots h).seed (byteSt (s.roots h).seed (kb key)) byteSt key (n + 300) h s boxedCfg
    (cases hit with
     | false => free_slot (boxedCfg sum kb) key (newKv (boxedCfg sum kb) key v) (Keeps.kv (some key) v) ()
     | true =>
       boxed_key (boxedCfg sum kb) key
       same_key (boxedCfg sum kb) key
       byte_rehash setInsArr (kb ckey)
         (push_down (boxedCfg sum kb) (setInsArr (boxedCfg sum kb) (byteChash sum kb) key v) setInsArr key
           (pushSt (s'.roots h).seed (kb key) (kb ckey)) (fun p _ => pushSt (s'.roots h).seed (kb key) (kb ckey) (p.next (boxedCfg sum kb) (s'.roots h).seed key ckey p.item))
           (puts_ptr rfl (fun _ _ => rfl) key ckey x.ptr) [put2P]))

theorem StringMap.Set_eq [Inhabited V] (sum : Maphash) (n h : Nat) (key : ByteStr) (v : V) {s : St ByteStr V} (hs : Tidy s) :
    run (StringMap.Set sum n (some h) key v) s =
      run (upsertL (boxedCfg sum id) h (n + 300) key (setIns (boxedCfg sum id) (byteChash sum id) false key v) (newKv (boxedCfg sum id) key v) ()) s := by
  obtain ⟨rk, hs⟩ := hs
  unfold StringMap.Set upsertL searchX
  lit [forIn_loop, write_new, sum64_flat]
  byte_find (boxedCfg sum id) (s.roots h).seed (byteSt (s.roots h).seed key) byteSt key (n + 300) h s boxedCfg
    (cases hit with
     | false => free_slot (boxedCfg sum id) key (newKv (boxedCfg sum id) key v) (Keeps.kv (some key) v) ()
     | true =>
       boxed_key (boxedCfg sum id) key
       same_key (boxedCfg sum id) key
       byte_rehash setIns ckey
         (push_down (boxedCfg sum id) (setIns (boxedCfg sum id) (byteChash sum id) false key v) setIns key
           (pushSt (s'.roots h).seed key ckey) (fun p _ => pushSt (s'.roots h).seed key ckey (p.next (boxedCfg sum id) (s'.roots h).seed key ckey p.item))
           (puts_ptr rfl (fun _ _ => rfl) key ckey x.ptr) [put2P]))

theorem bytesEqual_eq (a b : ByteStr) : bytesEqual a b = goEq a b := rfl

theorem radix_test (a b : BitVec 64) : (((a &&& 15#64).setWidth 8 != (b &&& 15#64).setWidth 8 : Bool) = true) = (radixOf a ≠ radixOf b) := by
  rw [bne_iff_ne, ← radix_toNat a, ← radix_toNat b]
  simp only [ne_eq, BitVec.toNat_inj]

theorem BytesMap.Set_eq [Inhabited V] (sum : Maphash) (n h : Nat) (key : ByteStr) (v : V) {s : St ByteStr V} (hs : Tidy s) :
    run (BytesMap.Set sum n (some h) key v) s =
      run (upsertL (boxedCfg sum id) h (n + 300) key (setIns (boxedCfg sum id) (byteChash sum id) true key v) (newKv (boxedCfg sum id) key v) ()) s := by
  obtain ⟨rk, hs⟩ := hs
  unfold BytesMap.Set upsertL searchX
  lit [forIn_loop, write_new, sum64_flat, bytesEqual_eq]
  byte_find (boxedCfg sum id) (s.roots h).seed (byteSt (s.roots h).seed key) byteSt key (n + 300) h s boxedCfg
    (cases hit with
     | false => free_slot (boxedCfg sum id) key (newKv (boxedCfg sum id) key v) (Keeps.kv (some key) v) ()
     | true =>
       boxed_key (boxedCfg sum id) key
       same_key (boxedCfg sum id) key
       byte_rehash setIns ckey
         (simp only [radix_test, id_eq, true_and]
          by_cases hg : radixOf (digestOf sum (s'.roots h).seed ckey w >>> (4 * (cur.d % 16))) ≠ radixOf cur.hd
          · simp only [if_pos hg]
            lit [setPtr]
            rfl
          simp only [if_neg hg]
          push_down (boxedCfg sum id) (setIns (boxedCfg sum id) (byteChash sum id) true key v) setIns key
           (pushSt (s'.roots h).seed key ckey) (fun p _ => pushSt (s'.roots h).seed key ckey (p.next (boxedCfg sum id) (s'.roots h).seed key ckey p.item))
           (puts_ptr rfl (fun _ _ => rfl) key ckey x.ptr) [put2P]))

set_option hygiene false in
/-- The search ended at a key: the key is in the link. -/
macro "inline_key" c:term:max key:term:max : tactic => `(tactic| (
  lit [h2, ne_test (h4 rfl).1, ne_test' (h4 rfl).2, rank_toNat, ended, conflict, itemRef]
  rcases run_load ⟨lk.ptr, rankOf lk.pmap (radixOf cur.hd)⟩ s' with ⟨e, he⟩ | ⟨x, hx⟩
  · lit [he]
  have hk : run (readKey $c x) s' = .ok (x.pmap.setWidth 64 ||| (x.tmap.setWidth 64 <<< 32), s') := rfl
  lit [hx, goEq_comm _ $key]
  rw [hk]
  (lit [thenE_ok])
  generalize x.pmap.setWidth 64 ||| (x.tmap.setWidth 64 <<< 32) = ckey))

theorem IntMap.Set_eq [Inhabited V] (sum : Maphash) (n h : Nat) (key : IntKey) (v : V) {s : St IntKey V} (hs : Tidy s) :
    run (IntMap.Set sum n (some h) key v) s =
      run (upsertL (intCfg .inline sum) h (n + 300) key (setIns (intCfg .inline sum) (byteChash sum intbytes) false key v) (newKv (intCfg .inline sum) key v) ()) s := by
  obtain ⟨rk, hs⟩ := hs
  unfold IntMap.Set upsertL searchX
  lit [forIn_loop, write_new, sum64_flat]
  byte_find (intCfg .inline sum) (s.roots h).seed (byteSt (s.roots h).seed (intbytes key)) byteSt key (n + 300) h s intCfg
    (cases hit with
     | false => free_slot (intCfg .inline sum) key (newKv (intCfg .inline sum) key v) (Keeps.kv none v) ()
     | true =>
       inline_key (intCfg .inline sum) key
       same_key (intCfg .inline sum) key
       byte_rehash setIns (intbytes ckey)
         (push_down (intCfg .inline sum) (setIns (intCfg .inline sum) (byteChash sum intbytes) false key v) setIns key
           (pushSt (s'.roots h).seed (intbytes key) (intbytes ckey)) (fun p _ => pushSt (s'.roots h).seed (intbytes key) (intbytes ckey) (p.next (intCfg .inline sum) (s'.roots h).seed key ckey p.item))
           (puts_link (c := intCfg .inline sum) (show Store.inline ≠ .boxed by decide) key ckey x.ptr) [put2L]))

theorem ArrSet.Add_eq [DecidableEq K] (sum : Maphash) (kb : K → List UInt8) (n h : Nat) (key : K) {s : St K Unit} (hs : Tidy s) :
    run (ArrSet.Add sum kb n (some h) key) s =
      run (upsertL (boxedCfg sum kb) h (n + 300) key (addIns (boxedCfg sum kb) (byteChash sum kb) key) (newKv (boxedCfg sum kb) key ()) ()) s := by
  obtain ⟨rk, hs⟩ := hs
  unfold ArrSet.Add upsertL searchX
  lit [forIn_loop, write_new, sum64_flat]
  byte_find (boxedCfg sum kb) (s.roots h).seed (byteSt (s.roots h).seed (kb key)) byteSt key (n + 300) h s boxedCfg
    (cases hit with
     | false => free_slot (boxedCfg sum kb) key (newKv (boxedCfg sum kb) key ()) (Keeps.kv (some key) ()) ()
     | true =>
       boxed_key (boxedCfg sum kb) key
       same_key (boxedCfg sum kb) key
       byte_rehash addIns (kb ckey)
         (push_down (boxedCfg sum kb) (addIns (boxedCfg sum kb) (byteChash sum kb) key) addIns key
           (pushSt (s'.roots h).seed (kb key) (kb ckey)) (fun p _ => pushSt (s'.roots h).seed (kb key) (kb ckey) (p.next (boxedCfg sum kb) (s'.roots h).seed key ckey p.item))
           (puts_ptr rfl (fun _ _ => rfl) key ckey x.ptr) [put2P]))

theorem StringSet.Add_eq (sum : Maphash) (n h : Nat) (key : ByteStr) {s : St ByteStr Unit} (hs : Tidy s) :
    run (StringSet.Add sum n (some h) key) s =
      run (upsertL (boxedCfg sum id) h (n + 300) key (addIns (boxedCfg sum id) (byteChash sum id) key) (newKv (boxedCfg sum id) key ()) ()) s :=
  ArrSet.Add_eq sum id n h key hs

theorem BytesSet.Add_eq (sum : Maphash) (n h : Nat) (key : ByteStr) {s : St ByteStr Unit} (hs : Tidy s) :
    run (BytesSet.Add sum n (some h) key) s =
      run (upsertL (boxedCfg sum id) h (n + 300) key (addIns (boxedCfg sum id) (byteChash sum id) key) (newKv (boxedCfg sum id) key ()) ()) s :=
  ArrSet.Add_eq sum id n h key hs

theorem IntSet.Add_eq (sum : Maphash) (n h : Nat) (key : IntKey) {s : St IntKey Unit} (hs : Tidy s) :
    run (IntSet.Add sum n (some h) key) s =
      run (upsertL (intSetCfg sum) h (n + 300) key (addIns (intSetCfg sum) (byteChash sum intbytes) key) (newKv (intSetCfg sum) key ()) ()) s := by
  obtain ⟨rk, hs⟩ := hs
  unfold IntSet.Add upsertL searchX
  lit [forIn_loop, write_new, sum64_flat]
  byte_find (intSetCfg sum) (s.roots h).seed (byteSt (s.roots h).seed (intbytes key)) byteSt key (n + 300) h s intSet_digest
    (cases hit with
     | false => free_slot (intSetCfg sum) key (newKv (intSetCfg sum) key ()) (Keeps.pure Ptr.nil) ()
     | true =>
       inline_key (intSetCfg sum) key
       same_key (intSetCfg sum) key
       byte_rehash addIns (intbytes ckey)
         (push_nil (intSetCfg sum) (addIns (intSetCfg sum) (byteChash sum intbytes) key) addIns key
           (pushSt (s'.roots h).seed (intbytes key) (intbytes ckey)) (fun p _ => pushSt (s'.roots h).seed (intbytes key) (intbytes ckey) (p.next (intSetCfg sum) (s'.roots h).seed key ckey p.item))
           (puts_link (c := intSetCfg sum) (show Store.bare ≠ .boxed by decide) key ckey .nil) [put2L]))

/-! ### Generic containers -/

/-- The variables of the loop that pushes two keys down, in a generic container. -/
def pushGen (p : Spl) : BitVec 64 × BitVec 8 × Ref × BitVec 64 := (p.hd, BitVec.ofNat 8 p.d, p.item, p.chd)

/-- The variables of the search loop of `Map.Mod`. -/
def genStU {ρ U : Type} (u : U) (cur : Cur) (idx : BitVec 8) : Option ρ × U × BitVec 64 × Ref × BitVec 8 × BitVec 8 × BitVec 32 × BitVec 8 :=
  (none, u, (genSt (ρ := Unit) cur idx).2)

theorem mod16w {d : Nat} (h : d < 256) : ((BitVec.ofNat 8 d % 16#8).setWidth 64).toNat = d % 16 := by
  rw [BitVec.toNat_setWidth, BitVec.toNat_umod, ofNat_toNat h]
  show d % 16 % _ = _
  omega

set_option hygiene false in
/-- As `gen_search`, for variables `st`. -/
macro "gen_find" c:term:max sd:term:max st:term:max unf:ident key:term:max n:term:max h:term:max s:ident hit:tactic : tactic => `(tactic| (
  rcases run_load (linkOf $h) $s with ⟨e, he⟩ | ⟨lk, hl⟩
  · rw [he, walk_err _ _ _ _ _ he]
    rfl
  rw [hl, thenE_ok]
  rw [loop_walk $c $sd $key $st (s := $s) ?_ $n (start $c $sd $key $h) lk _ (Nat.zero_lt_succ _) hl ?_]
  rotate_left
  · intro cur lk hd hl hp ht
    dsimp only [$unf:ident, genSt]
    lit [hl, ne_test hp, eq_test ht, succ_eq, rank_toNat]
    rw [and15 (by omega)]
    simp only [decide_eq_true_eq, descend]
    split
    · lit [lit_bit, lit_rank]
    · lit [lit_bit, lit_rank, genericCfg, shr4 (Nat.mod_lt _ (by decide : 0 < 256))]
  · rw [lit_bit, lit_rank]
    rfl
  · cases hw : run (walk $c $sd $key $n (start $c $sd $key $h)) $s with
    | error e => rfl
    | ok r =>
      obtain ⟨⟨cur, lk, hit, m⟩, s'⟩ := r
      obtain ⟨h1, h2, h3, h4, h5⟩ := walk_ends _ _ _ _ _ _ ⟨Nat.zero_lt_succ _, rfl⟩ hw
      subst h1
      dsimp only at h2 h3 h4 h5
      (dsimp only [$unf:ident, genSt])
      $hit))

set_option hygiene false in
/-- The keys are equal, or not. -/
macro "gen_same" c:term:max eq:term:max key:term:max : tactic => `(tactic| (
  by_cases hq : $eq $key ckey = true
  · simp only [if_pos hq]
    rw [if_pos (show Cfg.eq $c $key ckey = true from hq)]
    first | rfl | (simp only [modG]; lit [thenE_ok])
  simp only [if_neg hq]
  rw [if_neg (show ¬Cfg.eq $c $key ckey = true from hq)]))

theorem run_liftE_ok {α : Type} (a : α) (s : St K V) : run (liftE (.ok a) : M K V α) s = .ok (a, s) := rfl

theorem rootSt_seed {s : St K V} {h : Nat} {f : Meta → Meta} (hf : ∀ m, (f m).seed = m.seed) (a : Nat) : ((rootSt s h f).roots a).seed = (s.roots a).seed := by
  unfold rootSt
  dsimp only
  split
  · exact hf _
  · rfl

set_option hygiene false in
/-- The hash of the conflicting key, and both keys are pushed down. -/
macro "gen_push" c:term:max ins:term:max insu:ident chash:ident key:term:max mk:term:max t:term:max puts:term:max : tactic => `(tactic| (
  simp only [$insu:ident, $chash:ident]
  lit [run_liftE_ok, h2, setTmap, modLink_run h2, run_modRoot, shr_chd _ h3.d, setWidth_dep h3.d, false_and, mod16w h3.d]
  have k1 := hs.modMaps (r := cur.l) (f := fun y => { y with tmap := y.tmap &&& ~~~bitOf (radixOf cur.hd) }) (by intro _; rfl) (modLink_run h2 _)
  have k2 := k1.rank.modRoot (run_modRoot h (fun m => { m with dep := m.dep - BitVec.ofNat 64 cur.d }) _)
  refine Eq.trans (split_loop _ $c (s'.roots h).seed h $key ckey x.ptr $ins $mk $t
    ?_ (G := .ok) ?_ (n + 300) ⟨⟨lk.ptr, rankOf lk.pmap (radixOf cur.hd)⟩, cur.d, cur.hd, _, cur.w, cur.d / 16 + 1⟩
    rk _ h3.d k2.rank (((hs.load hx).step k1).step k2) rfl) ?_
  · intro p rk s hd hs hu hr
    have hr' : (s.roots h).seed = (s'.roots h).seed := by
      rw [hr, rootSt_seed (by intro _; rfl), put_roots]
    simp only [$insu:ident]
    rw [← levelG_eq (c := $c) $puts (Nat.mod_lt _ (by decide)) _ _ hs hu]
    unfold levelG
    dsimp only [put2P, pushGen, Spl.next, modNew]
    simp only [succ_eq, and15p (Nat.mod_lt (p.d + 1) (by decide : 0 < 256))]
    split
    · lit [thenE_ok]; rfl
    · lit [hr', shr4 (Nat.mod_lt (p.d + 1) (by decide : 0 < 256))]; rfl
  · intro r t s; rfl
  · exact thenE_id _))

theorem Map.Set_eq [Inhabited V] (I : KeyImpl K) (n h : Nat) (key : K) (v : V) {s : St K V} (hs : Tidy s) :
    run (Map.Set I n (some h) key v) s =
      run (upsertL (genericCfg I) h (n + 300) key (setIns (genericCfg I) (genericChashSet I) false key v) (newKv (genericCfg I) key v) ()) s := by
  obtain ⟨rk, hs⟩ := hs
  unfold Map.Set upsertL searchX
  lit [forIn_loop]
  gen_find (genericCfg I) (s.roots h).seed genSt genSt key (n + 300) h s
    (cases hit with
     | false => free_slot (genericCfg I) key (newKv (genericCfg I) key v) (Keeps.kv (some key) v) ()
     | true =>
       lit [h2, ne_test (h4 rfl).1, ne_test' (h4 rfl).2, rank_toNat, ended, conflict, itemRef, readKey_kvKey (c := genericCfg I) rfl]
       rcases run_load ⟨lk.ptr, rankOf lk.pmap (radixOf cur.hd)⟩ s' with ⟨e, he⟩ | ⟨x, hx⟩
       · lit [he]
       lit [hx]
       rcases hk : run (kvKey x.ptr) s' with e | ⟨ckey, s2⟩
       · lit [thenE_ok]
       cases kvKey_state hk
       lit [thenE_ok]
       gen_same (genericCfg I) I.equal key
       gen_push (genericCfg I) (setIns (genericCfg I) (genericChashSet I) false key v) setIns genericChashSet key
         pushGen (fun p _ => pushGen (p.next (genericCfg I) (s'.roots h).seed key ckey p.item)) (puts_ptr rfl (fun _ _ => rfl) key ckey x.ptr))

theorem Set.Add_eq (I : KeyImpl K) (n h : Nat) (key : K) {s : St K Unit} (hs : Tidy s) :
    run (Set.Add I n (some h) key) s =
      run (upsertL (genericCfg I) h (n + 300) key (addIns (genericCfg I) (genericChashSet I) key) (newKv (genericCfg I) key ()) ()) s := by
  obtain ⟨rk, hs⟩ := hs
  unfold Set.Add upsertL searchX
  lit [forIn_loop]
  gen_find (genericCfg I) (s.roots h).seed genSt genSt key (n + 300) h s
    (cases hit with
     | false => free_slot (genericCfg I) key (newKv (genericCfg I) key ()) (Keeps.kv (some key) ()) ()
     | true =>
       lit [h2, ne_test (h4 rfl).1, ne_test' (h4 rfl).2, rank_toNat, ended, conflict, itemRef, readKey_kvKey (c := genericCfg I) rfl]
       rcases run_load ⟨lk.ptr, rankOf lk.pmap (radixOf cur.hd)⟩ s' with ⟨e, he⟩ | ⟨x, hx⟩
       · lit [he]
       lit [hx]
       rcases hk : run (kvKey x.ptr) s' with e | ⟨ckey, s2⟩
       · lit [thenE_ok]
       cases kvKey_state hk
       lit [thenE_ok]
       gen_same (genericCfg I) I.equal key
       gen_push (genericCfg I) (addIns (genericCfg I) (genericChashSet I) key) addIns genericChashSet key
         pushGen (fun p _ => pushGen (p.next (genericCfg I) (s'.roots h).seed key ckey p.item)) (puts_ptr rfl (fun _ _ => rfl) key ckey x.ptr))

/-! ### `Mod` -/

theorem insertSlot_slotL (c : Cfg K) (h : Nat) (key : K) (ins : Ins K V R) (cur : Cur) {s : St K V} {lk : Link} (hl : run (load cur.l) s = .ok (lk, s)) :
    run (insertSlot c h key ins cur) s = thenE (run ins.newSlot s) fun r =>
      run (slotL h cur.l cur.d (rankOf lk.pmap (radixOf cur.hd)) (bitOf (radixOf cur.hd)) (pure r.1.1) (mkLink c key) r.1.2) r.2 := by
  unfold insertSlot slotL
  lit [hl]

set_option hygiene false in
/-- The search ended at a free slot. -/
macro "mod_slot" c:term:max key:term:max mod:term:max u:term:max makes:term:max : tactic => `(tactic| (
  lit [h2, eq_test' (h5 rfl)]
  simp only [ended, if_neg Bool.false_ne_true]
  rw [insertSlot_slotL _ _ _ _ _ h2]
  refine Eq.trans (b := thenE (run (modNew $c $key $mod $u) s') fun r => run (slotTail n (some h) cur.l (BitVec.ofNat 8 cur.d)
    (BitVec.ofNat 8 (rankOf lk.pmap (radixOf cur.hd))) (bitOf (radixOf cur.hd)) (pure r.1.1) (mkLink $c $key) r.1.2) r.2) ?_ ?_
  · unfold slotTail modNew
    lit [forIn_loop]
    rfl
  · simp only [modG]
    rcases hnew : run (modNew $c $key $mod $u) s' with e | ⟨⟨kv, u'⟩, t⟩
    · rfl
    obtain ⟨rk', k1⟩ := $makes _ _ _ ⟨rk, hs⟩ hnew
    rcases run_load cur.l t with ⟨e, he⟩ | ⟨y, hy⟩
    · dsimp only [thenE]
      rw [slotTail_err he, slotL_err he]
    exact slotTail_eq k1 (Keeps.pure kv) (mkLink $c $key) n h hy h3.d (rankOf_le lk.pmap (radixOf cur.hd)) (bitOf (radixOf cur.hd)) u'))

theorem ArrMap.Mod_eq {U : Type} [DecidableEq K] [Inhabited V] (sum : Maphash) (kb : K → List UInt8) (n h : Nat) (key : K) (mod : U → Amt.Ptr → Bool → M K V U) (u : U)
    (hm : Neat (modNew (boxedCfg sum kb) key mod u)) {s : St K V} (hs : Tidy s) :
    run (ArrMap.Mod sum kb n (some h) key mod u) s = run (upsertX (boxedCfg sum kb) h (n + 300) key (modG (boxedCfg sum kb) (byteChash sum kb) false key mod u)) s := by
  obtain ⟨rk, hs⟩ := hs
  unfold ArrMap.Mod upsertX searchX
  lit [forIn_loop, write_new, sum64_flat]
  byte_find (boxedCfg sum kb) (s.roots h).seed (byteStU u (s.roots h).seed (kb key)) byteStU key (n + 300) h s boxedCfg
    (cases hit with
     | false => mod_slot (boxedCfg sum kb) key mod u hm
     | true =>
       boxed_key (boxedCfg sum kb) key
       same_key (boxedCfg sum kb) key
       byte_rehash modG (kb ckey)
         (push_down (boxedCfg sum kb) (modG (boxedCfg sum kb) (byteChash sum kb) false key mod u) modG key
           (fun p => (u, pushSt (s'.roots h).seed (kb key) (kb ckey) p)) (fun p r => (r, pushSt (s'.roots h).seed (kb key) (kb ckey) (p.next (boxedCfg sum kb) (s'.roots h).seed key ckey p.item)))
           (puts_ptr rfl (fun _ _ => rfl) key ckey x.ptr) [put2P, modNew]))

theorem StringMap.Mod_eq {U : Type} [Inhabited V] (sum : Maphash) (n h : Nat) (key : ByteStr) (mod : U → Amt.Ptr → Bool → M ByteStr V U) (u : U)
    (hm : Neat (modNew (boxedCfg sum id) key mod u)) {s : St ByteStr V} (hs : Tidy s) :
    run (StringMap.Mod sum n (some h) key mod u) s = run (upsertX (boxedCfg sum id) h (n + 300) key (modG (boxedCfg sum id) (byteChash sum id) false key mod u)) s := by
  rw [show StringMap.Mod sum n (some h) key mod u = ArrMap.Mod sum id n (some h) key mod u from rfl]
  exact ArrMap.Mod_eq sum id n h key mod u hm hs

theorem BytesMap.Mod_eq {U : Type} [Inhabited V] (sum : Maphash) (n h : Nat) (key : ByteStr) (mod : U → Amt.Ptr → Bool → M ByteStr V U) (u : U)
    (hm : Neat (modNew (boxedCfg sum id) key mod u)) {s : St ByteStr V} (hs : Tidy s) :
    run (BytesMap.Mod sum n (some h) key mod u) s = run (upsertX (boxedCfg sum id) h (n + 300) key (modG (boxedCfg sum id) (byteChash sum id) true key mod u)) s := by
  obtain ⟨rk, hs⟩ := hs
  unfold BytesMap.Mod upsertX searchX
  lit [forIn_loop, write_new, sum64_flat, bytesEqual_eq]
  byte_find (boxedCfg sum id) (s.roots h).seed (byteStU u (s.roots h).seed key) byteStU key (n + 300) h s boxedCfg
    (cases hit with
     | false => mod_slot (boxedCfg sum id) key mod u hm
     | true =>
       boxed_key (boxedCfg sum id) key
       same_key (boxedCfg sum id) key
       byte_rehash modG ckey
         (simp only [radix_test, id_eq, true_and]
          by_cases hg : radixOf (digestOf sum (s'.roots h).seed ckey w >>> (4 * (cur.d % 16))) ≠ radixOf cur.hd
          · simp only [if_pos hg]
            lit [modNew]
            rfl
          simp only [if_neg hg]
          push_down (boxedCfg sum id) (modG (boxedCfg sum id) (byteChash sum id) true key mod u) modG key
           (fun p => (u, pushSt (s'.roots h).seed key ckey p)) (fun p r => (r, pushSt (s'.roots h).seed key ckey (p.next (boxedCfg sum id) (s'.roots h).seed key ckey p.item)))
           (puts_ptr rfl (fun _ _ => rfl) key ckey x.ptr) [put2P, modNew]))

theorem IntMap.Mod_eq {U : Type} [Inhabited V] (sum : Maphash) (n h : Nat) (key : IntKey) (mod : U → Amt.Ptr → Bool → M IntKey V U) (u : U)
    (hm : Neat (modNew (intCfg .inline sum) key mod u)) {s : St IntKey V} (hs : Tidy s) :
    run (IntMap.Mod sum n (some h) key mod u) s = run (upsertX (intCfg .inline sum) h (n + 300) key (modG (intCfg .inline sum) (byteChash sum intbytes) false key mod u)) s := by
  obtain ⟨rk, hs⟩ := hs
  unfold IntMap.Mod upsertX searchX
  lit [forIn_loop, write_new, sum64_flat]
  byte_find (intCfg .inline sum) (s.roots h).seed (byteStU u (s.roots h).seed (intbytes key)) byteStU key (n + 300) h s intCfg
    (cases hit with
     | false => mod_slot (intCfg .inline sum) key mod u hm
     | true =>
       inline_key (intCfg .inline sum) key
       same_key (intCfg .inline sum) key
       byte_rehash modG (intbytes ckey)
         (push_down (intCfg .inline sum) (modG (intCfg .inline sum) (byteChash sum intbytes) false key mod u) modG key
           (fun p => (u, pushSt (s'.roots h).seed (intbytes key) (intbytes ckey) p)) (fun p r => (r, pushSt (s'.roots h).seed (intbytes key) (intbytes ckey) (p.next (intCfg .inline sum) (s'.roots h).seed key ckey p.item)))
           (puts_link (c := intCfg .inline sum) (show Store.inline ≠ .boxed by decide) key ckey x.ptr) [put2L, modNew]))

theorem Map.Mod_eq {U : Type} [Inhabited V] (I : KeyImpl K) (n h : Nat) (key : K) (mod : U → Amt.Ptr → Bool → M K V U) (u : U)
    (hm : Neat (modNew (genericCfg I) key mod u)) {s : St K V} (hs : Tidy s) :
    run (Map.Mod I n (some h) key mod u) s = run (upsertX (genericCfg I) h (n + 300) key (modG (genericCfg I) (genericChashMod I) false key mod u)) s := by
  obtain ⟨rk, hs⟩ := hs
  unfold Map.Mod upsertX searchX
  lit [forIn_loop]
  gen_find (genericCfg I) (s.roots h).seed (genStU u) genStU key (n + 300) h s
    (cases hit with
     | false => mod_slot (genericCfg I) key mod u hm
     | true =>
       lit [h2, ne_test (h4 rfl).1, ne_test' (h4 rfl).2, rank_toNat, ended, conflict, itemRef, readKey_kvKey (c := genericCfg I) rfl]
       rcases run_load ⟨lk.ptr, rankOf lk.pmap (radixOf cur.hd)⟩ s' with ⟨e, he⟩ | ⟨x, hx⟩
       · lit [he]
       lit [hx]
       rcases hk : run (kvKey x.ptr) s' with e | ⟨ckey, s2⟩
       · lit [thenE_ok]
       cases kvKey_state hk
       lit [thenE_ok]
       gen_same (genericCfg I) I.equal key
       gen_push (genericCfg I) (modG (genericCfg I) (genericChashMod I) false key mod u) modG genericChashMod key
         (fun p => (u, pushGen p)) (fun p r => (r, pushGen (p.next (genericCfg I) (s'.roots h).seed key ckey p.item))) (puts_ptr rfl (fun _ _ => rfl) key ckey x.ptr))

end

end Amt.Go
