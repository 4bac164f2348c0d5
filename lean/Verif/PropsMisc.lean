/-
Packing of integer keys (C28), the ready-made hash methods (C29), reads (C30) and uninitialised containers (C31).
-/
import Verif.PropsSet
import Verif.PropsMap

set_option linter.unusedVariables false
set_option linter.unusedSectionVars false

namespace Amt
open T Spec

/-! ### C28: integer keys -/

/-- C28.  The words written into a link for a key are its lower and upper half, and the key read back from them is
the key. -/
theorem C28_packing (store : Store) (sum : Maphash) (k : IntKey) :
    ((intCfg store sum).encP k).toNat = k.toNat % 2 ^ 32 ∧ ((intCfg store sum).encT k).toNat = k.toNat / 2 ^ 32 ∧
    (intCfg store sum).dec ((intCfg store sum).encP k) ((intCfg store sum).encT k) = some k := by
  refine ⟨by simp [intCfg], ?_, by simp only [intCfg]; rw [int_dec]⟩
  simp only [intCfg]
  have : (k.sshiftRight 32).setWidth 32 = (k >>> 32).setWidth 32 := by
    apply BitVec.eq_of_getLsbD_eq
    intro i hi
    simp [BitVec.getLsbD_sshiftRight, hi, show ¬ (64 ≤ i) by omega, show 32 + i < 64 by omega]
  rw [this]
  simp only [BitVec.toNat_setWidth, BitVec.toNat_ushiftRight, Nat.shiftRight_eq_div_pow]
  have := k.isLt
  apply Nat.mod_eq_of_lt
  omega

theorem intbyte_toNat (k : IntKey) {n : Nat} (hn : n ≤ 56) : (intbyte k n).toNat = k.toNat / 2 ^ n % 256 := by
  have : (k.sshiftRight n).setWidth 8 = (k >>> n).setWidth 8 := by
    apply BitVec.eq_of_getLsbD_eq
    intro i hi
    simp [BitVec.getLsbD_sshiftRight, hi, show ¬ (64 ≤ i) by omega, show n + i < 64 by omega]
  show ((k.sshiftRight n).setWidth 8).toNat = _
  rw [this]
  simp only [BitVec.toNat_setWidth, BitVec.toNat_ushiftRight, Nat.shiftRight_eq_div_pow]

/-- C28.  `intbytes` writes the key in base 256, least significant byte first. -/
theorem C28_intbytes (k : IntKey) : (intbytes k).map UInt8.toNat =
    (List.range 8).map (fun i => k.toNat / 256 ^ i % 256) := by
  simp only [intbytes, List.map_cons, List.map_nil, List.range, List.range.loop]
  rw [intbyte_toNat k (by omega), intbyte_toNat k (by omega), intbyte_toNat k (by omega), intbyte_toNat k (by omega),
    intbyte_toNat k (by omega), intbyte_toNat k (by omega), intbyte_toNat k (by omega), intbyte_toNat k (by omega)]

/-- C28.  Different keys have different bytes. -/
theorem C28_injective {a b : IntKey} (h : intbytes a = intbytes b) : a = b := by
  have h' := congrArg (List.map UInt8.toNat) h
  rw [C28_intbytes, C28_intbytes] at h'
  simp only [List.map_cons, List.map_nil, List.range, List.range.loop, List.cons.injEq] at h'
  apply BitVec.eq_of_toNat_eq
  have := a.isLt
  have := b.isLt
  omega

example : intbytes (-2#64) = [0xFE, 0xFF, 0xFF, 0xFF, 0xFF, 0xFF, 0xFF, 0xFF] := by decide

/-! ### C29: the ready-made hash methods -/

/-- The digest of `n` copies of the bytes `bs`. -/
def copiesDigest (sum : Maphash) (s : Seed) (bs : List UInt8) : Nat → BitVec 64 := fun n => sum s (List.replicate n bs).flatten

theorem hashWrites_run {iter : Nat} (hi : iter < 2 ^ 64 - 1) : ∀ {fuel i w : Nat}, i ≤ iter + 1 → iter + 2 - i ≤ fuel →
    hashWrites iter fuel i w = .ok (w + (iter + 1 - i)) := by
  intro fuel
  induction fuel with
  | zero => intro i w h1 h2; omega
  | succ fuel ih =>
    intro i w h1 h2
    rw [hashWrites]
    split
    · rw [Nat.mod_eq_of_lt (by omega), ih (by omega) (by omega)]
      congr 1; omega
    · congr 1; omega

theorem hashWrites_diverge (fuel i w : Nat) (hi : i < 2 ^ 64) : hashWrites (2 ^ 64 - 1) fuel i w = .error .diverge := by
  induction fuel generalizing i w with
  | zero => rfl
  | succ fuel ih => rw [hashWrites, if_pos (by omega)]; exact ih _ _ (Nat.mod_lt _ (by decide))

/-- C29.  `Bytes.Hash` and `String.Hash` return the digest of `iter + 1` copies of the key, after `iter + 2` tests of
the loop condition; for the largest `uint` the loop never ends. -/
theorem C29_Bytes (sum : Maphash) (k : ByteStr) (s : Seed) {iter : Nat} (hi : iter < 2 ^ 64) :
    if iter < 2 ^ 64 - 1 then ∀ fuel, iter + 2 ≤ fuel → bytesHash sum fuel k s iter = .ok (copiesDigest sum s k (iter + 1))
    else ∀ fuel, bytesHash sum fuel k s iter = .error .diverge := by
  split
  · rename_i h
    intro fuel hf
    rw [bytesHash, hashWrites_run h (by omega) (by omega)]
    show Except.ok (digestOf sum s k _) = _
    rw [show 0 + (iter + 1 - 0) = iter + 1 by omega]; rfl
  · obtain rfl : iter = 2 ^ 64 - 1 := by omega
    intro fuel
    rw [bytesHash, hashWrites_diverge _ _ _ (by decide)]

/-- C29.  `Int.Hash`. -/
theorem C29_Int (sum : Maphash) (k : IntKey) (s : Seed) {iter : Nat} (hi : iter < 2 ^ 64) :
    if iter < 2 ^ 64 - 1 then ∀ fuel, iter + 2 ≤ fuel → intHash sum fuel k s iter = .ok (copiesDigest sum s (intbytes k) (iter + 1))
    else ∀ fuel, intHash sum fuel k s iter = .error .diverge := C29_Bytes sum (intbytes k) s hi

theorem hashBytesWrites_run {iter : Nat} (hi : iter % 256 < 255) : ∀ {fuel i w : Nat}, i ≤ iter % 256 + 1 → iter % 256 + 2 - i ≤ fuel →
    hashBytesWrites iter fuel i w = .ok (w + (iter % 256 + 1 - i)) := by
  intro fuel
  induction fuel with
  | zero => intro i w h1 h2; omega
  | succ fuel ih =>
    intro i w h1 h2
    rw [hashBytesWrites]
    split
    · rw [Nat.mod_eq_of_lt (show i + 1 < 256 by omega), ih (by omega) (by omega)]
      congr 1; omega
    · congr 1; omega

theorem hashBytesWrites_diverge {iter : Nat} (hi : iter % 256 = 255) (fuel i w : Nat) (h : i < 256) :
    hashBytesWrites iter fuel i w = .error .diverge := by
  induction fuel generalizing i w with
  | zero => rfl
  | succ fuel ih => rw [hashBytesWrites, if_pos (by omega)]; exact ih _ _ (Nat.mod_lt _ (by decide))

/-- C29, exactly: `HashBytes` truncates `iter` to a byte, and never returns if that byte is 255. -/
theorem C29_HashBytes_exact (sum : Maphash) (k : ByteStr) (s : Seed) (iter : Nat) :
    if iter % 256 = 255 then ∀ fuel, hashBytes sum fuel k s iter = .error .diverge
    else ∀ fuel, iter % 256 + 2 ≤ fuel → hashBytes sum fuel k s iter = .ok (copiesDigest sum s k (iter % 256 + 1)) := by
  split
  · rename_i h
    intro fuel
    rw [hashBytes, hashBytesWrites_diverge h _ _ _ (by decide)]
  · rename_i h
    intro fuel hf
    rw [hashBytes, hashBytesWrites_run (by omega) (by omega) (by omega)]
    show Except.ok (digestOf sum s k _) = _
    rw [show 0 + (iter % 256 + 1 - 0) = iter % 256 + 1 by omega]; rfl

/-- C29, `HashBytes`, partial: right for `iter < 255`, more than any container asks for (`d / 16` and `d % 16` are less
than 16).  Missing: larger values of `iter`, where it is wrong (`C29_HashBytes_refuted`). -/
theorem C29_HashBytes_partial (sum : Maphash) (k : ByteStr) (s : Seed) {iter fuel : Nat} (hi : iter < 255) (hf : iter + 2 ≤ fuel) :
    hashBytes sum fuel k s iter = .ok (copiesDigest sum s k (iter + 1)) := by
  have := C29_HashBytes_exact sum k s iter
  rw [Nat.mod_eq_of_lt (by omega), if_neg (by omega)] at this
  exact this fuel hf

/-- C29 is false of `HashBytes`: asked for 257 copies it hashes one, and asked for 256 it never returns. -/
theorem C29_HashBytes_refuted : ∃ (sum : Maphash) (k : ByteStr) (s : Seed),
    hashBytes sum 2 k s 256 = .ok (copiesDigest sum s k 1) ∧ copiesDigest sum s k 1 ≠ copiesDigest sum s k (256 + 1) ∧
    (∀ fuel, 2 ≤ fuel → hashBytes sum fuel k s 256 ≠ .ok (copiesDigest sum s k (256 + 1))) ∧
    ∀ fuel, hashBytes sum fuel k s 255 = .error .diverge := by
  have h0 : ∀ fuel, 2 ≤ fuel → hashBytes (fun _ bs => BitVec.ofNat 64 bs.length) fuel [7] 0#64 256 =
      .ok (copiesDigest (fun _ bs => BitVec.ofNat 64 bs.length) 0#64 [7] 1) := by
    have := C29_HashBytes_exact (fun _ bs => BitVec.ofNat 64 bs.length) [7] 0#64 256
    rw [if_neg (by decide)] at this
    exact this
  have hne : copiesDigest (fun _ bs => BitVec.ofNat 64 bs.length) 0#64 [7] 1 ≠
      copiesDigest (fun _ bs => BitVec.ofNat 64 bs.length) 0#64 [7] (256 + 1) := by decide +kernel
  refine ⟨fun _ bs => BitVec.ofNat 64 bs.length, [7], 0#64, h0 2 (by omega), hne, fun fuel hf h => hne ?_, ?_⟩
  · rw [h0 fuel hf] at h; exact Except.ok.inj h
  · have := C29_HashBytes_exact (fun _ bs => BitVec.ofNat 64 bs.length) [7] 0#64 255
    rw [if_pos (by decide)] at this
    exact this

example := C29_Bytes toyHash (strKey 3) 5#64 (iter := 3) (by decide)

/-- A generic map over `String` or `Bytes`, whose `Hash` is the ready-made method: it hashes its keys as a `StringMap`
does.  (A container passes `iter < 16`, so eighteen tests of the loop condition suffice.) -/
theorem C29_stream (sum : Maphash) (sd : Seed) (k : ByteStr) {n : Nat} (hn : n < 16) :
    bytesHash sum 18 k sd n = .ok (byteStream sum sd id k n) ∧ hashBytes sum 18 k sd n = .ok (byteStream sum sd id k n) := by
  have h := C29_Bytes sum k sd (iter := n) (by omega)
  rw [if_pos (by omega)] at h
  exact ⟨h 18 (by omega), C29_HashBytes_partial sum k sd (by omega) (by omega)⟩

/-! ### C30: reads -/

/-- The program never changes the memory. -/
def Quiet {K V α : Type} (x : M K V α) : Prop := ∀ s a s', x s = .ok (a, s') → s' = s

section
variable {K V α β : Type}

theorem Quiet.pure (a : α) : Quiet (Pure.pure a : M K V α) := by
  intro s b s' h; cases h; rfl

theorem Quiet.fail (e : Fault) : Quiet (M.fail e : M K V α) := by
  intro s b s' h; cases h

theorem Quiet.bind {x : M K V α} {f : α → M K V β} (h1 : Quiet x) (h2 : ∀ a, Quiet (f a)) : Quiet (x >>= f) := by
  intro s b s' h
  rw [bind_run] at h
  cases hx : x s with
  | error e => rw [hx] at h; cases h
  | ok r =>
    rw [hx] at h
    rw [h2 r.1 r.2 b s' h, h1 s r.1 r.2 hx]

theorem Quiet.ite {p : Prop} [Decidable p] {x y : M K V α} (h1 : Quiet x) (h2 : Quiet y) : Quiet (if p then x else y) := by
  split
  · exact h1
  · exact h2

theorem Quiet.load (r : Ref) : Quiet (load r : M K V Link) := by
  intro s a s' h
  unfold Amt.load at h
  split at h
  · cases h
  · split at h
    · cases h
    · cases h
    · split at h
      · cases h
      · cases h; rfl

theorem Quiet.loadKv (p : Amt.Ptr) : Quiet (loadKv p : M K V (Option K × V)) := by
  intro s a s' h
  unfold Amt.loadKv at h
  split at h
  · cases h
  · split at h
    · cases h
    · cases h
    · cases h; rfl

theorem Quiet.getRoot (h : Nat) : Quiet (getRoot h : M K V Meta) := by
  intro s a s' h; cases h; rfl

theorem Quiet.deref (m : Handle) : Quiet (deref m : M K V Nat) := by
  cases m
  · exact Quiet.fail _
  · exact Quiet.pure _

theorem Quiet.readKey (c : Cfg K) (x : Link) : Quiet (readKey c x : M K V K) := by
  unfold Amt.readKey
  split
  · refine Quiet.bind (Quiet.loadKv _) fun kv => ?_
    split
    · exact Quiet.fail _
    · exact Quiet.pure _
  · split
    · exact Quiet.fail _
    · exact Quiet.pure _
  · split
    · exact Quiet.fail _
    · exact Quiet.pure _

theorem Quiet.search (c : Cfg K) (sd : Seed) (key : K) (fuel : Nat) (cur : Cur) :
    Quiet (search c sd key fuel cur : M K V (Cur × Bool)) := by
  induction fuel generalizing cur with
  | zero => exact Quiet.fail _
  | succ fuel ih =>
    rw [Amt.search]
    exact Quiet.bind (Quiet.load _) fun lk => Quiet.ite (Quiet.ite (ih _) (Quiet.pure _)) (Quiet.pure _)

theorem Quiet.lookup (c : Cfg K) (h fuel : Nat) (key : K) : Quiet (lookup c h fuel key : M K V (Option Amt.Ptr)) := by
  unfold Amt.lookup Amt.itemRef
  refine Quiet.bind (Quiet.getRoot _) fun r => Quiet.bind (Quiet.search _ _ _ _ _) fun x => ?_
  split
  exact Quiet.ite (Quiet.bind (Quiet.bind (Quiet.load _) fun _ => Quiet.pure _) fun _ => Quiet.bind (Quiet.load _) fun _ =>
    Quiet.bind (Quiet.readKey _ _) fun _ => Quiet.ite (Quiet.pure _) (Quiet.pure _)) (Quiet.pure _)

theorem Quiet.scanItems {U : Type} {visit : U → Link → M K V (U × Bool)} {rec : U → Ref → M K V (U × Bool)}
    (h1 : ∀ u x, Quiet (visit u x)) (h2 : ∀ u r, Quiet (rec u r)) (l : Ref) (tm : BitVec 32) (n i : Nat) (pm : BitVec 32) (u : U) :
    Quiet (scanItems visit rec l tm n i pm u) := by
  induction n generalizing i pm u with
  | zero => exact Quiet.pure _
  | succ n ih =>
    rw [Amt.scanItems]
    exact Quiet.bind (Quiet.load _) fun lk => Quiet.ite
      (Quiet.bind (Quiet.load _) fun x => Quiet.bind (h1 _ _) fun r => Quiet.ite (ih _ _ _) (Quiet.pure _))
      (Quiet.bind (h2 _ _) fun r => Quiet.ite (ih _ _ _) (Quiet.pure _))

theorem Quiet.scan {U : Type} {visit : U → Link → M K V (U × Bool)} (h1 : ∀ u x, Quiet (visit u x)) (fuel : Nat) (u : U) (l : Ref) :
    Quiet (scan visit fuel u l) := by
  induction fuel generalizing u l with
  | zero => exact Quiet.fail _
  | succ fuel ih =>
    rw [Amt.scan]
    exact Quiet.bind (Quiet.load _) fun lk => Quiet.scanItems h1 ih _ _ _ _ _ _

theorem Quiet.visitSet {U : Type} (c : Cfg K) (f : U → K → U × Bool) (u : U) (x : Link) :
    Quiet (visitSet c f u x : M K V (U × Bool)) := Quiet.bind (Quiet.readKey _ _) fun _ => Quiet.pure _

theorem Quiet.visitMap {U : Type} (c : Cfg K) {f : U → K → V → U × V × Bool} (hf : ∀ u k v, (f u k v).2.1 = v) (u : U) (x : Link) :
    Quiet (visitMap c f u x : M K V (U × Bool)) := by
  unfold Amt.visitMap
  refine Quiet.bind (Quiet.readKey _ _) fun k => ?_
  intro s a s' h
  rw [bind_run] at h
  cases hl : Amt.loadKv x.ptr s with
  | error e => rw [hl] at h; cases h
  | ok r =>
    obtain ⟨kv, s₁⟩ := r
    rw [hl] at h
    obtain rfl := Quiet.loadKv _ _ _ _ hl
    simp only [hf] at h
    unfold Amt.loadKv at hl
    rw [bind_run] at h
    unfold storeVal at h
    split at hl
    · cases hl
    · rename_i b hb
      split at hl
      · cases hl
      · cases hl
      · rename_i ko v hm
        cases hl
        rw [hb] at h
        simp only [hm] at h
        cases h
        have : (fun a => if a = b then some (Obj.kv ko v) else s₁.mem a) = s₁.mem := by
          funext a
          by_cases ha : a = b
          · rw [if_pos ha, ha, hm]
          · rw [if_neg ha]
        rw [this]

end

/-- The calls of a map that only read: `Get`, `Val`, `Ptr`, `Len`, `Dep`, and `All` with a callback that leaves every
value as it is. -/
def _root_.Spec.MOp.Reads {K V : Type} : MOp K V → Prop
  | .get _ | .val _ | .ptr _ | .len | .dep => True
  | .all f => ∀ log k v, (f log k v).1 = v
  | _ => False

/-- The calls of a set that only read. -/
def _root_.Spec.SOp.Reads {K : Type} : SOp K → Prop
  | .has _ | .len | .dep | .all _ => True
  | _ => False

/-- C30, maps: in any memory whatsoever, a call that only reads leaves everything as it was. -/
theorem C30_map {K V : Type} [Inhabited V] (I : MapImpl K V) (fuel : Nat) (m : Handle) {op : MOp K V} (hop : op.Reads)
    (s : St K V) {o : MOut K V} {s' : St K V} (h : I.exec fuel m op s = .ok (o, s')) : s' = s := by
  have hptr : ∀ k, Quiet (I.Ptr fuel m k) := fun k => Quiet.bind (Quiet.deref m) fun h => Quiet.lookup _ _ _ _
  have : Quiet (I.exec fuel m op) := by
    cases op with
    | get k =>
      refine Quiet.bind (Quiet.bind (hptr k) fun p => ?_) fun _ => Quiet.pure _
      split
      · exact Quiet.pure _
      · exact Quiet.bind (Quiet.loadKv _) fun _ => Quiet.pure _
    | val k =>
      refine Quiet.bind ?_ fun _ => Quiet.pure _
      unfold MapImpl.Val
      split
      · exact Quiet.pure _
      · refine Quiet.bind (hptr k) fun p => ?_
        split
        · exact Quiet.pure _
        · exact Quiet.bind (Quiet.loadKv _) fun _ => Quiet.pure _
    | ptr k =>
      refine Quiet.bind (hptr k) fun p => ?_
      split
      · exact Quiet.pure _
      · exact Quiet.bind (Quiet.loadKv _) fun _ => Quiet.pure _
    | len =>
      refine Quiet.bind ?_ fun _ => Quiet.pure _
      unfold MapImpl.Len
      split
      · exact Quiet.pure _
      · exact Quiet.bind (Quiet.getRoot _) fun _ => Quiet.pure _
    | dep =>
      refine Quiet.bind ?_ fun _ => Quiet.pure _
      unfold MapImpl.Dep
      split
      · exact Quiet.pure _
      · exact Quiet.bind (Quiet.getRoot _) fun _ => Quiet.ite (Quiet.pure _) (Quiet.pure _)
    | all f =>
      refine Quiet.bind (Quiet.bind (Quiet.deref m) fun h => Quiet.bind (Quiet.scan (fun u x => ?_) _ _ _) fun _ => Quiet.pure _) fun _ => Quiet.pure _
      exact Quiet.visitMap _ (fun u k v => hop u k v) _ _
    | set => cases hop
    | mod => cases hop
    | del => cases hop
    | write => cases hop
  exact this s o s' h

/-- C30, sets. -/
theorem C30_set {K : Type} (I : SetImpl K) (fuel : Nat) (m : Handle) {op : SOp K} (hop : op.Reads)
    (s : St K Unit) {o : SOut K} {s' : St K Unit} (h : I.exec fuel m op s = .ok (o, s')) : s' = s := by
  have : Quiet (I.exec fuel m op) := by
    cases op with
    | has k =>
      exact Quiet.bind (Quiet.bind (Quiet.deref m) fun h => Quiet.bind (Quiet.lookup _ _ _ _) fun _ => Quiet.pure _) fun _ => Quiet.pure _
    | len =>
      refine Quiet.bind ?_ fun _ => Quiet.pure _
      unfold SetImpl.Len MapImpl.Len
      split
      · exact Quiet.pure _
      · exact Quiet.bind (Quiet.getRoot _) fun _ => Quiet.pure _
    | dep =>
      refine Quiet.bind ?_ fun _ => Quiet.pure _
      unfold SetImpl.Dep MapImpl.Dep
      split
      · exact Quiet.pure _
      · exact Quiet.bind (Quiet.getRoot _) fun _ => Quiet.ite (Quiet.pure _) (Quiet.pure _)
    | all f =>
      refine Quiet.bind (Quiet.bind (Quiet.deref m) fun h => Quiet.bind (Quiet.scan (fun u x => ?_) _ _ _) fun _ => Quiet.pure _) fun _ => Quiet.pure _
      exact Quiet.visitSet _ _ _ _
    | add => cases hop
    | del => cases hop
  exact this s o s' h

/-- C30 is not about an empty set of executions: after any covered history a reading call does return. -/
theorem C30_map_returns {K V : Type} [DecidableEq K] [Inhabited V] {I : MapImpl K V} {sd : Seed} {H : K → Nat → BitVec 64}
    {P : Bool → List K → K → Prop} {lossy : V → V} {ex : Prop} {fuel : Nat} (hc : MapContainer I sd H P lossy ex)
    {ops : List (MOp K V)} (h : EachNew P [] ops) {op : MOp K V} (hop : op.Reads) (hf : 256 ≤ fuel) (s : St K V) :
    ∃ m os s₁ o, I.session fuel sd ops s = .ok ((m, os), s₁) ∧ I.exec fuel m op s₁ = .ok (o, s₁) := by
  obtain ⟨os, s', t, F, m, e1, i1, e3, e4⟩ := hc.session h hf s
  obtain ⟨okS, okM, h1⟩ := hc.ok
  have hnew : NewOk P (absT t).keys op := by
    intro k hk
    cases op <;> first | (cases hop; done) | (exact absurd hk (by simp [MOp.stores]))
  obtain ⟨o, s₂, _, _, e5, _⟩ := map_step h1 i1 hf op hnew
  obtain rfl := C30_map I fuel _ hop s' e5
  exact ⟨_, os, _, o, e1, e5⟩

example := C30_map_returns (MapContainer.string (V := Nat) toyHash 0#64) exOps_str (op := .all fun log k v => (v, decide (log.length < 2)))
  (fun _ _ _ => rfl) (Nat.le_refl 256) St.init

/-- As `C30_map_returns`, for sets. -/
theorem C30_set_returns {K : Type} [DecidableEq K] {I : SetImpl K} {sd : Seed} {H : K → Nat → BitVec 64}
    {P : List K → K → Prop} {inv : Bool} {ex : Prop} {fuel : Nat} (hc : SetContainer I sd H P inv ex)
    {ops : List (SOp K)} (h : SEachNew H inv P [] ops) {op : SOp K} (hop : op.Reads) (hf : 256 ≤ fuel) (s : St K Unit) :
    ∃ m os s₁ o, I.session fuel sd ops s = .ok ((m, os), s₁) ∧ I.exec fuel m op s₁ = .ok (o, s₁) := by
  obtain ⟨os, s', t, F, m, e1, i1, e3, e4⟩ := hc.session h hf s
  obtain ⟨okA, h1⟩ := hc.ok
  have hnew : ∀ k ∈ op.stores, k ∉ absS t → P (absS t) k := by
    intro k hk
    cases op <;> first | (cases hop; done) | (exact absurd hk (by simp [SOp.stores]))
  obtain ⟨o, s₂, _, _, e5, _⟩ := set_step h1 i1 hf op hnew
  obtain rfl := C30_set I fuel _ hop s' e5
  exact ⟨_, os, _, o, e1, e5⟩

example := C30_set_returns (SetContainer.bytes toyHash 0#64) exOpsS_bytes (op := .has (strKey 3)) trivial (Nat.le_refl 256) St.init

/-! ### C31: uninitialised containers -/

/-- C31, maps: on the zero value `Len` and `Dep` return 0 and `Val` the zero value; every other call panics, whatever
is in memory. -/
theorem C31_map {K V : Type} [Inhabited V] (I : MapImpl K V) (fuel : Nat) (s : St K V) (op : MOp K V) :
    MapImpl.Nil none = true ∧ I.exec fuel none op s = match op with
      | .len => .ok (.num 0#64, s)
      | .dep => .ok (.rat 0, s)
      | .val _ => .ok (.one default, s)
      | _ => .error .nilDeref := by
  refine ⟨rfl, ?_⟩
  cases op <;> rfl

/-- C31, sets. -/
theorem C31_set {K : Type} (I : SetImpl K) (fuel : Nat) (s : St K Unit) (op : SOp K) :
    SetImpl.Nil none = true ∧ I.exec fuel none op s = match op with
      | .len => .ok (.num 0#64, s)
      | .dep => .ok (.rat 0, s)
      | _ => .error .nilDeref := by
  refine ⟨rfl, ?_⟩
  cases op <;> rfl

/-- C31.  What `New` returns is initialised, and a call on it never dereferences nil (it returns). -/
theorem C31_new {K V : Type} (sd : Seed) (s : St K V) : ∃ m s', MapImpl.New (V := V) (K := K) sd s = .ok (m, s') ∧ MapImpl.Nil m = false :=
  ⟨_, _, rfl, rfl⟩

theorem C31_new_set {K : Type} (sd : Seed) (s : St K Unit) : ∃ m s', SetImpl.New (K := K) sd s = .ok (m, s') ∧ SetImpl.Nil m = false :=
  ⟨_, _, rfl, rfl⟩

example : (StringMap toyHash).exec 256 none (.get (strKey 1)) (St.init (V := Nat)) = .error .nilDeref :=
  (C31_map _ _ _ (.get (strKey 1))).2

end Amt
