/-
C79: the translated `Mod` and `All`, with any program as the callback, do what those of the model do.

The callback is given the address of the value and may read and write the memory, in particular call methods of the same container.
For `Mod` it is asked to keep the memory tidy (`Verif/GoTidy.lean`); the calls of the translated methods do.
-/
import Verif.PropsGo

set_option linter.unusedVariables false
set_option linter.unusedSectionVars false
set_option linter.unusedSimpArgs false

namespace Amt.Go
open Amt Spec

/-- The methods of a map as they stand in the translation, with callbacks of any type. -/
structure MapFull (K V : Type) : Type 1 where
  code : MapCode K V
  Mod : {U : Type} → Nat → Handle → K → (U → Amt.Ptr → Bool → M K V U) → U → M K V U
  All : {U : Type} → Nat → Handle → (U → K → Amt.Ptr → M K V (U × Bool)) → U → M K V U

/-- The same of a set. -/
structure SetFull (K : Type) : Type 1 where
  code : SetCode K
  All : {U : Type} → Nat → Handle → (U → K → M K Unit (U × Bool)) → U → M K Unit U

/-- The five translated maps and their models. -/
inductive MapFullOf {V : Type} [Inhabited V] : {K : Type} → MapFull K V → MapImpl K V → Prop where
  | string (sum : Maphash) : MapFullOf ⟨stringMap sum, StringMap.Mod sum, StringMap.All⟩ (Amt.StringMap sum)
  | bytes (sum : Maphash) : MapFullOf ⟨bytesMap sum, BytesMap.Mod sum, BytesMap.All⟩ (Amt.BytesMap sum)
  | arr (sum : Maphash) {K : Type} [DecidableEq K] (kb : K → List UInt8) : MapFullOf ⟨arrMap sum kb, ArrMap.Mod sum kb, ArrMap.All⟩ (Amt.ArrMap sum kb)
  | int (sum : Maphash) : MapFullOf ⟨intMap sum, IntMap.Mod sum, IntMap.All⟩ (Amt.IntMap sum)
  | generic {K : Type} (I : KeyImpl K) : MapFullOf ⟨map I, Map.Mod I, Map.All⟩ (GenericMap I)

/-- The five translated sets and their models. -/
inductive SetFullOf : {K : Type} → SetFull K → SetImpl K → Prop where
  | string (sum : Maphash) : SetFullOf ⟨stringSet sum, StringSet.All⟩ (Amt.StringSet sum)
  | bytes (sum : Maphash) : SetFullOf ⟨bytesSet sum, BytesSet.All⟩ (Amt.BytesSet sum)
  | arr (sum : Maphash) {K : Type} [DecidableEq K] (kb : K → List UInt8) : SetFullOf ⟨arrSet sum kb, ArrSet.All⟩ (Amt.ArrSet sum kb)
  | int (sum : Maphash) : SetFullOf ⟨intSet sum, IntSet.All⟩ (Amt.IntSet sum)
  | generic {K : Type} (I : KeyImpl K) : SetFullOf ⟨set I, Set.All⟩ (GenericSet I)

section
variable {K V U : Type} [Inhabited V]

/-! ### All -/

theorem visitKv_eq {c : Cfg K} (hc : c.store = .boxed) (f : U → K → Amt.Ptr → M K V (U × Bool)) :
    visitKv f = visitMapM c (fun u k p => fieldAddr p >>= fun q => f u k q) := by
  funext u x
  unfold visitKv visitMapM
  rw [readKey_kvKey hc]

theorem visitInt_eq (sum : Maphash) (f : U → IntKey → Amt.Ptr → M IntKey V (U × Bool)) :
    visitInt f = visitMapM (intCfg .inline sum) (fun u k p => fieldAddr p >>= fun q => f u k q) := rfl

theorem visitK_eq {c : Cfg K} (hc : c.store = .boxed) (f : U → K → M K Unit (U × Bool)) : visitK f = visitMapM c (fun u k _ => f u k) := by
  funext u x
  unfold visitK visitMapM
  rw [readKey_kvKey hc]

theorem visitI_eq (sum : Maphash) (f : U → IntKey → M IntKey Unit (U × Bool)) : visitI f = visitMapM (intCfg .bare sum) (fun u k _ => f u k) := rfl

/-- C79, `All` of the maps: the same program, in every memory. -/
theorem C79_map_All {G : MapFull K V} {I : MapImpl K V} (h : MapFullOf G I) (n : Nat) (m : Handle) (f : U → K → Amt.Ptr → M K V (U × Bool)) (u : U) :
    G.All n m f u = I.AllWith n m (fun u k p => fieldAddr p >>= fun q => f u k q) u := by
  cases m with
  | none => cases h <;> rfl
  | some h' =>
    cases h with
    | string sum =>
      show (StringMap.stringScan f n u (linkOf h') >>= _) = _
      rw [StringMap.stringScan_eq, visitKv_eq (c := boxedCfg sum id) rfl]; rfl
    | bytes sum =>
      show (BytesMap.bytesScan f n u (linkOf h') >>= _) = _
      rw [BytesMap.bytesScan_eq, visitKv_eq (c := boxedCfg sum id) rfl]; rfl
    | arr sum kb =>
      show (ArrMap.arrScan f n u (linkOf h') >>= _) = _
      rw [ArrMap.arrScan_eq, visitKv_eq (c := boxedCfg sum kb) rfl]; rfl
    | int sum =>
      show (IntMap.intScan f n u (linkOf h') >>= _) = _
      rw [IntMap.intScan_eq, visitInt_eq sum]; rfl
    | generic I =>
      show (Map.mapScan f n u (linkOf h') >>= _) = _
      rw [Map.mapScan_eq, visitKv_eq (c := genericCfg I) rfl]; rfl

/-- C79, `All` of the sets. -/
theorem C79_set_All {G : SetFull K} {I : SetImpl K} (h : SetFullOf G I) (n : Nat) (m : Handle) (f : U → K → M K Unit (U × Bool)) (u : U) :
    G.All n m f u = I.AllWith n m f u := by
  cases m with
  | none => cases h <;> rfl
  | some h' =>
    cases h with
    | string sum =>
      show (StringSet.stringSetScan f n u (linkOf h') >>= _) = _
      rw [StringSet.stringSetScan_eq, visitK_eq (c := boxedCfg sum id) rfl]; rfl
    | bytes sum =>
      show (BytesSet.bytesSetScan f n u (linkOf h') >>= _) = _
      rw [BytesSet.bytesSetScan_eq, visitK_eq (c := boxedCfg sum id) rfl]; rfl
    | arr sum kb =>
      show (ArrSet.arrSetScan f n u (linkOf h') >>= _) = _
      rw [ArrSet.arrSetScan_eq, visitK_eq (c := boxedCfg sum kb) rfl]; rfl
    | int sum =>
      show (IntSet.intSetScan f n u (linkOf h') >>= _) = _
      rw [IntSet.intSetScan_eq, visitI_eq sum]; rfl
    | generic I =>
      show (Set.setScan f n u (linkOf h') >>= _) = _
      rw [Set.setScan_eq, visitK_eq (c := genericCfg I) rfl]; rfl

/-! ### Mod -/

theorem newKv_neat (c : Cfg K) (key : K) (v : V) : Neat (newKv c key v) := by
  intro s p t hs hp
  refine (Makes.kv c key v ()).neat s (p, ()) t hs ?_
  rw [run_bind, hp]
  rfl

theorem fieldAddr_reads (p : Amt.Ptr) : Reads (fieldAddr p : M K V Amt.Ptr) := by
  cases p with
  | nil => exact Reads.fail _
  | blk b => exact Reads.pure _

theorem modNew_neat (c : Cfg K) (key : K) {mod : U → Amt.Ptr → Bool → M K V U} {u : U} (hm : ∀ p b, Neat (mod u p b)) : Neat (modNew c key mod u) :=
  Neat.bind (newKv_neat c key _) fun p => Neat.bind (fieldAddr_reads p).neat fun q => Neat.bind (hm q false) fun r => Neat.pure _

/-- What the translated `Mod` does, in terms of the model. -/
theorem mod_upsert {G : MapFull K V} {I : MapImpl K V} (h : MapFullOf G I) (n h' : Nat) (key : K) (mod : U → Amt.Ptr → Bool → M K V U) (u : U)
    (hm : Neat (modNew I.cfg key mod u)) {s : St K V} (hs : Tidy s) :
    run (G.Mod n (some h') key mod u) s =
      run (upsertX I.cfg h' (n + 300) key (modG I.cfg (I.modI key fun v _ => v).chash (I.modI key fun v _ => v).guard key mod u)) s := by
  cases h with
  | string sum => exact StringMap.Mod_eq sum n h' key mod u hm hs
  | bytes sum => exact BytesMap.Mod_eq sum n h' key mod u hm hs
  | arr sum kb => exact ArrMap.Mod_eq sum kb n h' key mod u hm hs
  | int sum => exact IntMap.Mod_eq sum n h' key mod u hm hs
  | generic I => exact Map.Mod_eq I n h' key mod u hm hs

theorem mod_mono {G : MapFull K V} {I : MapImpl K V} (h : MapFullOf G I) (key : K) (mod : U → Amt.Ptr → Bool → M K V U) (u : U) :
    (modG I.cfg (I.modI key fun v _ => v).chash (I.modI key fun v _ => v).guard key mod u).Mono := by
  cases h with
  | string sum => exact fun sd key ckey d f f' hf => (StringMap_mono (V := V) sum).mod key (fun v _ => v) sd key ckey d f f' hf
  | bytes sum => exact fun sd key ckey d f f' hf => (BytesMap_mono (V := V) sum).mod key (fun v _ => v) sd key ckey d f f' hf
  | arr sum kb => exact fun sd key ckey d f f' hf => (ArrMap_mono (V := V) sum kb).mod key (fun v _ => v) sd key ckey d f f' hf
  | int sum => exact fun sd key ckey d f f' hf => (IntMap_mono (V := V) sum).mod key (fun v _ => v) sd key ckey d f f' hf
  | generic I => exact fun sd key ckey d f f' hf => (GenericMap_mono (V := V) I).mod key (fun v _ => v) sd key ckey d f f' hf

/-- C79, `Mod`: whatever the callback does, if the call of the model ends, in a result or in a panic, then so does the translated one, with the same
result and the same memory; and the other way round. -/
theorem C79_map_Mod {G : MapFull K V} {I : MapImpl K V} (h : MapFullOf G I) (m : Handle) (key : K) (mod : U → Amt.Ptr → Bool → M K V U) (u : U)
    (hm : ∀ p b, Neat (mod u p b)) {s : St K V} (hs : Tidy s) (n : Nat) :
    (I.ModWith n m key (fun p b => fieldAddr p >>= fun q => mod u q b) s ≠ .error .diverge →
      G.Mod n m key mod u s = I.ModWith n m key (fun p b => fieldAddr p >>= fun q => mod u q b) s) ∧
    (G.Mod n m key mod u s ≠ .error .diverge →
      I.ModWith (n + 301) m key (fun p b => fieldAddr p >>= fun q => mod u q b) s = G.Mod n m key mod u s) := by
  cases m with
  | none => cases h <;> exact ⟨fun _ => rfl, fun _ => rfl⟩
  | some h' =>
    have e := mod_upsert h n h' key mod u (modNew_neat _ key hm) hs
    have hw : ∀ n, I.ModWith n (some h') key (fun p b => fieldAddr p >>= fun q => mod u q b) =
        upsert I.cfg h' n key (modG I.cfg (I.modI key fun v _ => v).chash (I.modI key fun v _ => v).guard key mod u) := by
      intro n
      show upsert I.cfg h' n key _ = _
      unfold modG modNew
      simp only [bind_assoc_M]
    rw [show G.Mod n (some h') key mod u s = _ from e]
    rw [hw, hw]
    refine ⟨fun hn => ?_, fun hn => ?_⟩
    · rcases upsert_lo I.cfg h' n key (mod_mono h key mod u) s with h1 | h1
      · exact absurd h1 hn
      · exact h1
    · rcases upsert_hi I.cfg h' (n + 300) key (mod_mono h key mod u) s with h1 | h1
      · exact absurd h1 hn
      · exact h1

/-! A callback that calls a method of the same map. -/

theorem set_neat {G : MapCode K V} {I : MapImpl K V} (hG : Mirrors G I) (n h : Nat) (key : K) (v : V) : Neat (G.Set n (some h) key v) := by
  intro s a t hs he
  rw [hG.set n h key v s hs] at he
  exact upsertL_neat I.cfg h (n + 300) key (hG.setNeat key v) v () s a t hs he

end

/-- `m.Mod("b", func(p, ok) { m.Set("c", 5); *p = 7 })`. -/
def exCb (n h : Nat) : List Bool → Amt.Ptr → Bool → M ByteStr Nat (List Bool) :=
  fun u p b => StringMap.Set toyHash n (some h) (strKey 3) 5 >>= fun _ => storeVal p 7 >>= fun _ => pure (b :: u)

theorem exCb_neat (n h : Nat) (u : List Bool) (p : Amt.Ptr) (b : Bool) : Neat (exCb n h u p b) :=
  Neat.bind (set_neat (stringMap_mirrors (V := Nat) toyHash) n h (strKey 3) 5) fun _ => Neat.bind (Neat.storeVal p 7) fun _ => Neat.pure _

/-- A new map. -/
def exRoot : St ByteStr Nat := match newRoot 0#64 (St.init : St ByteStr Nat) with
  | .ok (_, t) => t
  | .error _ => St.init

theorem exRoot_tidy : Tidy exRoot := by
  unfold exRoot
  cases h : newRoot 0#64 (St.init : St ByteStr Nat) with
  | error e => exact init_tidy
  | ok r => exact newRoot_neat 0#64 _ r.1 r.2 init_tidy h

/-- The key is new, and the call returns. -/
example : (match StringMap.Mod toyHash 20 (some (St.init : St ByteStr Nat).next) (strKey 2) (exCb 20 (St.init : St ByteStr Nat).next) [] exRoot with
  | .ok ([false], _) => true
  | _ => false) = true := by decide +kernel

example := C79_map_Mod (MapFullOf.string (V := Nat) toyHash) (some (St.init : St ByteStr Nat).next) (strKey 2) (exCb 20 (St.init : St ByteStr Nat).next) []
  (exCb_neat 20 _ []) exRoot_tidy 20
example := C79_map_All (MapFullOf.string (V := Nat) toyHash) 256 (some 0) (fun (u : List ByteStr) k p => pure (k :: u, true)) []
example := C79_set_All (SetFullOf.string toyHash) 256 (some 0) (fun (u : List ByteStr) k => pure (k :: u, true)) []

end Amt.Go
