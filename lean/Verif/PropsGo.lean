/-
C69: on every history of calls the statement-by-statement translation of the Go files gives the answers of the model.

`tools/go2lean.py` translates the methods of the ten container files line by line (`Verif/Go*.lean`); the model of `Verif/Model.lean` is
written once for all containers.  Here nine containers are created and used through the translated methods, with the scratch area of the
root passed from one `Del` to the next, and every answer and every fault is that of the model.
-/
import Verif.GoHist
import Verif.Examples
import Verif.PropsRefine

set_option linter.unusedVariables false
set_option linter.unusedSectionVars false
set_option linter.unusedSimpArgs false

namespace Amt.Go
open Amt Spec

section
variable {K V : Type} [Inhabited V]

/-! ### The translated methods as containers -/

def stringMap (sum : Maphash) : MapCode ByteStr V where
  Ptr := StringMap.Ptr sum
  Get := StringMap.Get sum
  Val := StringMap.Val sum
  Set := StringMap.Set sum
  Mod := StringMap.Mod sum
  Del := StringMap.Del sum
  All := StringMap.All

def bytesMap (sum : Maphash) : MapCode ByteStr V where
  Ptr := BytesMap.Ptr sum
  Get := BytesMap.Get sum
  Val := BytesMap.Val sum
  Set := BytesMap.Set sum
  Mod := BytesMap.Mod sum
  Del := BytesMap.Del sum
  All := BytesMap.All

def arrMap [DecidableEq K] (sum : Maphash) (kb : K → List UInt8) : MapCode K V where
  Ptr := ArrMap.Ptr sum kb
  Get := ArrMap.Get sum kb
  Val := ArrMap.Val sum kb
  Set := ArrMap.Set sum kb
  Mod := ArrMap.Mod sum kb
  Del := ArrMap.Del sum kb
  All := ArrMap.All

def intMap (sum : Maphash) : MapCode IntKey V where
  Ptr := IntMap.Ptr sum
  Get := IntMap.Get sum
  Val := IntMap.Val sum
  Set := IntMap.Set sum
  Mod := IntMap.Mod sum
  Del := IntMap.Del sum
  All := IntMap.All

def map (I : KeyImpl K) : MapCode K V where
  Ptr := Map.Ptr I
  Get := Map.Get I
  Val := Map.Val I
  Set := Map.Set I
  Mod := Map.Mod I
  Del := Map.Del I
  All := Map.All

def stringSet (sum : Maphash) : SetCode ByteStr where
  Has := StringSet.Has sum
  Add := StringSet.Add sum
  Del := StringSet.Del sum
  All := StringSet.All

def bytesSet (sum : Maphash) : SetCode ByteStr where
  Has := BytesSet.Has sum
  Add := BytesSet.Add sum
  Del := BytesSet.Del sum
  All := BytesSet.All

def arrSet [DecidableEq K] (sum : Maphash) (kb : K → List UInt8) : SetCode K where
  Has := ArrSet.Has sum kb
  Add := ArrSet.Add sum kb
  Del := ArrSet.Del sum kb
  All := ArrSet.All

def intSet (sum : Maphash) : SetCode IntKey where
  Has := IntSet.Has sum
  Add := IntSet.Add sum
  Del := IntSet.Del sum
  All := IntSet.All

def set (I : KeyImpl K) : SetCode K where
  Has := Set.Has I
  Add := Set.Add I
  Del := Set.Del I
  All := Set.All

/-! ### Their call-by-call agreement with the model -/

theorem setIns_neat (c : Cfg K) (chash : Chash K) (g : Bool) (key : K) (v : V) : InsNeat (setIns c chash g key v) :=
  ⟨fun p => Neat.storeVal p v, Makes.kv c key v (), Makes.kv c key v ()⟩

theorem setInsArr_neat (c : Cfg K) (chash : Chash K) (key : K) (v : V) : InsNeat (setInsArr c chash key v) :=
  ⟨fun p => Neat.storeVal p v, Makes.kv c key default (), Makes.kv c key v ()⟩

theorem modIns_neat (c : Cfg K) (chash : Chash K) (g : Bool) (key : K) (f : V → Bool → V) : InsNeat (modIns c chash g key f) :=
  ⟨fun p => Neat.bind (Reads.loadKv p).neat fun kv => Neat.bind (Neat.storeVal p _) fun _ => Neat.pure _, Makes.kv c key _ _, Makes.kv c key _ _⟩

theorem addIns_neat (c : Cfg K) (chash : Chash K) (key : K) : InsNeat (addIns c chash key) :=
  ⟨fun p => Neat.pure _, Makes.kv c key () (), Makes.kv c key () ()⟩

theorem get_form {P : M K V Amt.Ptr} :
    (P >>= fun p => if (p != Amt.Ptr.nil) = true then kvVal p >>= fun v => pure (v, true) else pure (default, false)) =
      (P >>= fun p => if p = .nil then pure (default, false) else kvVal p >>= fun v => pure (v, true)) := by
  congr 1
  funext p
  cases p <;> rfl

theorem val_form {P : M K V Amt.Ptr} :
    (P >>= fun p => if (p != Amt.Ptr.nil) = true then kvVal p >>= fun v => pure v else pure default) = (P >>= fun p => if p = .nil then pure default else kvVal p) := by
  congr 1
  funext p
  cases p with
  | nil => rfl
  | blk b => exact bind_pure_M _

theorem visitKv_map {c : Cfg K} (hc : c.store = .boxed) (f : List (K × V) → K → V → V × Bool) :
    visitKv (allCb f) = visitMap c (fun log k v => (log ++ [(k, v)], f log k v)) := by
  funext u x s
  unfold visitKv visitMap
  rw [readKey_kvKey hc]
  cases hx : x.ptr with
  | nil => rfl
  | blk b => simp only [fieldAddr, pure_bind_M, allCb, kvVal, bind_assoc_M]

theorem visitInt_map (sum : Maphash) (f : List (IntKey × V) → IntKey → V → V × Bool) :
    visitInt (allCb f) = visitMap (intCfg .inline sum) (fun log k v => (log ++ [(k, v)], f log k v)) := by
  funext u x s
  unfold visitInt visitMap
  cases hx : x.ptr with
  | nil => rfl
  | blk b => simp only [fieldAddr, pure_bind_M, allCb, kvVal, bind_assoc_M]; rfl

theorem visitK_set {c : Cfg K} (hc : c.store = .boxed) (f : List K → K → Bool) :
    visitK (allCbS f) = visitSet c (fun log k => (log ++ [k], f log k)) := by
  funext u x s
  unfold visitK visitSet
  rw [readKey_kvKey hc]
  rfl

theorem visitI_set (sum : Maphash) (f : List IntKey → IntKey → Bool) :
    visitI (allCbS f) = visitSet (intSetCfg sum) (fun log k => (log ++ [k], f log k)) := rfl

theorem stringMap_mirrors (sum : Maphash) : Mirrors (stringMap (V := V) sum) (Amt.StringMap sum) where
  ptr n h key s := StringMap.Ptr_eq sum n h key s
  get n h key := get_form
  val n h key := val_form
  set n h key v s hs := StringMap.Set_eq sum n h key v hs
  slot key v := rfl
  setNeat key v := setIns_neat ..
  modNeat key f := modIns_neat ..
  mod n h key f s hs := by
    rw [show (stringMap sum).Mod n (some h) key (modCb f) [] = StringMap.Mod sum n (some h) key (modCb f) [] from rfl,
      StringMap.Mod_eq sum n h key _ _ (Makes.modCb (show Store.boxed ≠ .bare by decide) key f).neat hs, modG_modCb (show Store.boxed ≠ .bare by decide)]
    rfl
  del n h key path s hs := StringMap.Del_eq sum n h key path hs
  all n h f := by
    show (StringMap.stringScan (allCb f) n [] (linkOf h) >>= _) = _
    rw [StringMap.stringScan_eq, visitKv_map (c := boxedCfg sum id) rfl]
    rfl
  mono := StringMap_mono sum
  blind := (IsMap.string sum).blind

theorem bytesMap_mirrors (sum : Maphash) : Mirrors (bytesMap (V := V) sum) (Amt.BytesMap sum) where
  ptr n h key s := BytesMap.Ptr_eq sum n h key s
  get n h key := get_form
  val n h key := val_form
  set n h key v s hs := BytesMap.Set_eq sum n h key v hs
  slot key v := rfl
  setNeat key v := setIns_neat ..
  modNeat key f := modIns_neat ..
  mod n h key f s hs := by
    rw [show (bytesMap sum).Mod n (some h) key (modCb f) [] = BytesMap.Mod sum n (some h) key (modCb f) [] from rfl,
      BytesMap.Mod_eq sum n h key _ _ (Makes.modCb (show Store.boxed ≠ .bare by decide) key f).neat hs, modG_modCb (show Store.boxed ≠ .bare by decide)]
    rfl
  del n h key path s hs := BytesMap.Del_eq sum n h key path hs
  all n h f := by
    show (BytesMap.bytesScan (allCb f) n [] (linkOf h) >>= _) = _
    rw [BytesMap.bytesScan_eq, visitKv_map (c := boxedCfg sum id) rfl]
    rfl
  mono := BytesMap_mono sum
  blind := (IsMap.bytes sum).blind

theorem arrMap_mirrors [DecidableEq K] (sum : Maphash) (kb : K → List UInt8) : Mirrors (arrMap (V := V) sum kb) (Amt.ArrMap sum kb) where
  ptr n h key s := ArrMap.Ptr_eq sum kb n h key s
  get n h key := get_form
  val n h key := val_form
  set n h key v s hs := ArrMap.Set_eq sum kb n h key v hs
  slot key v := rfl
  setNeat key v := setInsArr_neat ..
  modNeat key f := modIns_neat ..
  mod n h key f s hs := by
    rw [show (arrMap sum kb).Mod n (some h) key (modCb f) [] = ArrMap.Mod sum kb n (some h) key (modCb f) [] from rfl,
      ArrMap.Mod_eq sum kb n h key _ _ (Makes.modCb (show Store.boxed ≠ .bare by decide) key f).neat hs, modG_modCb (show Store.boxed ≠ .bare by decide)]
    rfl
  del n h key path s hs := ArrMap.Del_eq sum kb n h key path hs
  all n h f := by
    show (ArrMap.arrScan (allCb f) n [] (linkOf h) >>= _) = _
    rw [ArrMap.arrScan_eq, visitKv_map (c := boxedCfg sum kb) rfl]
    rfl
  mono := ArrMap_mono sum kb
  blind := (IsMap.arr sum kb).blind

theorem intMap_mirrors (sum : Maphash) : Mirrors (intMap (V := V) sum) (Amt.IntMap sum) where
  ptr n h key s := IntMap.Ptr_eq sum n h key s
  get n h key := get_form
  val n h key := val_form
  set n h key v s hs := IntMap.Set_eq sum n h key v hs
  slot key v := rfl
  setNeat key v := setIns_neat ..
  modNeat key f := modIns_neat ..
  mod n h key f s hs := by
    rw [show (intMap sum).Mod n (some h) key (modCb f) [] = IntMap.Mod sum n (some h) key (modCb f) [] from rfl,
      IntMap.Mod_eq sum n h key _ _ (Makes.modCb (show Store.inline ≠ .bare by decide) key f).neat hs, modG_modCb (show Store.inline ≠ .bare by decide)]
    rfl
  del n h key path s hs := IntMap.Del_eq sum n h key path hs
  all n h f := by
    show (IntMap.intScan (allCb f) n [] (linkOf h) >>= _) = _
    rw [IntMap.intScan_eq, visitInt_map sum]
    rfl
  mono := IntMap_mono sum
  blind := (IsMap.int sum).blind

theorem map_mirrors (I : KeyImpl K) : Mirrors (map (V := V) I) (GenericMap I) where
  ptr n h key s := Map.Ptr_eq I n h key s
  get n h key := get_form
  val n h key := val_form
  set n h key v s hs := Map.Set_eq I n h key v hs
  slot key v := rfl
  setNeat key v := setIns_neat ..
  modNeat key f := modIns_neat ..
  mod n h key f s hs := by
    rw [show (map I).Mod n (some h) key (modCb f) [] = Map.Mod I n (some h) key (modCb f) [] from rfl,
      Map.Mod_eq I n h key _ _ (Makes.modCb (show Store.boxed ≠ .bare by decide) key f).neat hs, modG_modCb (show Store.boxed ≠ .bare by decide)]
    rfl
  del n h key path s hs := Map.Del_eq I n h key path hs
  all n h f := by
    show (Map.mapScan (allCb f) n [] (linkOf h) >>= _) = _
    rw [Map.mapScan_eq, visitKv_map (c := genericCfg I) rfl]
    rfl
  mono := GenericMap_mono I
  blind := (IsMap.generic I).blind

theorem stringSet_mirrors (sum : Maphash) : SetMirrors (stringSet sum) (Amt.StringSet sum) where
  has n h key s := StringSet.Has_eq sum n h key s
  add n h key s hs := StringSet.Add_eq sum n h key hs
  slot key := rfl
  neat key := addIns_neat ..
  del n h key path s hs := StringSet.Del_eq sum n h key path hs
  all n h f := by
    show (StringSet.stringSetScan (allCbS f) n [] (linkOf h) >>= _) = _
    rw [StringSet.stringSetScan_eq, visitK_set (c := boxedCfg sum id) rfl]
    rfl
  mono := StringSet_mono sum
  blind _ _ _ := .add ..

theorem bytesSet_mirrors (sum : Maphash) : SetMirrors (bytesSet sum) (Amt.BytesSet sum) where
  has n h key s := BytesSet.Has_eq sum n h key s
  add n h key s hs := BytesSet.Add_eq sum n h key hs
  slot key := rfl
  neat key := addIns_neat ..
  del n h key path s hs := BytesSet.Del_eq sum n h key path hs
  all n h f := by
    show (BytesSet.bytesSetScan (allCbS f) n [] (linkOf h) >>= _) = _
    rw [BytesSet.bytesSetScan_eq, visitK_set (c := boxedCfg sum id) rfl]
    rfl
  mono := BytesSet_mono sum
  blind _ _ _ := .add ..

theorem arrSet_mirrors [DecidableEq K] (sum : Maphash) (kb : K → List UInt8) : SetMirrors (arrSet sum kb) (Amt.ArrSet sum kb) where
  has n h key s := ArrSet.Has_eq sum kb n h key s
  add n h key s hs := ArrSet.Add_eq sum kb n h key hs
  slot key := rfl
  neat key := addIns_neat ..
  del n h key path s hs := ArrSet.Del_eq sum kb n h key path hs
  all n h f := by
    show (ArrSet.arrSetScan (allCbS f) n [] (linkOf h) >>= _) = _
    rw [ArrSet.arrSetScan_eq, visitK_set (c := boxedCfg sum kb) rfl]
    rfl
  mono := ArrSet_mono sum kb
  blind _ _ _ := .add ..

theorem intSet_mirrors (sum : Maphash) : SetMirrors (intSet sum) (Amt.IntSet sum) where
  has n h key s := IntSet.Has_eq sum n h key s
  add n h key s hs := IntSet.Add_eq sum n h key hs
  slot key := rfl
  neat key := addIns_neat ..
  del n h key path s hs := IntSet.Del_eq sum n h key path hs
  all n h f := by
    show (IntSet.intSetScan (allCbS f) n [] (linkOf h) >>= _) = _
    rw [IntSet.intSetScan_eq, visitI_set sum]
    rfl
  mono := IntSet_mono sum
  blind _ _ _ := .add ..

theorem set_mirrors (I : KeyImpl K) : SetMirrors (set I) (GenericSet I) where
  has n h key s := Set.Has_eq I n h key s
  add n h key s hs := Set.Add_eq I n h key hs
  slot key := rfl
  neat key := addIns_neat ..
  del n h key path s hs := Set.Del_eq I n h key path hs
  all n h f := by
    show (Set.setScan (allCbS f) n [] (linkOf h) >>= _) = _
    rw [Set.setScan_eq, visitK_set (c := genericCfg I) rfl]
    rfl
  mono := GenericSet_mono I
  blind _ _ _ := .add ..

end

/-! ### C69 -/

/-- The five translated maps and their models. -/
inductive MapCodeOf {V : Type} [Inhabited V] : {K : Type} → MapCode K V → MapImpl K V → Prop where
  | string (sum : Maphash) : MapCodeOf (stringMap sum) (Amt.StringMap sum)
  | bytes (sum : Maphash) : MapCodeOf (bytesMap sum) (Amt.BytesMap sum)
  | arr (sum : Maphash) {K : Type} [DecidableEq K] (kb : K → List UInt8) : MapCodeOf (arrMap sum kb) (Amt.ArrMap sum kb)
  | int (sum : Maphash) : MapCodeOf (intMap sum) (Amt.IntMap sum)
  | generic {K : Type} (I : KeyImpl K) : MapCodeOf (map I) (GenericMap I)

/-- The five translated sets and their models. -/
inductive SetCodeOf : {K : Type} → SetCode K → SetImpl K → Prop where
  | string (sum : Maphash) : SetCodeOf (stringSet sum) (Amt.StringSet sum)
  | bytes (sum : Maphash) : SetCodeOf (bytesSet sum) (Amt.BytesSet sum)
  | arr (sum : Maphash) {K : Type} [DecidableEq K] (kb : K → List UInt8) : SetCodeOf (arrSet sum kb) (Amt.ArrSet sum kb)
  | int (sum : Maphash) : SetCodeOf (intSet sum) (Amt.IntSet sum)
  | generic {K : Type} (I : KeyImpl K) : SetCodeOf (set I) (GenericSet I)

theorem init_tidy {K V : Type} : Tidy (St.init : St K V) := ⟨fun _ => 0, ⟨fun _ _ => rfl, fun _ _ _ h => nomatch h⟩⟩

section
variable {K V : Type} [Inhabited V]

theorem MapCodeOf.mirrors {G : MapCode K V} {I : MapImpl K V} (h : MapCodeOf G I) : Mirrors G I := by
  cases h with
  | string sum => exact stringMap_mirrors sum
  | bytes sum => exact bytesMap_mirrors sum
  | arr sum kb => exact arrMap_mirrors sum kb
  | int sum => exact intMap_mirrors sum
  | generic I => exact map_mirrors I

theorem SetCodeOf.mirrors {G : SetCode K} {I : SetImpl K} (h : SetCodeOf G I) : SetMirrors G I := by
  cases h with
  | string sum => exact stringSet_mirrors sum
  | bytes sum => exact bytesSet_mirrors sum
  | arr sum kb => exact arrSet_mirrors sum kb
  | int sum => exact intSet_mirrors sum
  | generic I => exact set_mirrors I

/-- C69.  Every history of calls of the translated methods of a map has the answers, or the fault, of the model.  The bound `n` on the
number of repetitions of a loop is not a part of the Go program: the translation allows `n + 300`. -/
theorem C69_map {G : MapCode K V} {I : MapImpl K V} (h : MapCodeOf G I) (n : Nat) (sd : Seed) (ops : List (MOp K V)) (s : St K V) :
    (answers (I.session n sd ops s) = .error .diverge ∨ answers (G.session n sd ops St.init) = answers (I.session n sd ops s)) ∧
      (answers (G.session n sd ops St.init) = .error .diverge ∨ answers (I.session (n + 301) sd ops s) = answers (G.session n sd ops St.init)) :=
  h.mirrors.session n sd ops init_tidy s

/-- C69 for sets. -/
theorem C69_set {G : SetCode K} {I : SetImpl K} (h : SetCodeOf G I) (n : Nat) (sd : Seed) (ops : List (SOp K)) (s : St K Unit) :
    (answers (I.session n sd ops s) = .error .diverge ∨ answers (G.session n sd ops St.init) = answers (I.session n sd ops s)) ∧
      (answers (G.session n sd ops St.init) = .error .diverge ∨ answers (I.session (n + 301) sd ops s) = answers (G.session n sd ops St.init)) :=
  h.mirrors.session n sd ops init_tidy s

/-- A history that the model answers is answered in the same way by the translation, and conversely. -/
theorem C69_map_ok {G : MapCode K V} {I : MapImpl K V} (h : MapCodeOf G I) (sd : Seed) (ops : List (MOp K V)) (s : St K V) (os : List (MOut K V)) :
    (∃ n, answers (G.session n sd ops St.init) = .ok os) ↔ ∃ n, answers (I.session n sd ops s) = .ok os := by
  constructor
  · rintro ⟨n, hn⟩
    rcases (C69_map h n sd ops s).2 with h1 | h1
    · rw [h1] at hn; cases hn
    · exact ⟨n + 301, h1.trans hn⟩
  · rintro ⟨n, hn⟩
    rcases (C69_map h n sd ops s).1 with h1 | h1
    · rw [h1] at hn; cases hn
    · exact ⟨n, h1.trans hn⟩

/-- A history never ends in the translation exactly if it never ends in the model. -/
theorem C69_map_loops {G : MapCode K V} {I : MapImpl K V} (h : MapCodeOf G I) (sd : Seed) (ops : List (MOp K V)) (s : St K V) :
    (∀ n, answers (G.session n sd ops St.init) = .error .diverge) ↔ ∀ n, answers (I.session n sd ops s) = .error .diverge := by
  constructor
  · intro hd n
    rcases (C69_map h n sd ops s).1 with h1 | h1
    · exact h1
    · exact h1.symm.trans (hd n)
  · intro hd n
    rcases (C69_map h n sd ops s).2 with h1 | h1
    · exact h1
    · exact h1.symm.trans (hd _)

theorem answers_ok {α β σ : Type} {x : Except Fault ((α × β) × σ)} {a : α} {b : β} {s : σ} (h : x = .ok ((a, b), s)) : answers x = .ok b := by
  rw [h]; rfl

/-- What holds of the answers of the model holds of the answers of the translation. -/
theorem MapCodeOf.transfer {G : MapCode K V} {I : MapImpl K V} (h : MapCodeOf G I) {n : Nat} {sd : Seed} {ops : List (MOp K V)} {s : St K V} {os : List (MOut K V)}
    (hm : answers (I.session n sd ops s) = .ok os) : answers (G.session n sd ops St.init) = .ok os := by
  rcases (C69_map h n sd ops s).1 with h1 | h1
  · rw [h1] at hm; cases hm
  · exact h1.trans hm

theorem SetCodeOf.transfer {G : SetCode K} {I : SetImpl K} (h : SetCodeOf G I) {n : Nat} {sd : Seed} {ops : List (SOp K)} {s : St K Unit} {os : List (SOut K)}
    (hm : answers (I.session n sd ops s) = .ok os) : answers (G.session n sd ops St.init) = .ok os := by
  rcases (C69_set h n sd ops s).1 with h1 | h1
  · rw [h1] at hm; cases hm
  · exact h1.trans hm

end

/-! ### What the translated containers do -/

section
variable {V : Type} [Inhabited V] (sum : Maphash) (sd : Seed) {n : Nat}

/-- C01 of the translation of string_map.go. -/
theorem C69_StringMap (ops : List (MOp ByteStr V)) (hn : EachNew (fun _ => ByteFits (byteStream sum sd id)) [] ops) (hf : 256 ≤ n) :
    ∃ os m, answers ((stringMap sum).session n sd ops St.init) = .ok os ∧ MRun [] ops os m := by
  obtain ⟨os, s', m, h1, h2⟩ := C01_StringMap sum sd ops hn hf St.init
  exact ⟨os, m, (MapCodeOf.string sum).transfer (answers_ok h1), h2⟩

example := C69_StringMap toyHash 0#64 (exOps strKey) exOps_str (Nat.le_refl 256)

/-- C02 of the translation of bytes_map.go. -/
theorem C69_BytesMap (ops : List (MOp ByteStr V)) (hn : EachNew (fun _ => ByteFits (byteStream sum sd id)) [] ops) (hf : 256 ≤ n) :
    ∃ os m, answers ((bytesMap sum).session n sd ops St.init) = .ok os ∧ MRun [] ops os m := by
  obtain ⟨os, s', m, h1, h2⟩ := C02_BytesMap sum sd ops hn hf St.init
  exact ⟨os, m, (MapCodeOf.bytes sum).transfer (answers_ok h1), h2⟩

example := C69_BytesMap toyHash 0#64 (exOps strKey) exOps_str (Nat.le_refl 256)

/-- C03 of the translation of arr_map.go: exactly the map that forgets the value of a colliding new key. -/
theorem C69_ArrMap {K : Type} [DecidableEq K] (kb : K → List UInt8) (ops : List (MOp K V)) (hn : EachNew (fun _ => ByteFits (byteStream sum sd kb)) [] ops)
    (hf : 256 ≤ n) : ∃ os m, answers ((arrMap sum kb).session n sd ops St.init) = .ok os ∧ RunBy (MStepX (byteStream sum sd kb) True (fun _ => default)) [] ops os m := by
  obtain ⟨os, s', m, h1, h2⟩ := C03_ArrMap_exact sum sd kb ops hn hf St.init
  exact ⟨os, m, (MapCodeOf.arr sum kb).transfer (answers_ok h1), h2⟩

example := C69_ArrMap toyHash 0#64 (fun b : UInt8 => [b]) (exOps id) exOps_arr (Nat.le_refl 256)

/-- C04 of the translation of int_map.go. -/
theorem C69_IntMap (ops : List (MOp IntKey V)) (hn : EachNew (fun _ => IntSafe (byteStream sum sd intbytes)) [] ops) (hf : 256 ≤ n) :
    ∃ os m, answers ((intMap sum).session n sd ops St.init) = .ok os ∧ MRun [] ops os m := by
  obtain ⟨os, s', m, h1, h2⟩ := C04_IntMap_partial sum sd ops hn hf St.init
  exact ⟨os, m, (MapCodeOf.int sum).transfer (answers_ok h1), h2⟩

example := C69_IntMap toyHash 0#64 (exOps highKey) exOps_int (Nat.le_refl 256)

/-- C05 of the translation of generic_map.go. -/
theorem C69_Map {K : Type} [DecidableEq K] (I : KeyImpl K) (heq : ∀ a b, I.equal a b = true ↔ a = b) (ops : List (MOp K V))
    (hn : EachNew (GenFits fun k n => I.hash k sd n) [] ops) (hf : 256 ≤ n) :
    ∃ os m, answers ((map I).session n sd ops St.init) = .ok os ∧ MRun [] ops os m := by
  obtain ⟨os, s', m, h1, h2⟩ := C05_Map_partial sd I heq ops hn hf St.init
  exact ⟨os, m, (MapCodeOf.generic I).transfer (answers_ok h1), h2⟩

example := C69_Map 0#64 onceKey (by simp [onceKey]) (exOps UInt8.toNat) exOps_gen (Nat.le_refl 256)

/-- C06 of the translation of string_set.go. -/
theorem C69_StringSet (ops : List (SOp ByteStr)) (hn : SEachNew (byteStream sum sd id) false (ByteFits (byteStream sum sd id)) [] ops) (hf : 256 ≤ n) :
    ∃ os m, answers ((stringSet sum).session n sd ops St.init) = .ok os ∧ SRun [] ops os m := by
  obtain ⟨os, s', m, h1, h2⟩ := C06_StringSet sum sd ops hn hf St.init
  exact ⟨os, m, (SetCodeOf.string sum).transfer (answers_ok h1), h2⟩

example := C69_StringSet toyHash 0#64 (exOpsS strKey) exOpsS_str (Nat.le_refl 256)

/-- C07 of the translation of arr_set.go. -/
theorem C69_ArrSet {K : Type} [DecidableEq K] (kb : K → List UInt8) (ops : List (SOp K))
    (hn : SEachNew (byteStream sum sd kb) false (ByteFits (byteStream sum sd kb)) [] ops) (hf : 256 ≤ n) :
    ∃ os m, answers ((arrSet sum kb).session n sd ops St.init) = .ok os ∧ SRun [] ops os m := by
  obtain ⟨os, s', m, h1, h2⟩ := C07_ArrSet sum sd kb ops hn hf St.init
  exact ⟨os, m, (SetCodeOf.arr sum kb).transfer (answers_ok h1), h2⟩

example := C69_ArrSet toyHash 0#64 (fun b : UInt8 => [b]) (exOpsS id) exOpsS_arr (Nat.le_refl 256)

/-- C08 of the translation of bytes_set.go: exactly the set with the inverted test in `Del`. -/
theorem C69_BytesSet (ops : List (SOp ByteStr)) (hn : SEachNew (byteStream sum sd id) true (ByteFits (byteStream sum sd id)) [] ops) (hf : 256 ≤ n) :
    ∃ os m, answers ((bytesSet sum).session n sd ops St.init) = .ok os ∧ SRunBy (SStepX (byteStream sum sd id) True true) [] ops os m := by
  obtain ⟨os, s', m, h1, h2⟩ := C08_BytesSet_exact sum sd ops hn hf St.init
  exact ⟨os, m, (SetCodeOf.bytes sum).transfer (answers_ok h1), h2⟩

example := C69_BytesSet toyHash 0#64 (exOpsS strKey) exOpsS_bytes (Nat.le_refl 256)

/-- C09 of the translation of int_set.go. -/
theorem C69_IntSet (ops : List (SOp IntKey)) (hn : SEachNew (byteStream sum sd intbytes) false (IntSafe (byteStream sum sd intbytes)) [] ops) (hf : 256 ≤ n) :
    ∃ os m, answers ((intSet sum).session n sd ops St.init) = .ok os ∧ SRun [] ops os m := by
  obtain ⟨os, s', m, h1, h2⟩ := C09_IntSet_partial sum sd ops hn hf St.init
  exact ⟨os, m, (SetCodeOf.int sum).transfer (answers_ok h1), h2⟩

example := C69_IntSet toyHash 0#64 (exOpsS highKey) exOpsS_int (Nat.le_refl 256)

/-- C10 of the translation of generic_set.go. -/
theorem C69_Set {K : Type} [DecidableEq K] (I : KeyImpl K) (heq : ∀ a b, I.equal a b = true ↔ a = b)
    (ops : List (SOp K)) (hn : SEachNew (fun k n => I.hash k sd n) false (GenFits (fun k n => I.hash k sd n) false) [] ops) (hf : 256 ≤ n) :
    ∃ os m, answers ((set I).session n sd ops St.init) = .ok os ∧ SRun [] ops os m := by
  obtain ⟨os, s', m, h1, h2⟩ := C10_Set_partial sd I heq ops hn hf St.init
  exact ⟨os, m, (SetCodeOf.generic I).transfer (answers_ok h1), h2⟩

example := C69_Set 0#64 onceKey (by simp [onceKey]) (exOpsS UInt8.toNat) exOpsS_gen (Nat.le_refl 256)

end

end Amt.Go
