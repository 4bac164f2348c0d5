/-
Executable companion of the mutation tests (not part of the Lean library, not part of any proof).
Runs the model of every container on pseudo-random histories with a hash made to collide, compares every
result with a naive reference and prints the first disagreement per container and kind of observation,
then a fingerprint of everything observed.  `tools/mutate.py` runs it on edited copies of the model.
-/
import Verif.Containers
open Amt

namespace Witness

def mixN (x : Nat) : Nat := Id.run do
  let mut h := (x * 0x9E3779B97F4A7C15 + 0x7F4A7C15) % 2^64
  for _ in [0:3] do
    h := (h ^^^ (h >>> 29)) % 2^64
    h := (h * 0xBF58476D1CE4E5B9 + 11) % 2^64
  return h ^^^ (h >>> 31)

/-- digest of `w` copies of the key number `x` : collides a lot. -/
def dig (x w : Nat) : Nat :=
  let cls := x % 3
  let deep := (x / 3) % 3
  let m := mixN (x * 64 + w)
  if cls = 0 then m                                     -- plain
  else if cls = 1 then                                   -- wide second level
    (m &&& 0xFFFFFFFFFFFFFFF0) ||| 5
  else if w ≤ deep then 0x1111222233334444               -- long common prefix, deep collisions
  else (m &&& 0x3333333333333333)

def lenKey : Nat := 8

def num (bs : List UInt8) : Nat := bs.reverse.foldl (fun a b => a * 256 + b.toNat) 0

def sum : Maphash := fun s bs =>
  let w := bs.length / lenKey
  BitVec.ofNat 64 (dig (num (bs.take lenKey)) w ^^^ (s.toNat * 0x0101))

def bytesOf (x : Nat) : List UInt8 := intbytes (BitVec.ofNat 64 x)

def nib (seed : Nat) (x i : Nat) : Nat :=
  (((dig x (i / 16 + 1) ^^^ (seed * 0x0101)) % 2^64) >>> (4 * (i % 16))) % 16

def genImpl : KeyImpl Nat := ⟨fun a b => a == b, fun k s it => sum s (List.replicate (it + 1) (bytesOf k)).flatten⟩
def genFlat : KeyImpl Nat := ⟨fun a b => a == b, fun k s _ => sum s (bytesOf (k * 3))⟩
def nibFlat (seed : Nat) (x i : Nat) : Nat :=
  (((dig (3 * x) 1 ^^^ (seed * 0x0101)) % 2^64) >>> (4 * (i % 16))) % 16

def shared (nb : Nat → Nat → Nat) (a b : Nat) : Nat := Id.run do
  let mut i := 0
  while i < 250 && nb a i = nb b i do i := i + 1
  return i

def before (nb : Nat → Nat → Nat) (a b : Nat) : Bool :=
  let i := shared nb a b
  nb a i < nb b i

def depthOf (nb : Nat → Nat → Nat) (ks : List Nat) (k : Nat) : Nat :=
  (ks.filter (· ≠ k)).foldl (fun m k' => max m (shared nb k k')) 0

def meanDepth (nb : Nat → Nat → Nat) (ks : List Nat) : Rat :=
  if ks.isEmpty then 0 else (((ks.map (depthOf nb ks)).foldl (·+·) 0 : Nat) : Rat) / (ks.length : Rat)

structure Rep where
  kinds : List (String × String) := []
  fp : UInt64 := 7

def Rep.bad (r : Rep) (kind msg : String) : Rep :=
  if r.kinds.any (·.1 == kind) then r else { r with kinds := r.kinds ++ [(kind, msg)] }
def Rep.see (r : Rep) (s : String) : Rep := { r with fp := mixHash r.fp (hash s) }

def F := 300

partial def walk {K V : Type} (s : St K V) (b i : Nat) (root : Bool) : Option String :=
  match s.mem b with
  | some (.links xs) =>
    match xs[i]? with
    | some lk =>
      let n := popcount lk.pmap
      match lk.ptr with
      | .blk a => match s.mem a with
        | some (.links ys) =>
          if ys.length ≠ (if root then 16 else 4 * ((n + 3) / 4)) then some s!"array of {ys.length} for {n}"
          else Id.run do
            let mut j := 0
            let mut out : Option String := none
            for r in [0:16] do
              if lk.pmap &&& bitOf r ≠ 0#32 then
                if lk.tmap &&& bitOf r = 0#32 && out.isNone then out := walk s a j false
                j := j + 1
            return out
        | _ => some "branch without array"
      | .nil => if n = 0 then none else some "nil array"
    | none => some "bad slot"
  | _ => some "bad ref"

def faultS : Fault → String
  | .nilDeref => "nilDeref" | .outOfBounds => "outOfBounds" | .wrongType => "wrongType" | .dangling => "dangling" | .diverge => "diverge"

variable {K : Type} [BEq K]

/-- one map history. `lossy` : ArrMap stores the zero value on a collision. -/
def runMap (I : MapImpl K Nat) (key : Nat → K) (back : K → Nat) (nb : Nat → Nat → Nat → Nat) (univ : List Nat) (lossy noMod : Bool)
    (judge : Bool) (steps rnd : Nat) (rep0 : Rep) : Rep := Id.run do
  let mut rep := rep0
  let seed := rnd % 3
  let nb := nb seed
  let mut s : St K Nat := St.init
  let mut h : Handle := none
  let mut h2 : Handle := none
  match MapImpl.New (K := K) (V := Nat) (BitVec.ofNat 64 seed) s with
  | .ok (a, s') => h := a; s := s'
  | .error _ => return rep.bad "new" ""
  match MapImpl.New (K := K) (V := Nat) (BitVec.ofNat 64 1) s with
  | .ok (a, s') => h2 := a; s := s'
  | .error _ => return rep.bad "new" ""
  -- a second container in the same heap, with fixed contents
  for x in univ.take 6 do
    let r : Except Fault (St K Nat) := if noMod then (match I.Set F h2 (key x) (x + 900) s with | .ok r => .ok r.2 | .error e => .error e)
      else match I.Mod F h2 (key x) (fun _ _ => x + 900) s with | .ok r => .ok r.2 | .error e => .error e
    match r with
    | .ok s' => s := s'
    | .error e => if judge then return rep.bad "fault" s!"second container {faultS e}" else return rep.see "f2"
  let mut ref : List (Nat × Nat) := []
  let mut ptrs : List (Nat × Ptr) := []
  let mut r := rnd
  for step in [0:steps] do
    r := mixN (r + step)
    let x := univ.getD (r / 64 % univ.length) 0
    let opn := (r / 8) % 16
    let v := r % 1000 + 1
    let mut err : Option Fault := none
    let mut nm := ""
    if opn < 7 then
      nm := s!"Set {x}"
      match I.Set F h (key x) v s with
      | .ok (_, s') =>
        s := s'
        let isNew := ref.all (·.1 ≠ x)
        let ks := ref.map (·.1)
        let collides := isNew && (ks.any fun k => let d := shared nb k x
          d ≥ 1 && ((List.range d).any fun j => (ks.filter fun k' => shared nb k' x ≥ j + 1) == [k]))
        ref := (x, if lossy && collides then 0 else v) :: ref.filter (·.1 ≠ x)
      | .error e => err := some e
    else if opn < 9 && !noMod then
      nm := s!"Mod {x}"
      match I.Mod F h (key x) (fun o ok => o * 3 + (if ok then 1 else 2)) s with
      | .ok (calls, s') =>
        s := s'
        let o := ref.find? (·.1 = x)
        let exp := match o with | some e => [(e.2, true)] | none => [(0, false)]
        if judge && calls ≠ exp then rep := rep.bad "mod-calls" s!"{nm}: {repr calls} expected {repr exp}"
        rep := rep.see s!"{repr calls}"
        ref := (x, match o with | some e => e.2 * 3 + 1 | none => 2) :: ref.filter (·.1 ≠ x)
      | .error e => err := some e
    else if opn < 14 then
      nm := s!"Del {x}"
      match I.Del F h (key x) s with
      | .ok (_, s') => s := s'; ref := ref.filter (·.1 ≠ x); ptrs := ptrs.filter (·.1 ≠ x)
      | .error e => err := some e
    else if opn < 15 then
      nm := "All update, stopping"
      let lim := r / 1024 % 6
      match I.All F h (fun (u : List Nat) k o => (u ++ [back k], o + 5, decide (u.length < lim))) [] s with
      | .ok (u, s') =>
        s := s'
        if judge && u.length ≠ min (lim + 1) ref.length then rep := rep.bad "all-stop" s!"{u.length} calls, limit {lim}, {ref.length} entries"
        ref := ref.map fun e => if u.contains e.1 then (e.1, e.2 + 5) else e
        rep := rep.see s!"{u}"
      | .error e => err := some e
    else nm := "nothing"
    match err with
    | some e =>
      if judge then rep := rep.bad (if e = .diverge then "diverge" else "fault") s!"{nm} at step {step}: {faultS e}"
      return rep.see s!"{nm}{faultS e}"
    | none => pure ()
    -- observe everything
    for y in univ do
      match I.Get F h (key y) s, I.Val F h (key y) s, I.Ptr F h (key y) s with
      | .ok (g, _), .ok (vv, _), .ok (p, _) =>
        let e := ref.find? (·.1 = y)
        rep := rep.see s!"{y}{repr g}{vv}{repr p}"
        if judge then
          if g ≠ (match e with | some e => (e.2, true) | none => (0, false)) then
            rep := rep.bad "get" s!"Get {y} = {repr g} after {nm}, expected {repr (e.map (·.2))} at step {step}"
          if vv ≠ (match e with | some e => e.2 | none => 0) then rep := rep.bad "val" s!"Val {y} = {vv} after {nm}"
          if p.isSome ≠ e.isSome then rep := rep.bad "ptr" s!"Ptr {y} = {repr p} after {nm}"
          match p, ptrs.find? (·.1 = y) with
          | some p, some q => if p ≠ q.2 then rep := rep.bad "ptr-stable" s!"Ptr {y} moved after {nm}"
          | some p, none => ptrs := (y, p) :: ptrs
          | _, _ => pure ()
      | _, _, _ => if judge then rep := rep.bad "fault" s!"Get {y} faults after {nm}"
                   return rep.see "fault"
    for y in univ.take 8 do
      match I.Get F h2 (key y) s with
      | .ok (g, _) =>
        if judge && g ≠ (if (univ.take 6).contains y then (y + 900, true) else (0, false)) then rep := rep.bad "other" s!"other container changed after {nm}"
      | _ => if judge then rep := rep.bad "other" s!"other container faults after {nm}"
    match MapImpl.Len h s, MapImpl.Dep h s, I.All F h (fun (u : List (Nat × Nat)) k o => (u ++ [(back k, o)], o, true)) [] s with
    | .ok (l, _), .ok (dp, _), .ok (al, _) =>
      rep := rep.see s!"{l}{dp}{al}"
      if judge then
        if l.toNat ≠ ref.length then rep := rep.bad "len" s!"Len = {l.toNat} after {nm}, expected {ref.length}"
        let want := meanDepth nb (ref.map (·.1))
        if dp ≠ want then rep := rep.bad "dep" s!"Dep = {dp} after {nm}, expected {want}"
        if al.length ≠ ref.length || al.any (fun e => !ref.contains e) then rep := rep.bad "all" s!"All visited {al.length} of {ref.length} after {nm}"
        if (al.zip (al.drop 1)).any (fun e => !before nb e.1.1 e.2.1) then rep := rep.bad "all-order" s!"after {nm}"
    | _, _, _ => if judge then rep := rep.bad "fault" s!"Len/Dep/All faults after {nm}"
                 return rep.see "fault"
    match h with
    | some b => match walk s b 0 true with
      | some m => if judge then rep := rep.bad "tight" s!"{m} after {nm}"
                  rep := rep.see m
      | none => pure ()
    | none => pure ()
  return rep

/-- one set history. -/
def runSet (I : SetImpl K) (key : Nat → K) (back : K → Nat) (nb : Nat → Nat → Nat → Nat) (univ : List Nat) (noDel : Bool)
    (judge : Bool) (steps rnd : Nat) (rep0 : Rep) : Rep := Id.run do
  let mut rep := rep0
  let seed := rnd % 3
  let nb := nb seed
  let mut s : St K Unit := St.init
  let mut h : Handle := none
  let mut h2 : Handle := none
  match SetImpl.New (K := K) (BitVec.ofNat 64 seed) s with
  | .ok (a, s') => h := a; s := s'
  | .error _ => return rep.bad "new" ""
  match SetImpl.New (K := K) (BitVec.ofNat 64 1) s with
  | .ok (a, s') => h2 := a; s := s'
  | .error _ => return rep.bad "new" ""
  for x in univ.take 6 do
    match I.Add F h2 (key x) s with
    | .ok (_, s') => s := s'
    | .error e => if judge then return rep.bad "fault" s!"second container {faultS e}" else return rep.see "f2"
  let mut ref : List Nat := []
  let mut r := rnd
  for step in [0:steps] do
    r := mixN (r + step)
    let x := univ.getD (r / 64 % univ.length) 0
    let opn := (r / 8) % 16
    let mut err : Option Fault := none
    let mut nm := ""
    if opn < 9 then
      nm := s!"Add {x}"
      match I.Add F h (key x) s with
      | .ok (_, s') => s := s'; ref := x :: ref.filter (· ≠ x)
      | .error e => err := some e
    else if opn < 15 then
      if !noDel then
        nm := s!"Del {x}"
        match I.Del F h (key x) s with
        | .ok (_, s') => s := s'; ref := ref.filter (· ≠ x)
        | .error e => err := some e
    else
      let lim := r / 1024 % 6
      nm := "All stopping"
      match I.All F h (fun (u : List Nat) k => (u ++ [back k], decide (u.length < lim))) [] s with
      | .ok (u, s') => s := s'
                       if judge && u.length ≠ min (lim + 1) ref.length then rep := rep.bad "all-stop" s!"{u.length} calls, limit {lim}, {ref.length} entries"
                       rep := rep.see s!"{u}"
      | .error e => err := some e
    match err with
    | some e =>
      if judge then rep := rep.bad (if e = .diverge then "diverge" else "fault") s!"{nm} at step {step}: {faultS e}"
      return rep.see s!"{nm}{faultS e}"
    | none => pure ()
    for y in univ do
      match I.Has F h (key y) s with
      | .ok (g, _) =>
        rep := rep.see s!"{y}{g}"
        if judge && g ≠ ref.contains y then rep := rep.bad "has" s!"Has {y} = {g} after {nm} at step {step}"
      | _ => if judge then rep := rep.bad "fault" s!"Has {y} faults after {nm}"
             return rep.see "fault"
    for y in univ.take 8 do
      match I.Has F h2 (key y) s with
      | .ok (g, _) => if judge && g ≠ (univ.take 6).contains y then rep := rep.bad "other" s!"other container changed after {nm}"
      | _ => if judge then rep := rep.bad "other" s!"other container faults after {nm}"
    match SetImpl.Len h s, SetImpl.Dep h s, I.All F h (fun (u : List Nat) k => (u ++ [back k], true)) [] s with
    | .ok (l, _), .ok (dp, _), .ok (al, _) =>
      rep := rep.see s!"{l}{dp}{al}"
      if judge then
        if l.toNat ≠ ref.length then rep := rep.bad "len" s!"Len = {l.toNat} after {nm}, expected {ref.length}"
        let want := meanDepth nb ref
        if dp ≠ want then rep := rep.bad "dep" s!"Dep = {dp} after {nm}, expected {want}"
        if al.length ≠ ref.length || al.any (fun e => !ref.contains e) then rep := rep.bad "all" s!"All visited {al.length} of {ref.length} after {nm}"
        if (al.zip (al.drop 1)).any (fun e => !before nb e.1 e.2) then rep := rep.bad "all-order" s!"after {nm}"
    | _, _, _ => if judge then rep := rep.bad "fault" s!"Len/Dep/All faults after {nm}"
                 return rep.see "fault"
    match h with
    | some b => match walk s b 0 true with
      | some m => if judge then rep := rep.bad "tight" s!"{m} after {nm}"
                  rep := rep.see m
      | none => pure ()
    | none => pure ()
  return rep

def report (name : String) (f : Nat → Rep → Rep) (runs : Nat) : IO Unit := do
  let mut rep : Rep := {}
  for i in [0:runs] do rep := f (mixN (i + 17) % 1000003) rep
  IO.println s!"{name} fp={rep.fp} bad={rep.kinds.map (·.1)}"
  for k in rep.kinds do IO.println s!"  {k.1}: {k.2}"

def univ : List Nat := List.range 24
def wide : List Nat := (List.range 24).map (fun i => 3 * i + 1)
def deepU : List Nat := (List.range 12).map (fun i => 3 * i + 2)
def big : List Nat := univ.take 10 ++ (univ.take 8).map (fun x => x * 2^32 + 2^63 * (x % 2) + x) ++ [2^64 - 1, 2^64 - 5, 2^33 + 2, 2^34 + 5]
def allU : List (List Nat) := [univ, wide, deepU]

def perm : List Nat := [0, 1]

end Witness
open Witness

/-- The guard of `BytesMap`: a stored key is overwritten in place by a key of another slot. -/
def guardTest : String := Id.run do
  let I : MapImpl ByteStr Nat := BytesMap sum
  let run {α : Type} (x : M ByteStr Nat α) (s : St ByteStr Nat) : Option (α × St ByteStr Nat) := (x s).toOption
  match (MapImpl.New 0#64 : M ByteStr Nat Handle) St.init with
  | .error _ => return "new"
  | .ok (h, s) =>
  let mut s := s
  for x in univ.take 8 do
    match run (I.Set F h (bytesOf x) (x + 10)) s with | some (_, s') => s := s' | none => return "set"
  let mut out := ""
  for x in univ.take 8 do
    for y in univ do
      match run (I.Ptr F h (bytesOf x)) s with
      | some (some (.blk p), t) =>
        let s1 : St ByteStr Nat := { t with mem := fun a => if a = p then some (.kv (some (bytesOf y)) 77) else t.mem a }
        match run (I.Set F h (bytesOf x) 555) s1 with
        | none => out := out ++ "E"
        | some (_, s2) =>
          match run (MapImpl.Len h) s2, run (MapImpl.Dep h) s2 with
          | some (l, _), some (d, _) => out := out ++ s!"{l.toNat},{d};"
          | _, _ => out := out ++ "X"
          for z in univ.take 10 do
            match run (I.Get F h (bytesOf z)) s2 with
            | some (g, _) => out := out ++ s!"{g};"
            | none => out := out ++ "E;"
        match run (I.Mod F h (bytesOf x) (fun v b => v + if b then 100 else 200)) s1 with
        | none => out := out ++ "E"
        | some (c, s2) =>
          out := out ++ s!"{c}"
          match run (MapImpl.Len h) s2, run (MapImpl.Dep h) s2 with
          | some (l, _), some (d, _) => out := out ++ s!"{l.toNat},{d};"
          | _, _ => out := out ++ "X"
          for z in univ.take 10 do
            match run (I.Get F h (bytesOf z)) s2 with
            | some (g, _) => out := out ++ s!"{g};"
            | none => out := out ++ "E;"
      | _ => out := out ++ "?"
  return out

def helperTest : String := Id.run do
  let mut out := ""
  for i in [0, 1, 2, 15, 254, 255, 256, 300] do
    for f in [fun i => bytesHash sum 1000 (bytesOf 5) 3#64 i, fun i => intHash sum 1000 77#64 3#64 i, fun i => hashBytes sum 1000 (bytesOf 5) 3#64 i] do
      out := out ++ (match f i with | .ok v => s!"{v.toNat} " | .error e => faultS e)
  return out

def nilTest : String := Id.run do
  let I : MapImpl ByteStr Nat := StringMap sum
  let S : SetImpl ByteStr := StringSet sum
  let s : St ByteStr Nat := St.init
  let su : St ByteStr Unit := St.init
  let sh {α : Type} [ToString α] (x : Except Fault (α × St ByteStr Nat)) : String := match x with | .ok v => toString v.1 | .error e => faultS e
  let shu {α : Type} [ToString α] (x : Except Fault (α × St ByteStr Unit)) : String := match x with | .ok v => toString v.1 | .error e => faultS e
  return s!"{MapImpl.Nil none} {MapImpl.Nil (some 0)} {sh (MapImpl.Len none s)} {sh (MapImpl.Dep none s)} {sh (I.Get F none [] s)} {sh (I.Val F none [] s)} {sh (I.Set F none [] 0 s)} {sh (I.Mod F none [] (fun v _ => v) s)} {sh (I.Del F none [] s)} {sh (I.All F none (fun (u : Nat) _ v => (u, v, true)) 0 s)} {SetImpl.Nil none} {SetImpl.Nil (some 0)} {shu (SetImpl.Len none su)} {shu (SetImpl.Dep none su)} {shu (S.Has F none [] su)} {shu (S.Add F none [] su)} {shu (S.Del F none [] su)} {shu (S.All F none (fun (u : Nat) _ => (u, true)) 0 su)}"

def main : IO Unit := do
  let m (name : String) {K : Type} [BEq K] (I : MapImpl K Nat) (key : Nat → K) (back : K → Nat) (nb : Nat → Nat → Nat → Nat)
      (us : List (List Nat)) (lossy noMod judge : Bool) : IO Unit :=
    report name (fun i rep => runMap I key back nb (us.getD (i % us.length) []) lossy noMod judge 40 i rep) 6
  let st (name : String) {K : Type} [BEq K] (I : SetImpl K) (key : Nat → K) (back : K → Nat) (nb : Nat → Nat → Nat → Nat)
      (us : List (List Nat)) (noDel judge : Bool) : IO Unit :=
    report name (fun i rep => runSet I key back nb (us.getD (i % us.length) []) noDel judge 40 i rep) 6
  m "StringMap" (StringMap sum) bytesOf num nib allU false false true
  m "BytesMap" (BytesMap sum) bytesOf num nib allU false false true
  m "ArrMap" (ArrMap sum bytesOf) id id nib allU true false true
  m "IntMap" (IntMap sum) (BitVec.ofNat 64) BitVec.toNat nib allU false false true
  m "GenericMap" (GenericMap genFlat) id id nibFlat [univ] false true true
  m "IntMap/any" (IntMap sum) (BitVec.ofNat 64) BitVec.toNat nib [big] false false false
  m "GenericMap/any" (GenericMap genImpl) id id nib [univ, wide] false false false
  st "StringSet" (StringSet sum) bytesOf num nib allU false true
  st "BytesSet" (BytesSet sum) bytesOf num nib allU true true
  st "ArrSet" (ArrSet sum bytesOf) id id nib allU false true
  st "IntSet" (IntSet sum) (BitVec.ofNat 64) BitVec.toNat nib allU false true
  st "GenericSet" (GenericSet genFlat) id id nibFlat [univ] false true
  st "BytesSet/any" (BytesSet sum) bytesOf num nib allU false false
  st "IntSet/any" (IntSet sum) (BitVec.ofNat 64) BitVec.toNat nib [big] false false
  st "GenericSet/any" (GenericSet genImpl) id id nib [univ, wide] false false
  IO.println s!"guard fp={hash guardTest} bad=[]"
  IO.println s!"helpers fp={hash helperTest} bad=[]"
  IO.println s!"nil fp={hash nilTest} bad=[]"
