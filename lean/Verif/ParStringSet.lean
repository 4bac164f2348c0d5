/-
string_set.go, translated as a tree of memory accesses by tools/go2lean.py; do not edit.  The number at the end of a line is the line of
string_set.go.
-/
import Verif.Par

set_option linter.unusedVariables false

namespace Amt.Par.StringSet

/-- string_set.go:53-78. -/
def Has (sum : Maphash) (fuel : Nat) (s : Handle) (key : ByteStr) : T ByteStr Unit Bool := do
  let mut hw : Hasher := {}  -- 54
  hw := hw.setSeed (← getRoot (← deref s)).seed  -- 55
  hw := hw.write key  -- 56
  let mut hd : BitVec 64 := hw.sum64 sum  -- 57
  let mut l : Ref := linkOf (← deref s)
  let mut d : BitVec 8 := 0#8
  let mut radix : BitVec 8 := (hd &&& 15#64).setWidth 8  -- 58
  let mut bit : BitVec 32 := 1#32 <<< radix  -- 59
  let mut idx : BitVec 8 := BitVec.ofNat 8 (popcount ((← load l).pmap &&& ~~~((~~~0#32) <<< radix)))
  for _ in budget fuel do  -- 60
    if !(((← load l).pmap &&& bit) != 0#32) then break
    let item : Ref := elem (← load l).ptr idx.toNat  -- 61
    if ((← load l).tmap &&& bit) == 0#32 then  -- 62
      l := item  -- 63
      d := d + 1#8  -- 64
      if (d % 16#8) != 0#8 then  -- 65
        hd := hd >>> 4  -- 66
      else  -- 68
        hw := hw.write key
        hd := hw.sum64 sum  -- 69
      radix := (hd &&& 15#64).setWidth 8  -- 71
      bit := 1#32 <<< radix  -- 72
      idx := BitVec.ofNat 8 (popcount ((← load l).pmap &&& ~~~((~~~0#32) <<< radix)))
      continue  -- 73
    return goEq key (← kvKey (← load item).ptr)  -- 75
  return false  -- 77

/-- string_set.go:81-176. -/
def Add (sum : Maphash) (fuel : Nat) (s : Handle) (key : ByteStr) : T ByteStr Unit Unit := do
  let mut hw : Hasher := {}  -- 82
  hw := hw.setSeed (← getRoot (← deref s)).seed  -- 83
  hw := hw.write key  -- 84
  let mut hd : BitVec 64 := hw.sum64 sum  -- 85
  let mut l : Ref := linkOf (← deref s)
  let mut d : BitVec 8 := 0#8
  let mut radix : BitVec 8 := (hd &&& 15#64).setWidth 8  -- 86
  let mut bit : BitVec 32 := 1#32 <<< radix  -- 87
  let mut idx : BitVec 8 := BitVec.ofNat 8 (popcount ((← load l).pmap &&& ~~~((~~~0#32) <<< radix)))
  for _ in budget fuel do  -- 88
    if !(((← load l).pmap &&& bit) != 0#32) then break
    let mut item : Ref := elem (← load l).ptr idx.toNat  -- 89
    if ((← load l).tmap &&& bit) == 0#32 then  -- 90
      l := item  -- 91
      d := d + 1#8  -- 92
      if (d % 16#8) != 0#8 then  -- 93
        hd := hd >>> 4  -- 94
      else  -- 96
        hw := hw.write key
        hd := hw.sum64 sum  -- 97
      radix := (hd &&& 15#64).setWidth 8  -- 99
      bit := 1#32 <<< radix  -- 100
      idx := BitVec.ofNat 8 (popcount ((← load l).pmap &&& ~~~((~~~0#32) <<< radix)))
      continue  -- 101
    let ckv : Amt.Ptr := (← load item).ptr  -- 103
    let ckey : ByteStr := (← kvKey ckv)  -- 104
    if goEq ckey key then  -- 105
      return  -- 106
    let mut chw : Hasher := {}  -- 109
    chw := chw.setSeed (← getRoot (← deref s)).seed  -- 110
    let mut cd : BitVec 8 := 0#8  -- 111
    for _ in budget fuel do
      if !(decide (cd ≤ d)) then break
      chw := chw.write ckey  -- 112
      cd := cd + 16#8  -- 111
    let mut chd : BitVec 64 := (chw.sum64 sum) >>> (4#8 * (d % 16#8))  -- 114
    setTmap l ((← load l).tmap &&& ~~~bit)  -- 116
    modDep (← deref s) fun x => x - d.setWidth 64  -- 117
    for _ in budget fuel do  -- 118
      d := d + 1#8  -- 119
      if (d % 16#8) != 0#8 then  -- 120
        hd := hd >>> 4  -- 121
        chd := chd >>> 4  -- 122
      else  -- 124
        hw := hw.write key
        chw := chw.write ckey  -- 125
        hd := hw.sum64 sum  -- 126
        chd := chw.sum64 sum
      let kbit : BitVec 32 := 1#32 <<< ((hd &&& 15#64).setWidth 8)  -- 128
      let cbit : BitVec 32 := 1#32 <<< ((chd &&& 15#64).setWidth 8)
      setPmap item (kbit ||| cbit)  -- 129
      if kbit != cbit then  -- 130
        setTmap item (← load item).pmap  -- 131
        setPtr item (← newLinkArray 2#8)  -- 132
        let kv : Amt.Ptr := (← alloc (.kv (some key) ()))  -- 133
        let pair : Amt.Ptr := (← load item).ptr  -- 134
        if decide (kbit < cbit) then
          setPtr (elem pair 0) kv  -- 135
          setPtr (elem pair 1) ckv
        else  -- 137
          setPtr (elem pair 0) ckv
          setPtr (elem pair 1) kv
        modLen (← deref s) fun x => x + 1#64  -- 139
        modDep (← deref s) fun x => x + (d.setWidth 64 * 2#64)  -- 140
        return  -- 141
      setPtr item (← newLinkArray 1#8)  -- 144
      item := elem (← load item).ptr 0  -- 145
  let count : BitVec 8 := BitVec.ofNat 8 (popcount (← load l).pmap)  -- 148
  if ((count != 0#8) && ((count % 4#8) != 0#8)) || (d == 0#8) then  -- 149
    let mut after : Int := ((count.toNat : Int) - 1)  -- 150
    for _ in budget fuel do
      if !(decide (after ≥ (idx.toNat : Int))) then break
      store (elem (← load l).ptr ((after + 1).toNat)) ((← load (elem (← load l).ptr after.toNat)))  -- 151
      after := after - 1  -- 150
    store (elem (← load l).ptr idx.toNat) ({ ptr := (← alloc (.kv (some key) ())) : Link })  -- 154
  else  -- 158
    let src : Amt.Ptr := (← load l).ptr
    setPtr l (← newLinkArray (count + 1#8))  -- 159
    let mut before : BitVec 8 := 0#8  -- 160
    for _ in budget fuel do
      if !(decide (before < idx)) then break
      store (elem (← load l).ptr before.toNat) (← load (elem src before.toNat))  -- 161
      before := before + 1#8  -- 160
    store (elem (← load l).ptr idx.toNat) ({ ptr := (← alloc (.kv (some key) ())) : Link })  -- 164
    let mut after : BitVec 8 := idx  -- 167
    for _ in budget fuel do
      if !(decide (after < count)) then break
      store (elem (← load l).ptr ((after + 1#8).toNat)) (← load (elem src after.toNat))  -- 168
      after := after + 1#8  -- 167
  setPmap l ((← load l).pmap ||| bit)  -- 172
  setTmap l ((← load l).tmap ||| bit)  -- 173
  modLen (← deref s) fun x => x + 1#64  -- 174
  modDep (← deref s) fun x => x + d.setWidth 64  -- 175
  return  -- 176

/-- string_set.go:179-253. -/
def Del (sum : Maphash) (fuel : Nat) (s : Handle) (key : ByteStr) (scratch : List PathLink) : T ByteStr Unit (List PathLink) := do
  let mut path := (← Slice.ofRootT (← deref s) scratch)  -- 180
  let mut hw : Hasher := {}  -- 181
  hw := hw.setSeed (← getRoot (← deref s)).seed  -- 182
  hw := hw.write key  -- 183
  let mut hd : BitVec 64 := hw.sum64 sum  -- 184
  let mut l : Ref := linkOf (← deref s)
  let mut d : BitVec 8 := 0#8
  let mut radix : BitVec 8 := (hd &&& 15#64).setWidth 8  -- 185
  let mut bit : BitVec 32 := 1#32 <<< radix  -- 186
  let mut idx : BitVec 8 := BitVec.ofNat 8 (popcount ((← load l).pmap &&& ~~~((~~~0#32) <<< radix)))
  for _ in budget fuel do  -- 187
    if !(((← load l).pmap &&& bit) != 0#32) then break
    path := path.append (radix.toNat, some l)  -- 188
    let item : Ref := elem (← load l).ptr idx.toNat  -- 189
    if ((← load l).tmap &&& bit) == 0#32 then  -- 190
      l := item  -- 191
      d := d + 1#8  -- 192
      if (d % 16#8) != 0#8 then  -- 193
        hd := hd >>> 4  -- 194
      else  -- 196
        hw := hw.write key
        hd := hw.sum64 sum  -- 197
      radix := (hd &&& 15#64).setWidth 8  -- 199
      bit := 1#32 <<< radix  -- 200
      idx := BitVec.ofNat 8 (popcount ((← load l).pmap &&& ~~~((~~~0#32) <<< radix)))
      continue  -- 201
    if !(goEq (← kvKey (← load item).ptr) key) then  -- 203
      return path.arr  -- 204
    setPmap l ((← load l).pmap &&& ~~~bit)  -- 206
    setTmap l ((← load l).tmap &&& ~~~bit)  -- 207
    modLen (← deref s) fun x => x - 1#64  -- 208
    modDep (← deref s) fun x => x - d.setWidth 64  -- 209
    path ← path.clearAtT d  -- 210
    let mut count : BitVec 8 := BitVec.ofNat 8 (popcount (← load l).pmap)  -- 211
    for _ in budget fuel do  -- 213
      if !((count == 0#8) && (d != 0#8)) then break
      setPtr l .nil  -- 214
      d := d - 1#8  -- 215
      l := (← path.linkAtT d)  -- 216
      radix := (← path.radixAtT d)
      path ← path.clearAtT d  -- 217
      bit := 1#32 <<< radix  -- 218
      idx := BitVec.ofNat 8 (popcount ((← load l).pmap &&& ~~~((~~~0#32) <<< radix)))
      setPmap l ((← load l).pmap &&& ~~~bit)  -- 219
      setTmap l ((← load l).tmap &&& ~~~bit)  -- 220
      count := BitVec.ofNat 8 (popcount (← load l).pmap)  -- 221
    let src : Amt.Ptr := (← load l).ptr  -- 224
    if ((count % 4#8) == 0#8) && (d != 0#8) then  -- 225
      setPtr l (← newLinkArray count)  -- 226
      let mut before : BitVec 8 := 0#8  -- 227
      for _ in budget fuel do
        if !(decide (before < idx)) then break
        store (elem (← load l).ptr before.toNat) (← load (elem src before.toNat))  -- 228
        before := before + 1#8  -- 227
    let mut after : BitVec 8 := idx  -- 232
    for _ in budget fuel do
      if !(decide (after < count)) then break
      store (elem (← load l).ptr after.toNat) ((← load (elem src ((after + 1#8).toNat))))  -- 233
      after := after + 1#8  -- 232
    for _ in budget fuel do  -- 237
      if !((← andM (do pure (count == 1#8)) (do pure ((← load l).pmap == (← load l).tmap))) && (d != 0#8)) then break
      store l ((← load (elem (← load l).ptr 0)))  -- 238
      modDep (← deref s) fun x => x - 1#64  -- 239
      d := d - 1#8  -- 240
      l := (← path.linkAtT d)  -- 241
      radix := (← path.radixAtT d)
      path ← path.clearAtT d  -- 242
      setTmap l ((← load l).tmap ||| (1#32 <<< radix))  -- 243
      count := BitVec.ofNat 8 (popcount (← load l).pmap)  -- 244
    for _ in budget fuel do  -- 247
      if !(d != 0#8) then break
      d := d - 1#8  -- 248
      path ← path.clearAtT d  -- 249
    return path.arr  -- 251
  return path.arr  -- 253

/-- string_set.go:262-279. -/
def stringSetScan {U : Type} (do_ : U → ByteStr → T ByteStr Unit (U × Bool)) : Nat → U → Ref → T ByteStr Unit (U × Bool)
  | 0, _, _ => T.fail .diverge
  | fuel + 1, u₀, l => do
    let mut u := u₀
    let mut pmap : BitVec 32 := (← load l).pmap  -- 263
    let tmap : BitVec 32 := (← load l).tmap
    let count : BitVec 8 := BitVec.ofNat 8 (popcount pmap)  -- 264
    let mut i : BitVec 8 := 0#8  -- 265
    for _ in budget fuel do
      if !(decide (i < count)) then break
      let bit : BitVec 32 := 1#32 <<< (BitVec.ofNat 8 (trailingZeros pmap))  -- 266
      let item : Ref := elem (← load l).ptr i.toNat  -- 267
      if (tmap &&& bit) != 0#32 then  -- 268
        let kv : Amt.Ptr := (← load item).ptr  -- 269
        let r ← do_ u (← kvKey kv)  -- 270
        u := r.1
        if !r.2 then
          return (u, false)  -- 271
      else  -- 273
        let r ← stringSetScan do_ fuel u item
        u := r.1
        if !r.2 then
          return (u, false)  -- 274
      pmap := pmap &&& ~~~bit  -- 276
      i := i + 1#8  -- 265
    return (u, true)  -- 278

/-- string_set.go:258-260. -/
def All {U : Type} (fuel : Nat) (s : Handle) (do_ : U → ByteStr → T ByteStr Unit (U × Bool)) (u : U) : T ByteStr Unit U := do
  let r ← stringSetScan do_ fuel u (linkOf (← deref s))  -- 259
  return r.1

end Amt.Par.StringSet
