/-
bytes_set.go, translated as a tree of memory accesses by tools/go2lean.py; do not edit.  The number at the end of a line is the line of
bytes_set.go.
-/
import Verif.Par

set_option linter.unusedVariables false

namespace Amt.Par.BytesSet

/-- bytes_set.go:55-80. -/
def Has (sum : Maphash) (fuel : Nat) (s : Handle) (key : ByteStr) : T ByteStr Unit Bool := do
  let mut hw : Hasher := {}  -- 56
  hw := hw.setSeed (← getRoot (← deref s)).seed  -- 57
  hw := hw.write key  -- 58
  let mut hd : BitVec 64 := hw.sum64 sum  -- 59
  let mut l : Ref := linkOf (← deref s)
  let mut d : BitVec 8 := 0#8
  let mut radix : BitVec 8 := (hd &&& 15#64).setWidth 8  -- 60
  let mut bit : BitVec 32 := 1#32 <<< radix  -- 61
  let mut idx : BitVec 8 := BitVec.ofNat 8 (popcount ((← load l).pmap &&& ~~~((~~~0#32) <<< radix)))
  for _ in budget fuel do  -- 62
    if !(((← load l).pmap &&& bit) != 0#32) then break
    let item : Ref := elem (← load l).ptr idx.toNat  -- 63
    if ((← load l).tmap &&& bit) == 0#32 then  -- 64
      l := item  -- 65
      d := d + 1#8  -- 66
      if (d % 16#8) != 0#8 then  -- 67
        hd := hd >>> 4  -- 68
      else  -- 70
        hw := hw.write key
        hd := hw.sum64 sum  -- 71
      radix := (hd &&& 15#64).setWidth 8  -- 73
      bit := 1#32 <<< radix  -- 74
      idx := BitVec.ofNat 8 (popcount ((← load l).pmap &&& ~~~((~~~0#32) <<< radix)))
      continue  -- 75
    return bytesEqual key (← kvKey (← load item).ptr)  -- 77
  return false  -- 79

/-- bytes_set.go:84-179. -/
def Add (sum : Maphash) (fuel : Nat) (s : Handle) (key : ByteStr) : T ByteStr Unit Unit := do
  let mut hw : Hasher := {}  -- 85
  hw := hw.setSeed (← getRoot (← deref s)).seed  -- 86
  hw := hw.write key  -- 87
  let mut hd : BitVec 64 := hw.sum64 sum  -- 88
  let mut l : Ref := linkOf (← deref s)
  let mut d : BitVec 8 := 0#8
  let mut radix : BitVec 8 := (hd &&& 15#64).setWidth 8  -- 89
  let mut bit : BitVec 32 := 1#32 <<< radix  -- 90
  let mut idx : BitVec 8 := BitVec.ofNat 8 (popcount ((← load l).pmap &&& ~~~((~~~0#32) <<< radix)))
  for _ in budget fuel do  -- 91
    if !(((← load l).pmap &&& bit) != 0#32) then break
    let mut item : Ref := elem (← load l).ptr idx.toNat  -- 92
    if ((← load l).tmap &&& bit) == 0#32 then  -- 93
      l := item  -- 94
      d := d + 1#8  -- 95
      if (d % 16#8) != 0#8 then  -- 96
        hd := hd >>> 4  -- 97
      else  -- 99
        hw := hw.write key
        hd := hw.sum64 sum  -- 100
      radix := (hd &&& 15#64).setWidth 8  -- 102
      bit := 1#32 <<< radix  -- 103
      idx := BitVec.ofNat 8 (popcount ((← load l).pmap &&& ~~~((~~~0#32) <<< radix)))
      continue  -- 104
    let ckv : Amt.Ptr := (← load item).ptr  -- 106
    let ckey : ByteStr := (← kvKey ckv)  -- 107
    if bytesEqual ckey key then  -- 108
      return  -- 109
    let mut chw : Hasher := {}  -- 112
    chw := chw.setSeed (← getRoot (← deref s)).seed  -- 113
    let mut cd : BitVec 8 := 0#8  -- 114
    for _ in budget fuel do
      if !(decide (cd ≤ d)) then break
      chw := chw.write ckey  -- 115
      cd := cd + 16#8  -- 114
    let mut chd : BitVec 64 := (chw.sum64 sum) >>> (4#8 * (d % 16#8))  -- 117
    setTmap l ((← load l).tmap &&& ~~~bit)  -- 119
    modDep (← deref s) fun x => x - d.setWidth 64  -- 120
    for _ in budget fuel do  -- 121
      d := d + 1#8  -- 122
      if (d % 16#8) != 0#8 then  -- 123
        hd := hd >>> 4  -- 124
        chd := chd >>> 4  -- 125
      else  -- 127
        hw := hw.write key
        chw := chw.write ckey  -- 128
        hd := hw.sum64 sum  -- 129
        chd := chw.sum64 sum
      let kbit : BitVec 32 := 1#32 <<< ((hd &&& 15#64).setWidth 8)  -- 131
      let cbit : BitVec 32 := 1#32 <<< ((chd &&& 15#64).setWidth 8)
      setPmap item (kbit ||| cbit)  -- 132
      if kbit != cbit then  -- 133
        setTmap item (← load item).pmap  -- 134
        setPtr item (← newLinkArray 2#8)  -- 135
        let kv : Amt.Ptr := (← alloc (.kv (some key) ()))  -- 136
        let pair : Amt.Ptr := (← load item).ptr  -- 137
        if decide (kbit < cbit) then
          setPtr (elem pair 0) kv  -- 138
          setPtr (elem pair 1) ckv
        else  -- 140
          setPtr (elem pair 0) ckv
          setPtr (elem pair 1) kv
        modLen (← deref s) fun x => x + 1#64  -- 142
        modDep (← deref s) fun x => x + (d.setWidth 64 * 2#64)  -- 143
        return  -- 144
      setPtr item (← newLinkArray 1#8)  -- 147
      item := elem (← load item).ptr 0  -- 148
  let count : BitVec 8 := BitVec.ofNat 8 (popcount (← load l).pmap)  -- 151
  if ((count != 0#8) && ((count % 4#8) != 0#8)) || (d == 0#8) then  -- 152
    let mut after : Int := ((count.toNat : Int) - 1)  -- 153
    for _ in budget fuel do
      if !(decide (after ≥ (idx.toNat : Int))) then break
      store (elem (← load l).ptr ((after + 1).toNat)) ((← load (elem (← load l).ptr after.toNat)))  -- 154
      after := after - 1  -- 153
    store (elem (← load l).ptr idx.toNat) ({ ptr := (← alloc (.kv (some key) ())) : Link })  -- 157
  else  -- 161
    let src : Amt.Ptr := (← load l).ptr
    setPtr l (← newLinkArray (count + 1#8))  -- 162
    let mut before : BitVec 8 := 0#8  -- 163
    for _ in budget fuel do
      if !(decide (before < idx)) then break
      store (elem (← load l).ptr before.toNat) (← load (elem src before.toNat))  -- 164
      before := before + 1#8  -- 163
    store (elem (← load l).ptr idx.toNat) ({ ptr := (← alloc (.kv (some key) ())) : Link })  -- 167
    let mut after : BitVec 8 := idx  -- 170
    for _ in budget fuel do
      if !(decide (after < count)) then break
      store (elem (← load l).ptr ((after + 1#8).toNat)) (← load (elem src after.toNat))  -- 171
      after := after + 1#8  -- 170
  setPmap l ((← load l).pmap ||| bit)  -- 175
  setTmap l ((← load l).tmap ||| bit)  -- 176
  modLen (← deref s) fun x => x + 1#64  -- 177
  modDep (← deref s) fun x => x + d.setWidth 64  -- 178
  return  -- 179

/-- bytes_set.go:182-256. -/
def Del (sum : Maphash) (fuel : Nat) (s : Handle) (key : ByteStr) (scratch : List PathLink) : T ByteStr Unit (List PathLink) := do
  let mut path := (← Slice.ofRootT (← deref s) scratch)  -- 183
  let mut hw : Hasher := {}  -- 184
  hw := hw.setSeed (← getRoot (← deref s)).seed  -- 185
  hw := hw.write key  -- 186
  let mut hd : BitVec 64 := hw.sum64 sum  -- 187
  let mut l : Ref := linkOf (← deref s)
  let mut d : BitVec 8 := 0#8
  let mut radix : BitVec 8 := (hd &&& 15#64).setWidth 8  -- 188
  let mut bit : BitVec 32 := 1#32 <<< radix  -- 189
  let mut idx : BitVec 8 := BitVec.ofNat 8 (popcount ((← load l).pmap &&& ~~~((~~~0#32) <<< radix)))
  for _ in budget fuel do  -- 190
    if !(((← load l).pmap &&& bit) != 0#32) then break
    path := path.append (radix.toNat, some l)  -- 191
    let item : Ref := elem (← load l).ptr idx.toNat  -- 192
    if ((← load l).tmap &&& bit) == 0#32 then  -- 193
      l := item  -- 194
      d := d + 1#8  -- 195
      if (d % 16#8) != 0#8 then  -- 196
        hd := hd >>> 4  -- 197
      else  -- 199
        hw := hw.write key
        hd := hw.sum64 sum  -- 200
      radix := (hd &&& 15#64).setWidth 8  -- 202
      bit := 1#32 <<< radix  -- 203
      idx := BitVec.ofNat 8 (popcount ((← load l).pmap &&& ~~~((~~~0#32) <<< radix)))
      continue  -- 204
    if bytesEqual (← kvKey (← load item).ptr) key then  -- 206
      return path.arr  -- 207
    setPmap l ((← load l).pmap &&& ~~~bit)  -- 209
    setTmap l ((← load l).tmap &&& ~~~bit)  -- 210
    modLen (← deref s) fun x => x - 1#64  -- 211
    modDep (← deref s) fun x => x - d.setWidth 64  -- 212
    path ← path.clearAtT d  -- 213
    let mut count : BitVec 8 := BitVec.ofNat 8 (popcount (← load l).pmap)  -- 214
    for _ in budget fuel do  -- 216
      if !((count == 0#8) && (d != 0#8)) then break
      setPtr l .nil  -- 217
      d := d - 1#8  -- 218
      l := (← path.linkAtT d)  -- 219
      radix := (← path.radixAtT d)
      path ← path.clearAtT d  -- 220
      bit := 1#32 <<< radix  -- 221
      idx := BitVec.ofNat 8 (popcount ((← load l).pmap &&& ~~~((~~~0#32) <<< radix)))
      setPmap l ((← load l).pmap &&& ~~~bit)  -- 222
      setTmap l ((← load l).tmap &&& ~~~bit)  -- 223
      count := BitVec.ofNat 8 (popcount (← load l).pmap)  -- 224
    let src : Amt.Ptr := (← load l).ptr  -- 227
    if ((count % 4#8) == 0#8) && (d != 0#8) then  -- 228
      setPtr l (← newLinkArray count)  -- 229
      let mut before : BitVec 8 := 0#8  -- 230
      for _ in budget fuel do
        if !(decide (before < idx)) then break
        store (elem (← load l).ptr before.toNat) (← load (elem src before.toNat))  -- 231
        before := before + 1#8  -- 230
    let mut after : BitVec 8 := idx  -- 235
    for _ in budget fuel do
      if !(decide (after < count)) then break
      store (elem (← load l).ptr after.toNat) ((← load (elem src ((after + 1#8).toNat))))  -- 236
      after := after + 1#8  -- 235
    for _ in budget fuel do  -- 240
      if !((← andM (do pure (count == 1#8)) (do pure ((← load l).pmap == (← load l).tmap))) && (d != 0#8)) then break
      store l ((← load (elem (← load l).ptr 0)))  -- 241
      modDep (← deref s) fun x => x - 1#64  -- 242
      d := d - 1#8  -- 243
      l := (← path.linkAtT d)  -- 244
      radix := (← path.radixAtT d)
      path ← path.clearAtT d  -- 245
      setTmap l ((← load l).tmap ||| (1#32 <<< radix))  -- 246
      count := BitVec.ofNat 8 (popcount (← load l).pmap)  -- 247
    for _ in budget fuel do  -- 250
      if !(d != 0#8) then break
      d := d - 1#8  -- 251
      path ← path.clearAtT d  -- 252
    return path.arr  -- 254
  return path.arr  -- 256

/-- bytes_set.go:265-282. -/
def bytesSetScan {U : Type} (do_ : U → ByteStr → T ByteStr Unit (U × Bool)) : Nat → U → Ref → T ByteStr Unit (U × Bool)
  | 0, _, _ => T.fail .diverge
  | fuel + 1, u₀, l => do
    let mut u := u₀
    let mut pmap : BitVec 32 := (← load l).pmap  -- 266
    let tmap : BitVec 32 := (← load l).tmap
    let count : BitVec 8 := BitVec.ofNat 8 (popcount pmap)  -- 267
    let mut i : BitVec 8 := 0#8  -- 268
    for _ in budget fuel do
      if !(decide (i < count)) then break
      let bit : BitVec 32 := 1#32 <<< (BitVec.ofNat 8 (trailingZeros pmap))  -- 269
      let item : Ref := elem (← load l).ptr i.toNat  -- 270
      if (tmap &&& bit) != 0#32 then  -- 271
        let kv : Amt.Ptr := (← load item).ptr  -- 272
        let r ← do_ u (← kvKey kv)  -- 273
        u := r.1
        if !r.2 then
          return (u, false)  -- 274
      else  -- 276
        let r ← bytesSetScan do_ fuel u item
        u := r.1
        if !r.2 then
          return (u, false)  -- 277
      pmap := pmap &&& ~~~bit  -- 279
      i := i + 1#8  -- 268
    return (u, true)  -- 281

/-- bytes_set.go:261-263. -/
def All {U : Type} (fuel : Nat) (s : Handle) (do_ : U → ByteStr → T ByteStr Unit (U × Bool)) (u : U) : T ByteStr Unit U := do
  let r ← bytesSetScan do_ fuel u (linkOf (← deref s))  -- 262
  return r.1

end Amt.Par.BytesSet
