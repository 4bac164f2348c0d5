/-
int_set.go, translated as a tree of memory accesses by tools/go2lean.py; do not edit.  The number at the end of a line is the line of
int_set.go.
-/
import Verif.Par

set_option linter.unusedVariables false

namespace Amt.Par.IntSet

/-- int_set.go:53-79. -/
def Has (sum : Maphash) (fuel : Nat) (s : Handle) (key : IntKey) : T IntKey Unit Bool := do
  let kb := intbytes key  -- 54
  let mut hw : Hasher := {}  -- 55
  hw := hw.setSeed (← getRoot (← deref s)).seed  -- 56
  hw := hw.write kb  -- 57
  let mut hd : BitVec 64 := hw.sum64 sum  -- 58
  let mut l : Ref := linkOf (← deref s)
  let mut d : BitVec 8 := 0#8
  let mut radix : BitVec 8 := (hd &&& 15#64).setWidth 8  -- 59
  let mut bit : BitVec 32 := 1#32 <<< radix  -- 60
  let mut idx : BitVec 8 := BitVec.ofNat 8 (popcount ((← load l).pmap &&& ~~~((~~~0#32) <<< radix)))
  for _ in budget fuel do  -- 61
    if !(((← load l).pmap &&& bit) != 0#32) then break
    let item : Ref := elem (← load l).ptr idx.toNat  -- 62
    if ((← load l).tmap &&& bit) == 0#32 then  -- 63
      l := item  -- 64
      d := d + 1#8  -- 65
      if (d % 16#8) != 0#8 then  -- 66
        hd := hd >>> 4  -- 67
      else  -- 69
        hw := hw.write kb
        hd := hw.sum64 sum  -- 70
      radix := (hd &&& 15#64).setWidth 8  -- 72
      bit := 1#32 <<< radix  -- 73
      idx := BitVec.ofNat 8 (popcount ((← load l).pmap &&& ~~~((~~~0#32) <<< radix)))
      continue  -- 74
    return goEq key (((← load item).pmap.setWidth 64 ||| (((← load item).tmap.setWidth 64) <<< 32)))  -- 76
  return false  -- 78

/-- int_set.go:82-181. -/
def Add (sum : Maphash) (fuel : Nat) (s : Handle) (key : IntKey) : T IntKey Unit Unit := do
  let kb := intbytes key  -- 83
  let mut hw : Hasher := {}  -- 84
  hw := hw.setSeed (← getRoot (← deref s)).seed  -- 85
  hw := hw.write kb  -- 86
  let mut hd : BitVec 64 := hw.sum64 sum  -- 87
  let mut l : Ref := linkOf (← deref s)
  let mut d : BitVec 8 := 0#8
  let mut radix : BitVec 8 := (hd &&& 15#64).setWidth 8  -- 88
  let mut bit : BitVec 32 := 1#32 <<< radix  -- 89
  let mut idx : BitVec 8 := BitVec.ofNat 8 (popcount ((← load l).pmap &&& ~~~((~~~0#32) <<< radix)))
  for _ in budget fuel do  -- 90
    if !(((← load l).pmap &&& bit) != 0#32) then break
    let mut item : Ref := elem (← load l).ptr idx.toNat  -- 91
    if ((← load l).tmap &&& bit) == 0#32 then  -- 92
      l := item  -- 93
      d := d + 1#8  -- 94
      if (d % 16#8) != 0#8 then  -- 95
        hd := hd >>> 4  -- 96
      else  -- 98
        hw := hw.write kb
        hd := hw.sum64 sum  -- 99
      radix := (hd &&& 15#64).setWidth 8  -- 101
      bit := 1#32 <<< radix  -- 102
      idx := BitVec.ofNat 8 (popcount ((← load l).pmap &&& ~~~((~~~0#32) <<< radix)))
      continue  -- 103
    let ckey : IntKey := (← load item).pmap.setWidth 64 ||| (((← load item).tmap.setWidth 64) <<< 32)  -- 105
    if goEq ckey key then  -- 106
      return  -- 107
    let ckb := intbytes ckey  -- 110
    let mut chw : Hasher := {}  -- 111
    chw := chw.setSeed (← getRoot (← deref s)).seed  -- 112
    let mut cd : BitVec 8 := 0#8  -- 113
    for _ in budget fuel do
      if !(decide (cd ≤ d)) then break
      chw := chw.write ckb  -- 114
      cd := cd + 16#8  -- 113
    let mut chd : BitVec 64 := (chw.sum64 sum) >>> (4#8 * (d % 16#8))  -- 116
    setTmap l ((← load l).tmap &&& ~~~bit)  -- 118
    modDep (← deref s) fun x => x - d.setWidth 64  -- 119
    for _ in budget fuel do  -- 120
      d := d + 1#8  -- 121
      if (d % 16#8) != 0#8 then  -- 122
        hd := hd >>> 4  -- 123
        chd := chd >>> 4  -- 124
      else  -- 126
        hw := hw.write kb
        chw := chw.write ckb  -- 127
        hd := hw.sum64 sum  -- 128
        chd := chw.sum64 sum
      let kbit : BitVec 32 := 1#32 <<< ((hd &&& 15#64).setWidth 8)  -- 130
      let cbit : BitVec 32 := 1#32 <<< ((chd &&& 15#64).setWidth 8)
      setPmap item (kbit ||| cbit)  -- 131
      if kbit != cbit then  -- 132
        setTmap item (← load item).pmap  -- 133
        setPtr item (← newLinkArray 2#8)  -- 134
        let pair : Amt.Ptr := (← load item).ptr  -- 135
        if decide (kbit < cbit) then
          store (elem pair 0) ({ pmap := key.setWidth 32, tmap := (key.sshiftRight 32).setWidth 32 : Link })  -- 136
          store (elem pair 1) ({ pmap := ckey.setWidth 32, tmap := (ckey.sshiftRight 32).setWidth 32 : Link })  -- 137
        else  -- 139
          store (elem pair 0) ({ pmap := ckey.setWidth 32, tmap := (ckey.sshiftRight 32).setWidth 32 : Link })
          store (elem pair 1) ({ pmap := key.setWidth 32, tmap := (key.sshiftRight 32).setWidth 32 : Link })  -- 140
        modLen (← deref s) fun x => x + 1#64  -- 142
        modDep (← deref s) fun x => x + (d.setWidth 64 * 2#64)  -- 143
        return  -- 144
      setPtr item (← newLinkArray 1#8)  -- 147
      item := elem (← load item).ptr 0  -- 148
  let count : BitVec 8 := BitVec.ofNat 8 (popcount (← load l).pmap)  -- 151
  if ((count != 0#8) && ((count % 4#8) != 0#8)) || (d == 0#8) then  -- 152
    let mut after : Int := ((count.toNat : Int) - 1)  -- 153
    for _ in budget fuel do
      if !(decide (after ≥ (idx.toNat : Int))) then break
      store (elem (← load l).ptr ((after + 1).toNat)) ((← load (elem (← load l).ptr after.toNat)))  -- 154
      after := after - 1  -- 153
    store (elem (← load l).ptr idx.toNat) ({ pmap := key.setWidth 32, tmap := (key.sshiftRight 32).setWidth 32 : Link })  -- 157
  else  -- 162
    let src : Amt.Ptr := (← load l).ptr
    setPtr l (← newLinkArray (count + 1#8))  -- 163
    let mut before : BitVec 8 := 0#8  -- 164
    for _ in budget fuel do
      if !(decide (before < idx)) then break
      store (elem (← load l).ptr before.toNat) (← load (elem src before.toNat))  -- 165
      before := before + 1#8  -- 164
    store (elem (← load l).ptr idx.toNat) ({ pmap := key.setWidth 32, tmap := (key.sshiftRight 32).setWidth 32 : Link })  -- 168
    let mut after : BitVec 8 := idx  -- 172
    for _ in budget fuel do
      if !(decide (after < count)) then break
      store (elem (← load l).ptr ((after + 1#8).toNat)) (← load (elem src after.toNat))  -- 173
      after := after + 1#8  -- 172
  setPmap l ((← load l).pmap ||| bit)  -- 177
  setTmap l ((← load l).tmap ||| bit)  -- 178
  modLen (← deref s) fun x => x + 1#64  -- 179
  modDep (← deref s) fun x => x + d.setWidth 64  -- 180
  return  -- 181

/-- int_set.go:184-259. -/
def Del (sum : Maphash) (fuel : Nat) (s : Handle) (key : IntKey) (scratch : List PathLink) : T IntKey Unit (List PathLink) := do
  let mut path := (← Slice.ofRootT (← deref s) scratch)  -- 185
  let kb := intbytes key  -- 186
  let mut hw : Hasher := {}  -- 187
  hw := hw.setSeed (← getRoot (← deref s)).seed  -- 188
  hw := hw.write kb  -- 189
  let mut hd : BitVec 64 := hw.sum64 sum  -- 190
  let mut l : Ref := linkOf (← deref s)
  let mut d : BitVec 8 := 0#8
  let mut radix : BitVec 8 := (hd &&& 15#64).setWidth 8  -- 191
  let mut bit : BitVec 32 := 1#32 <<< radix  -- 192
  let mut idx : BitVec 8 := BitVec.ofNat 8 (popcount ((← load l).pmap &&& ~~~((~~~0#32) <<< radix)))
  for _ in budget fuel do  -- 193
    if !(((← load l).pmap &&& bit) != 0#32) then break
    path := path.append (radix.toNat, some l)  -- 194
    let item : Ref := elem (← load l).ptr idx.toNat  -- 195
    if ((← load l).tmap &&& bit) == 0#32 then  -- 196
      l := item  -- 197
      d := d + 1#8  -- 198
      if (d % 16#8) != 0#8 then  -- 199
        hd := hd >>> 4  -- 200
      else  -- 202
        hw := hw.write kb
        hd := hw.sum64 sum  -- 203
      radix := (hd &&& 15#64).setWidth 8  -- 205
      bit := 1#32 <<< radix  -- 206
      idx := BitVec.ofNat 8 (popcount ((← load l).pmap &&& ~~~((~~~0#32) <<< radix)))
      continue  -- 207
    let k : IntKey := (← load item).pmap.setWidth 64 ||| (((← load item).tmap.setWidth 64) <<< 32)  -- 209
    if !(goEq k key) then
      return path.arr  -- 210
    setPmap l ((← load l).pmap &&& ~~~bit)  -- 212
    setTmap l ((← load l).tmap &&& ~~~bit)  -- 213
    modLen (← deref s) fun x => x - 1#64  -- 214
    modDep (← deref s) fun x => x - d.setWidth 64  -- 215
    path ← path.clearAtT d  -- 216
    let mut count : BitVec 8 := BitVec.ofNat 8 (popcount (← load l).pmap)  -- 217
    for _ in budget fuel do  -- 219
      if !((count == 0#8) && (d != 0#8)) then break
      setPtr l .nil  -- 220
      d := d - 1#8  -- 221
      l := (← path.linkAtT d)  -- 222
      radix := (← path.radixAtT d)
      path ← path.clearAtT d  -- 223
      bit := 1#32 <<< radix  -- 224
      idx := BitVec.ofNat 8 (popcount ((← load l).pmap &&& ~~~((~~~0#32) <<< radix)))
      setPmap l ((← load l).pmap &&& ~~~bit)  -- 225
      setTmap l ((← load l).tmap &&& ~~~bit)  -- 226
      count := BitVec.ofNat 8 (popcount (← load l).pmap)  -- 227
    let src : Amt.Ptr := (← load l).ptr  -- 230
    if ((count % 4#8) == 0#8) && (d != 0#8) then  -- 231
      setPtr l (← newLinkArray count)  -- 232
      let mut before : BitVec 8 := 0#8  -- 233
      for _ in budget fuel do
        if !(decide (before < idx)) then break
        store (elem (← load l).ptr before.toNat) (← load (elem src before.toNat))  -- 234
        before := before + 1#8  -- 233
    let mut after : BitVec 8 := idx  -- 238
    for _ in budget fuel do
      if !(decide (after < count)) then break
      store (elem (← load l).ptr after.toNat) ((← load (elem src ((after + 1#8).toNat))))  -- 239
      after := after + 1#8  -- 238
    for _ in budget fuel do  -- 243
      if !((← andM (do pure (count == 1#8)) (do pure ((← load l).pmap == (← load l).tmap))) && (d != 0#8)) then break
      store l ((← load (elem (← load l).ptr 0)))  -- 244
      modDep (← deref s) fun x => x - 1#64  -- 245
      d := d - 1#8  -- 246
      l := (← path.linkAtT d)  -- 247
      radix := (← path.radixAtT d)
      path ← path.clearAtT d  -- 248
      setTmap l ((← load l).tmap ||| (1#32 <<< radix))  -- 249
      count := BitVec.ofNat 8 (popcount (← load l).pmap)  -- 250
    for _ in budget fuel do  -- 253
      if !(d != 0#8) then break
      d := d - 1#8  -- 254
      path ← path.clearAtT d  -- 255
    return path.arr  -- 257
  return path.arr  -- 259

/-- int_set.go:268-284. -/
def intSetScan {U : Type} (do_ : U → IntKey → T IntKey Unit (U × Bool)) : Nat → U → Ref → T IntKey Unit (U × Bool)
  | 0, _, _ => T.fail .diverge
  | fuel + 1, u₀, l => do
    let mut u := u₀
    let mut pmap : BitVec 32 := (← load l).pmap  -- 269
    let tmap : BitVec 32 := (← load l).tmap
    let count : BitVec 8 := BitVec.ofNat 8 (popcount pmap)  -- 270
    let mut i : BitVec 8 := 0#8  -- 271
    for _ in budget fuel do
      if !(decide (i < count)) then break
      let bit : BitVec 32 := 1#32 <<< (BitVec.ofNat 8 (trailingZeros pmap))  -- 272
      let item : Ref := elem (← load l).ptr i.toNat  -- 273
      if (tmap &&& bit) != 0#32 then  -- 274
        let k : IntKey := (← load item).pmap.setWidth 64 ||| (((← load item).tmap.setWidth 64) <<< 32)  -- 275
        let r ← do_ u k
        u := r.1
        if !r.2 then
          return (u, false)  -- 276
      else  -- 278
        let r ← intSetScan do_ fuel u item
        u := r.1
        if !r.2 then
          return (u, false)  -- 279
      pmap := pmap &&& ~~~bit  -- 281
      i := i + 1#8  -- 271
    return (u, true)  -- 283

/-- int_set.go:264-266. -/
def All {U : Type} (fuel : Nat) (s : Handle) (do_ : U → IntKey → T IntKey Unit (U × Bool)) (u : U) : T IntKey Unit U := do
  let r ← intSetScan do_ fuel u (linkOf (← deref s))  -- 265
  return r.1

end Amt.Par.IntSet
