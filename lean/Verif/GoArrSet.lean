/-
arr_set.go, translated statement by statement by tools/go2lean.py; do not edit.  The number at the end of a line is the line of
arr_set.go.
-/
import Verif.Go

set_option linter.unusedVariables false

namespace Amt.Go.ArrSet

/-- arr_set.go:53-79. -/
def Has {K : Type} [DecidableEq K] (sum : Maphash) (keyBytes : K → List UInt8) (fuel : Nat) (s : Handle) (key : K) : M K Unit Bool := do
  let kb := keyBytes key  -- 54
  let mut hw : Hasher := {}  -- 55
  hw := hw.setSeed (← getRoot (← deref s)).seed  -- 56
  hw := hw.write kb  -- 57
  let mut hd : BitVec 64 := hw.sum64 sum  -- 58
  let mut l : Ref := linkOf (← deref s)
  let mut d : BitVec 8 := 0#8
  let mut radix : BitVec 8 := (hd &&& 15#64).setWidth 8  -- 59
  let mut bit : BitVec 32 := 1#32 <<< radix  -- 60
  let mut idx : BitVec 8 := BitVec.ofNat 8 (popcount ((← load l).pmap &&& ~~~((~~~0#32) <<< radix)))
  for _ in budget fuel do  -- 61
    if !(((← load l).pmap &&& bit) != 0#32) then break
    let item : Ref := elem (← load l).ptr idx.toNat  -- 62
    if ((← load l).tmap &&& bit) == 0#32 then  -- 63
      l := item  -- 64
      d := d + 1#8  -- 65
      if (d % 16#8) != 0#8 then  -- 66
        hd := hd >>> 4  -- 67
      else  -- 69
        hw := hw.write kb
        hd := hw.sum64 sum  -- 70
      radix := (hd &&& 15#64).setWidth 8  -- 72
      bit := 1#32 <<< radix  -- 73
      idx := BitVec.ofNat 8 (popcount ((← load l).pmap &&& ~~~((~~~0#32) <<< radix)))
      continue  -- 74
    return goEq key (← kvKey (← load item).ptr)  -- 76
  return false  -- 78

/-- arr_set.go:82-179. -/
def Add {K : Type} [DecidableEq K] (sum : Maphash) (keyBytes : K → List UInt8) (fuel : Nat) (s : Handle) (key : K) : M K Unit Unit := do
  let kb := keyBytes key  -- 83
  let mut hw : Hasher := {}  -- 84
  hw := hw.setSeed (← getRoot (← deref s)).seed  -- 85
  hw := hw.write kb  -- 86
  let mut hd : BitVec 64 := hw.sum64 sum  -- 87
  let mut l : Ref := linkOf (← deref s)
  let mut d : BitVec 8 := 0#8
  let mut radix : BitVec 8 := (hd &&& 15#64).setWidth 8  -- 88
  let mut bit : BitVec 32 := 1#32 <<< radix  -- 89
  let mut idx : BitVec 8 := BitVec.ofNat 8 (popcount ((← load l).pmap &&& ~~~((~~~0#32) <<< radix)))
  for _ in budget fuel do  -- 90
    if !(((← load l).pmap &&& bit) != 0#32) then break
    let mut item : Ref := elem (← load l).ptr idx.toNat  -- 91
    if ((← load l).tmap &&& bit) == 0#32 then  -- 92
      l := item  -- 93
      d := d + 1#8  -- 94
      if (d % 16#8) != 0#8 then  -- 95
        hd := hd >>> 4  -- 96
      else  -- 98
        hw := hw.write kb
        hd := hw.sum64 sum  -- 99
      radix := (hd &&& 15#64).setWidth 8  -- 101
      bit := 1#32 <<< radix  -- 102
      idx := BitVec.ofNat 8 (popcount ((← load l).pmap &&& ~~~((~~~0#32) <<< radix)))
      continue  -- 103
    let ckv : Amt.Ptr := (← load item).ptr  -- 105
    let ckey : K := (← kvKey ckv)  -- 106
    if goEq ckey key then  -- 107
      return  -- 108
    let ckb := keyBytes ckey  -- 111
    let mut chw : Hasher := {}  -- 112
    chw := chw.setSeed (← getRoot (← deref s)).seed  -- 113
    let mut cd : BitVec 8 := 0#8  -- 114
    for _ in budget fuel do
      if !(decide (cd ≤ d)) then break
      chw := chw.write ckb  -- 115
      cd := cd + 16#8  -- 114
    let mut chd : BitVec 64 := (chw.sum64 sum) >>> (4#8 * (d % 16#8))  -- 117
    setTmap l ((← load l).tmap &&& ~~~bit)  -- 119
    modRoot (← deref s) fun r => { r with dep := r.dep - d.setWidth 64 }  -- 120
    for _ in budget fuel do  -- 121
      d := d + 1#8  -- 122
      if (d % 16#8) != 0#8 then  -- 123
        hd := hd >>> 4  -- 124
        chd := chd >>> 4  -- 125
      else  -- 127
        hw := hw.write kb
        chw := chw.write ckb  -- 128
        hd := hw.sum64 sum  -- 129
        chd := chw.sum64 sum
      let kbit : BitVec 32 := 1#32 <<< ((hd &&& 15#64).setWidth 8)  -- 131
      let cbit : BitVec 32 := 1#32 <<< ((chd &&& 15#64).setWidth 8)
      setPmap item (kbit ||| cbit)  -- 132
      if kbit != cbit then  -- 133
        setTmap item (← load item).pmap  -- 134
        setPtr item (← newLinkArray 2#8)  -- 135
        let kv : Amt.Ptr := (← alloc (.kv (some key) ()))  -- 136
        let pair : Amt.Ptr := (← load item).ptr  -- 137
        if decide (kbit < cbit) then
          setPtr (elem pair 0) kv  -- 138
          setPtr (elem pair 1) ckv
        else  -- 140
          setPtr (elem pair 0) ckv
          setPtr (elem pair 1) kv
        modRoot (← deref s) fun r => { r with len := r.len + 1#64 }  -- 142
        modRoot (← deref s) fun r => { r with dep := r.dep + (d.setWidth 64 * 2#64) }  -- 143
        return  -- 144
      setPtr item (← newLinkArray 1#8)  -- 147
      item := elem (← load item).ptr 0  -- 148
  let count : BitVec 8 := BitVec.ofNat 8 (popcount (← load l).pmap)  -- 151
  if ((count != 0#8) && ((count % 4#8) != 0#8)) || (d == 0#8) then  -- 152
    let mut after : Int := ((count.toNat : Int) - 1)  -- 153
    for _ in budget fuel do
      if !(decide (after ≥ (idx.toNat : Int))) then break
      store (elem (← load l).ptr ((after + 1).toNat)) ((← load (elem (← load l).ptr after.toNat)))  -- 154
      after := after - 1  -- 153
    store (elem (← load l).ptr idx.toNat) ({ ptr := (← alloc (.kv (some key) ())) : Link })  -- 157
  else  -- 161
    let src : Amt.Ptr := (← load l).ptr
    setPtr l (← newLinkArray (count + 1#8))  -- 162
    let mut before : BitVec 8 := 0#8  -- 163
    for _ in budget fuel do
      if !(decide (before < idx)) then break
      store (elem (← load l).ptr before.toNat) (← load (elem src before.toNat))  -- 164
      before := before + 1#8  -- 163
    store (elem (← load l).ptr idx.toNat) ({ ptr := (← alloc (.kv (some key) ())) : Link })  -- 167
    let mut after : BitVec 8 := idx  -- 170
    for _ in budget fuel do
      if !(decide (after < count)) then break
      store (elem (← load l).ptr ((after + 1#8).toNat)) (← load (elem src after.toNat))  -- 171
      after := after + 1#8  -- 170
  setPmap l ((← load l).pmap ||| bit)  -- 175
  setTmap l ((← load l).tmap ||| bit)  -- 176
  modRoot (← deref s) fun r => { r with len := r.len + 1#64 }  -- 177
  modRoot (← deref s) fun r => { r with dep := r.dep + d.setWidth 64 }  -- 178
  return  -- 179

/-- arr_set.go:182-257. -/
def Del {K : Type} [DecidableEq K] (sum : Maphash) (keyBytes : K → List UInt8) (fuel : Nat) (s : Handle) (key : K) (scratch : List PathLink) : M K Unit (List PathLink) := do
  let mut path := (← Slice.ofRoot (← deref s) scratch)  -- 183
  let kb := keyBytes key  -- 184
  let mut hw : Hasher := {}  -- 185
  hw := hw.setSeed (← getRoot (← deref s)).seed  -- 186
  hw := hw.write kb  -- 187
  let mut hd : BitVec 64 := hw.sum64 sum  -- 188
  let mut l : Ref := linkOf (← deref s)
  let mut d : BitVec 8 := 0#8
  let mut radix : BitVec 8 := (hd &&& 15#64).setWidth 8  -- 189
  let mut bit : BitVec 32 := 1#32 <<< radix  -- 190
  let mut idx : BitVec 8 := BitVec.ofNat 8 (popcount ((← load l).pmap &&& ~~~((~~~0#32) <<< radix)))
  for _ in budget fuel do  -- 191
    if !(((← load l).pmap &&& bit) != 0#32) then break
    path := path.append (radix.toNat, some l)  -- 192
    let item : Ref := elem (← load l).ptr idx.toNat  -- 193
    if ((← load l).tmap &&& bit) == 0#32 then  -- 194
      l := item  -- 195
      d := d + 1#8  -- 196
      if (d % 16#8) != 0#8 then  -- 197
        hd := hd >>> 4  -- 198
      else  -- 200
        hw := hw.write kb
        hd := hw.sum64 sum  -- 201
      radix := (hd &&& 15#64).setWidth 8  -- 203
      bit := 1#32 <<< radix  -- 204
      idx := BitVec.ofNat 8 (popcount ((← load l).pmap &&& ~~~((~~~0#32) <<< radix)))
      continue  -- 205
    if !(goEq (← kvKey (← load item).ptr) key) then  -- 207
      return path.arr  -- 208
    setPmap l ((← load l).pmap &&& ~~~bit)  -- 210
    setTmap l ((← load l).tmap &&& ~~~bit)  -- 211
    modRoot (← deref s) fun r => { r with len := r.len - 1#64 }  -- 212
    modRoot (← deref s) fun r => { r with dep := r.dep - d.setWidth 64 }  -- 213
    path ← path.clearAt d  -- 214
    let mut count : BitVec 8 := BitVec.ofNat 8 (popcount (← load l).pmap)  -- 215
    for _ in budget fuel do  -- 217
      if !((count == 0#8) && (d != 0#8)) then break
      setPtr l .nil  -- 218
      d := d - 1#8  -- 219
      l := (← path.linkAt d)  -- 220
      radix := (← path.radixAt d)
      path ← path.clearAt d  -- 221
      bit := 1#32 <<< radix  -- 222
      idx := BitVec.ofNat 8 (popcount ((← load l).pmap &&& ~~~((~~~0#32) <<< radix)))
      setPmap l ((← load l).pmap &&& ~~~bit)  -- 223
      setTmap l ((← load l).tmap &&& ~~~bit)  -- 224
      count := BitVec.ofNat 8 (popcount (← load l).pmap)  -- 225
    let src : Amt.Ptr := (← load l).ptr  -- 228
    if ((count % 4#8) == 0#8) && (d != 0#8) then  -- 229
      setPtr l (← newLinkArray count)  -- 230
      let mut before : BitVec 8 := 0#8  -- 231
      for _ in budget fuel do
        if !(decide (before < idx)) then break
        store (elem (← load l).ptr before.toNat) (← load (elem src before.toNat))  -- 232
        before := before + 1#8  -- 231
    let mut after : BitVec 8 := idx  -- 236
    for _ in budget fuel do
      if !(decide (after < count)) then break
      store (elem (← load l).ptr after.toNat) ((← load (elem src ((after + 1#8).toNat))))  -- 237
      after := after + 1#8  -- 236
    for _ in budget fuel do  -- 241
      if !((← andM (do pure (count == 1#8)) (do pure ((← load l).pmap == (← load l).tmap))) && (d != 0#8)) then break
      store l ((← load (elem (← load l).ptr 0)))  -- 242
      modRoot (← deref s) fun r => { r with dep := r.dep - 1#64 }  -- 243
      d := d - 1#8  -- 244
      l := (← path.linkAt d)  -- 245
      radix := (← path.radixAt d)
      path ← path.clearAt d  -- 246
      setTmap l ((← load l).tmap ||| (1#32 <<< radix))  -- 247
      count := BitVec.ofNat 8 (popcount (← load l).pmap)  -- 248
    for _ in budget fuel do  -- 251
      if !(d != 0#8) then break
      d := d - 1#8  -- 252
      path ← path.clearAt d  -- 253
    return path.arr  -- 255
  return path.arr  -- 257

/-- arr_set.go:266-283. -/
def arrSetScan {K U : Type} (do_ : U → K → M K Unit (U × Bool)) : Nat → U → Ref → M K Unit (U × Bool)
  | 0, _, _ => M.fail .diverge
  | fuel + 1, u₀, l => do
    let mut u := u₀
    let mut pmap : BitVec 32 := (← load l).pmap  -- 267
    let tmap : BitVec 32 := (← load l).tmap
    let count : BitVec 8 := BitVec.ofNat 8 (popcount pmap)  -- 268
    let mut i : BitVec 8 := 0#8  -- 269
    for _ in budget fuel do
      if !(decide (i < count)) then break
      let bit : BitVec 32 := 1#32 <<< (BitVec.ofNat 8 (trailingZeros pmap))  -- 270
      let item : Ref := elem (← load l).ptr i.toNat  -- 271
      if (tmap &&& bit) != 0#32 then  -- 272
        let kv : Amt.Ptr := (← load item).ptr  -- 273
        let r ← do_ u (← kvKey kv)  -- 274
        u := r.1
        if !r.2 then
          return (u, false)  -- 275
      else  -- 277
        let r ← arrSetScan do_ fuel u item
        u := r.1
        if !r.2 then
          return (u, false)  -- 278
      pmap := pmap &&& ~~~bit  -- 280
      i := i + 1#8  -- 269
    return (u, true)  -- 282

/-- arr_set.go:262-264. -/
def All {K : Type} [DecidableEq K] {U : Type} (fuel : Nat) (s : Handle) (do_ : U → K → M K Unit (U × Bool)) (u : U) : M K Unit U := do
  let r ← arrSetScan do_ fuel u (linkOf (← deref s))  -- 263
  return r.1

end Amt.Go.ArrSet
