/-
arr_map.go, translated statement by statement by tools/go2lean.py; do not edit.  The number at the end of a line is the line of
arr_map.go.
-/
import Verif.Go

set_option linter.unusedVariables false

namespace Amt.Go.ArrMap

/-- arr_map.go:83-112. -/
def Ptr {K V : Type} [DecidableEq K] [Inhabited V] (sum : Maphash) (keyBytes : K → List UInt8) (fuel : Nat) (m : Handle) (key : K) : M K V Amt.Ptr := do
  let kb := keyBytes key  -- 84
  let mut hw : Hasher := {}  -- 85
  hw := hw.setSeed (← getRoot (← deref m)).seed  -- 86
  hw := hw.write kb  -- 87
  let mut hd : BitVec 64 := hw.sum64 sum  -- 88
  let mut l : Ref := linkOf (← deref m)
  let mut d : BitVec 8 := 0#8
  let mut radix : BitVec 8 := (hd &&& 15#64).setWidth 8  -- 89
  let mut bit : BitVec 32 := 1#32 <<< radix  -- 90
  let mut idx : BitVec 8 := BitVec.ofNat 8 (popcount ((← load l).pmap &&& ~~~((~~~0#32) <<< radix)))
  for _ in budget fuel do  -- 91
    if !(((← load l).pmap &&& bit) != 0#32) then break
    let item : Ref := elem (← load l).ptr idx.toNat  -- 92
    if ((← load l).tmap &&& bit) == 0#32 then  -- 93
      l := item  -- 94
      d := d + 1#8  -- 95
      if (d % 16#8) != 0#8 then  -- 96
        hd := hd >>> 4  -- 97
      else  -- 99
        hw := hw.write kb
        hd := hw.sum64 sum  -- 100
      radix := (hd &&& 15#64).setWidth 8  -- 102
      bit := 1#32 <<< radix  -- 103
      idx := BitVec.ofNat 8 (popcount ((← load l).pmap &&& ~~~((~~~0#32) <<< radix)))
      continue  -- 104
    let kv : Amt.Ptr := (← load item).ptr  -- 106
    if goEq (← kvKey kv) key then
      return (← fieldAddr kv)  -- 107
    return .nil  -- 109
  return .nil  -- 111

/-- arr_map.go:64-69. -/
def Get {K V : Type} [DecidableEq K] [Inhabited V] (sum : Maphash) (keyBytes : K → List UInt8) (fuel : Nat) (m : Handle) (key : K) : M K V (V × Bool) := do
  let mut value : V := default
  let mut ok : Bool := false
  let ptr := (← Ptr sum keyBytes fuel m key)  -- 65
  if ptr != .nil then
    value := (← kvVal ptr)  -- 66
    ok := true
  return (value, ok)  -- 68

/-- arr_map.go:72-79. -/
def Val {K V : Type} [DecidableEq K] [Inhabited V] (sum : Maphash) (keyBytes : K → List UInt8) (fuel : Nat) (m : Handle) (key : K) : M K V V := do
  let mut value : V := default
  if m.isSome then  -- 73
    let ptr := (← Ptr sum keyBytes fuel m key)  -- 74
    if ptr != .nil then
      value := (← kvVal ptr)  -- 75
  return value  -- 78

/-- arr_map.go:115-213. -/
def Set {K V : Type} [DecidableEq K] [Inhabited V] (sum : Maphash) (keyBytes : K → List UInt8) (fuel : Nat) (m : Handle) (key : K) (value : V) : M K V Unit := do
  let kb := keyBytes key  -- 116
  let mut hw : Hasher := {}  -- 117
  hw := hw.setSeed (← getRoot (← deref m)).seed  -- 118
  hw := hw.write kb  -- 119
  let mut hd : BitVec 64 := hw.sum64 sum  -- 120
  let mut l : Ref := linkOf (← deref m)
  let mut d : BitVec 8 := 0#8
  let mut radix : BitVec 8 := (hd &&& 15#64).setWidth 8  -- 121
  let mut bit : BitVec 32 := 1#32 <<< radix  -- 122
  let mut idx : BitVec 8 := BitVec.ofNat 8 (popcount ((← load l).pmap &&& ~~~((~~~0#32) <<< radix)))
  for _ in budget fuel do  -- 123
    if !(((← load l).pmap &&& bit) != 0#32) then break
    let mut item : Ref := elem (← load l).ptr idx.toNat  -- 124
    if ((← load l).tmap &&& bit) == 0#32 then  -- 125
      l := item  -- 126
      d := d + 1#8  -- 127
      if (d % 16#8) != 0#8 then  -- 128
        hd := hd >>> 4  -- 129
      else  -- 131
        hw := hw.write kb
        hd := hw.sum64 sum  -- 132
      radix := (hd &&& 15#64).setWidth 8  -- 134
      bit := 1#32 <<< radix  -- 135
      idx := BitVec.ofNat 8 (popcount ((← load l).pmap &&& ~~~((~~~0#32) <<< radix)))
      continue  -- 136
    let ckv : Amt.Ptr := (← load item).ptr  -- 138
    let ckey : K := (← kvKey ckv)  -- 139
    if goEq ckey key then  -- 140
      storeVal ckv value  -- 141
      return  -- 142
    let ckb := keyBytes ckey  -- 145
    let mut chw : Hasher := {}  -- 146
    chw := chw.setSeed (← getRoot (← deref m)).seed  -- 147
    let mut cd : BitVec 8 := 0#8  -- 148
    for _ in budget fuel do
      if !(decide (cd ≤ d)) then break
      chw := chw.write ckb  -- 149
      cd := cd + 16#8  -- 148
    let mut chd : BitVec 64 := (chw.sum64 sum) >>> (4#8 * (d % 16#8))  -- 151
    setTmap l ((← load l).tmap &&& ~~~bit)  -- 153
    modRoot (← deref m) fun r => { r with dep := r.dep - d.setWidth 64 }  -- 154
    for _ in budget fuel do  -- 155
      d := d + 1#8  -- 156
      if (d % 16#8) != 0#8 then  -- 157
        hd := hd >>> 4  -- 158
        chd := chd >>> 4  -- 159
      else  -- 161
        hw := hw.write kb
        chw := chw.write ckb  -- 162
        hd := hw.sum64 sum  -- 163
        chd := chw.sum64 sum
      let kbit : BitVec 32 := 1#32 <<< ((hd &&& 15#64).setWidth 8)  -- 165
      let cbit : BitVec 32 := 1#32 <<< ((chd &&& 15#64).setWidth 8)
      setPmap item (kbit ||| cbit)  -- 166
      if kbit != cbit then  -- 167
        setTmap item (← load item).pmap  -- 168
        setPtr item (← newLinkArray 2#8)  -- 169
        let kv : Amt.Ptr := (← alloc (.kv (some key) default))  -- 170
        let pair : Amt.Ptr := (← load item).ptr  -- 171
        if decide (kbit < cbit) then
          setPtr (elem pair 0) kv  -- 172
          setPtr (elem pair 1) ckv
        else  -- 174
          setPtr (elem pair 0) ckv
          setPtr (elem pair 1) kv
        modRoot (← deref m) fun r => { r with len := r.len + 1#64 }  -- 176
        modRoot (← deref m) fun r => { r with dep := r.dep + (d.setWidth 64 * 2#64) }  -- 177
        return  -- 178
      setPtr item (← newLinkArray 1#8)  -- 181
      item := elem (← load item).ptr 0  -- 182
  let count : BitVec 8 := BitVec.ofNat 8 (popcount (← load l).pmap)  -- 185
  if ((count != 0#8) && ((count % 4#8) != 0#8)) || (d == 0#8) then  -- 186
    let mut after : Int := ((count.toNat : Int) - 1)  -- 187
    for _ in budget fuel do
      if !(decide (after ≥ (idx.toNat : Int))) then break
      store (elem (← load l).ptr ((after + 1).toNat)) ((← load (elem (← load l).ptr after.toNat)))  -- 188
      after := after - 1  -- 187
    store (elem (← load l).ptr idx.toNat) ({ ptr := (← alloc (.kv (some key) value)) : Link })  -- 191
  else  -- 195
    let src : Amt.Ptr := (← load l).ptr
    setPtr l (← newLinkArray (count + 1#8))  -- 196
    let mut before : BitVec 8 := 0#8  -- 197
    for _ in budget fuel do
      if !(decide (before < idx)) then break
      store (elem (← load l).ptr before.toNat) (← load (elem src before.toNat))  -- 198
      before := before + 1#8  -- 197
    store (elem (← load l).ptr idx.toNat) ({ ptr := (← alloc (.kv (some key) value)) : Link })  -- 201
    let mut after : BitVec 8 := idx  -- 204
    for _ in budget fuel do
      if !(decide (after < count)) then break
      store (elem (← load l).ptr ((after + 1#8).toNat)) (← load (elem src after.toNat))  -- 205
      after := after + 1#8  -- 204
  setPmap l ((← load l).pmap ||| bit)  -- 209
  setTmap l ((← load l).tmap ||| bit)  -- 210
  modRoot (← deref m) fun r => { r with len := r.len + 1#64 }  -- 211
  modRoot (← deref m) fun r => { r with dep := r.dep + d.setWidth 64 }  -- 212
  return  -- 213

/-- arr_map.go:217-318. -/
def Mod {K V : Type} [DecidableEq K] [Inhabited V] (sum : Maphash) (keyBytes : K → List UInt8) {U : Type} (fuel : Nat) (m : Handle) (key : K) (mod : U → Amt.Ptr → Bool → M K V U) (u₀ : U) : M K V U := do
  let mut u := u₀
  let kb := keyBytes key  -- 218
  let mut hw : Hasher := {}  -- 219
  hw := hw.setSeed (← getRoot (← deref m)).seed  -- 220
  hw := hw.write kb  -- 221
  let mut hd : BitVec 64 := hw.sum64 sum  -- 222
  let mut l : Ref := linkOf (← deref m)
  let mut d : BitVec 8 := 0#8
  let mut radix : BitVec 8 := (hd &&& 15#64).setWidth 8  -- 223
  let mut bit : BitVec 32 := 1#32 <<< radix  -- 224
  let mut idx : BitVec 8 := BitVec.ofNat 8 (popcount ((← load l).pmap &&& ~~~((~~~0#32) <<< radix)))
  for _ in budget fuel do  -- 225
    if !(((← load l).pmap &&& bit) != 0#32) then break
    let mut item : Ref := elem (← load l).ptr idx.toNat  -- 226
    if ((← load l).tmap &&& bit) == 0#32 then  -- 227
      l := item  -- 228
      d := d + 1#8  -- 229
      if (d % 16#8) != 0#8 then  -- 230
        hd := hd >>> 4  -- 231
      else  -- 233
        hw := hw.write kb
        hd := hw.sum64 sum  -- 234
      radix := (hd &&& 15#64).setWidth 8  -- 236
      bit := 1#32 <<< radix  -- 237
      idx := BitVec.ofNat 8 (popcount ((← load l).pmap &&& ~~~((~~~0#32) <<< radix)))
      continue  -- 238
    let ckv : Amt.Ptr := (← load item).ptr  -- 240
    let ckey : K := (← kvKey ckv)  -- 241
    if goEq ckey key then  -- 242
      u ← mod u (← fieldAddr ckv) true  -- 243
      return u  -- 244
    let ckb := keyBytes ckey  -- 247
    let mut chw : Hasher := {}  -- 248
    chw := chw.setSeed (← getRoot (← deref m)).seed  -- 249
    let mut cd : BitVec 8 := 0#8  -- 250
    for _ in budget fuel do
      if !(decide (cd ≤ d)) then break
      chw := chw.write ckb  -- 251
      cd := cd + 16#8  -- 250
    let mut chd : BitVec 64 := (chw.sum64 sum) >>> (4#8 * (d % 16#8))  -- 253
    setTmap l ((← load l).tmap &&& ~~~bit)  -- 255
    modRoot (← deref m) fun r => { r with dep := r.dep - d.setWidth 64 }  -- 256
    for _ in budget fuel do  -- 257
      d := d + 1#8  -- 258
      if (d % 16#8) != 0#8 then  -- 259
        hd := hd >>> 4  -- 260
        chd := chd >>> 4  -- 261
      else  -- 263
        hw := hw.write kb
        chw := chw.write ckb  -- 264
        hd := hw.sum64 sum  -- 265
        chd := chw.sum64 sum
      let kbit : BitVec 32 := 1#32 <<< ((hd &&& 15#64).setWidth 8)  -- 267
      let cbit : BitVec 32 := 1#32 <<< ((chd &&& 15#64).setWidth 8)
      setPmap item (kbit ||| cbit)  -- 268
      if kbit != cbit then  -- 269
        setTmap item (← load item).pmap  -- 270
        setPtr item (← newLinkArray 2#8)  -- 271
        let kv : Amt.Ptr := (← alloc (.kv (some key) default))  -- 272
        u ← mod u (← fieldAddr kv) false  -- 273
        let pair : Amt.Ptr := (← load item).ptr  -- 274
        if decide (kbit < cbit) then
          setPtr (elem pair 0) kv  -- 275
          setPtr (elem pair 1) ckv
        else  -- 277
          setPtr (elem pair 0) ckv
          setPtr (elem pair 1) kv
        modRoot (← deref m) fun r => { r with len := r.len + 1#64 }  -- 279
        modRoot (← deref m) fun r => { r with dep := r.dep + (d.setWidth 64 * 2#64) }  -- 280
        return u  -- 281
      setPtr item (← newLinkArray 1#8)  -- 284
      item := elem (← load item).ptr 0  -- 285
  let kv : Amt.Ptr := (← alloc (.kv (some key) default))  -- 288
  u ← mod u (← fieldAddr kv) false  -- 289
  let count : BitVec 8 := BitVec.ofNat 8 (popcount (← load l).pmap)  -- 290
  if ((count != 0#8) && ((count % 4#8) != 0#8)) || (d == 0#8) then  -- 291
    let mut after : Int := ((count.toNat : Int) - 1)  -- 292
    for _ in budget fuel do
      if !(decide (after ≥ (idx.toNat : Int))) then break
      store (elem (← load l).ptr ((after + 1).toNat)) ((← load (elem (← load l).ptr after.toNat)))  -- 293
      after := after - 1  -- 292
    store (elem (← load l).ptr idx.toNat) ({ ptr := kv : Link })  -- 296
  else  -- 300
    let src : Amt.Ptr := (← load l).ptr
    setPtr l (← newLinkArray (count + 1#8))  -- 301
    let mut before : BitVec 8 := 0#8  -- 302
    for _ in budget fuel do
      if !(decide (before < idx)) then break
      store (elem (← load l).ptr before.toNat) (← load (elem src before.toNat))  -- 303
      before := before + 1#8  -- 302
    store (elem (← load l).ptr idx.toNat) ({ ptr := kv : Link })  -- 306
    let mut after : BitVec 8 := idx  -- 309
    for _ in budget fuel do
      if !(decide (after < count)) then break
      store (elem (← load l).ptr ((after + 1#8).toNat)) (← load (elem src after.toNat))  -- 310
      after := after + 1#8  -- 309
  setPmap l ((← load l).pmap ||| bit)  -- 314
  setTmap l ((← load l).tmap ||| bit)  -- 315
  modRoot (← deref m) fun r => { r with len := r.len + 1#64 }  -- 316
  modRoot (← deref m) fun r => { r with dep := r.dep + d.setWidth 64 }  -- 317
  return u  -- 318

/-- arr_map.go:321-396. -/
def Del {K V : Type} [DecidableEq K] [Inhabited V] (sum : Maphash) (keyBytes : K → List UInt8) (fuel : Nat) (m : Handle) (key : K) (scratch : List PathLink) : M K V (List PathLink) := do
  let mut path := (← Slice.ofRoot (← deref m) scratch)  -- 322
  let kb := keyBytes key  -- 323
  let mut hw : Hasher := {}  -- 324
  hw := hw.setSeed (← getRoot (← deref m)).seed  -- 325
  hw := hw.write kb  -- 326
  let mut hd : BitVec 64 := hw.sum64 sum  -- 327
  let mut l : Ref := linkOf (← deref m)
  let mut d : BitVec 8 := 0#8
  let mut radix : BitVec 8 := (hd &&& 15#64).setWidth 8  -- 328
  let mut bit : BitVec 32 := 1#32 <<< radix  -- 329
  let mut idx : BitVec 8 := BitVec.ofNat 8 (popcount ((← load l).pmap &&& ~~~((~~~0#32) <<< radix)))
  for _ in budget fuel do  -- 330
    if !(((← load l).pmap &&& bit) != 0#32) then break
    path := path.append (radix.toNat, some l)  -- 331
    let item : Ref := elem (← load l).ptr idx.toNat  -- 332
    if ((← load l).tmap &&& bit) == 0#32 then  -- 333
      l := item  -- 334
      d := d + 1#8  -- 335
      if (d % 16#8) != 0#8 then  -- 336
        hd := hd >>> 4  -- 337
      else  -- 339
        hw := hw.write kb
        hd := hw.sum64 sum  -- 340
      radix := (hd &&& 15#64).setWidth 8  -- 342
      bit := 1#32 <<< radix  -- 343
      idx := BitVec.ofNat 8 (popcount ((← load l).pmap &&& ~~~((~~~0#32) <<< radix)))
      continue  -- 344
    if !(goEq (← kvKey (← load item).ptr) key) then  -- 346
      return path.arr  -- 347
    setPmap l ((← load l).pmap &&& ~~~bit)  -- 349
    setTmap l ((← load l).tmap &&& ~~~bit)  -- 350
    modRoot (← deref m) fun r => { r with len := r.len - 1#64 }  -- 351
    modRoot (← deref m) fun r => { r with dep := r.dep - d.setWidth 64 }  -- 352
    path ← path.clearAt d  -- 353
    let mut count : BitVec 8 := BitVec.ofNat 8 (popcount (← load l).pmap)  -- 354
    for _ in budget fuel do  -- 356
      if !((count == 0#8) && (d != 0#8)) then break
      setPtr l .nil  -- 357
      d := d - 1#8  -- 358
      l := (← path.linkAt d)  -- 359
      radix := (← path.radixAt d)
      path ← path.clearAt d  -- 360
      bit := 1#32 <<< radix  -- 361
      idx := BitVec.ofNat 8 (popcount ((← load l).pmap &&& ~~~((~~~0#32) <<< radix)))
      setPmap l ((← load l).pmap &&& ~~~bit)  -- 362
      setTmap l ((← load l).tmap &&& ~~~bit)  -- 363
      count := BitVec.ofNat 8 (popcount (← load l).pmap)  -- 364
    let src : Amt.Ptr := (← load l).ptr  -- 367
    if ((count % 4#8) == 0#8) && (d != 0#8) then  -- 368
      setPtr l (← newLinkArray count)  -- 369
      let mut before : BitVec 8 := 0#8  -- 370
      for _ in budget fuel do
        if !(decide (before < idx)) then break
        store (elem (← load l).ptr before.toNat) (← load (elem src before.toNat))  -- 371
        before := before + 1#8  -- 370
    let mut after : BitVec 8 := idx  -- 375
    for _ in budget fuel do
      if !(decide (after < count)) then break
      store (elem (← load l).ptr after.toNat) ((← load (elem src ((after + 1#8).toNat))))  -- 376
      after := after + 1#8  -- 375
    for _ in budget fuel do  -- 380
      if !((← andM (do pure (count == 1#8)) (do pure ((← load l).pmap == (← load l).tmap))) && (d != 0#8)) then break
      store l ((← load (elem (← load l).ptr 0)))  -- 381
      modRoot (← deref m) fun r => { r with dep := r.dep - 1#64 }  -- 382
      d := d - 1#8  -- 383
      l := (← path.linkAt d)  -- 384
      radix := (← path.radixAt d)
      path ← path.clearAt d  -- 385
      setTmap l ((← load l).tmap ||| (1#32 <<< radix))  -- 386
      count := BitVec.ofNat 8 (popcount (← load l).pmap)  -- 387
    for _ in budget fuel do  -- 390
      if !(d != 0#8) then break
      d := d - 1#8  -- 391
      path ← path.clearAt d  -- 392
    return path.arr  -- 394
  return path.arr  -- 396

/-- arr_map.go:405-422. -/
def arrScan {K V U : Type} [Inhabited V] (do_ : U → K → Amt.Ptr → M K V (U × Bool)) : Nat → U → Ref → M K V (U × Bool)
  | 0, _, _ => M.fail .diverge
  | fuel + 1, u₀, l => do
    let mut u := u₀
    let mut pmap : BitVec 32 := (← load l).pmap  -- 406
    let tmap : BitVec 32 := (← load l).tmap
    let count : BitVec 8 := BitVec.ofNat 8 (popcount pmap)  -- 407
    let mut i : BitVec 8 := 0#8  -- 408
    for _ in budget fuel do
      if !(decide (i < count)) then break
      let bit : BitVec 32 := 1#32 <<< (BitVec.ofNat 8 (trailingZeros pmap))  -- 409
      let item : Ref := elem (← load l).ptr i.toNat  -- 410
      if (tmap &&& bit) != 0#32 then  -- 411
        let kv : Amt.Ptr := (← load item).ptr  -- 412
        let r ← do_ u (← kvKey kv) (← fieldAddr kv)  -- 413
        u := r.1
        if !r.2 then
          return (u, false)  -- 414
      else  -- 416
        let r ← arrScan do_ fuel u item
        u := r.1
        if !r.2 then
          return (u, false)  -- 417
      pmap := pmap &&& ~~~bit  -- 419
      i := i + 1#8  -- 408
    return (u, true)  -- 421

/-- arr_map.go:401-403. -/
def All {K V : Type} [DecidableEq K] [Inhabited V] {U : Type} (fuel : Nat) (m : Handle) (do_ : U → K → Amt.Ptr → M K V (U × Bool)) (u : U) : M K V U := do
  let r ← arrScan do_ fuel u (linkOf (← deref m))  -- 402
  return r.1

end Amt.Go.ArrMap
