/-
string_map.go, translated statement by statement by tools/go2lean.py; do not edit.  The number at the end of a line is the line of
string_map.go.
-/
import Verif.Go

set_option linter.unusedVariables false

namespace Amt.Go.StringMap

/-- string_map.go:90-118. -/
def Ptr {V : Type} [Inhabited V] (sum : Maphash) (fuel : Nat) (m : Handle) (key : ByteStr) : M ByteStr V Amt.Ptr := do
  let mut hw : Hasher := {}  -- 91
  hw := hw.setSeed (← getRoot (← deref m)).seed  -- 92
  hw := hw.write key  -- 93
  let mut hd : BitVec 64 := hw.sum64 sum  -- 94
  let mut l : Ref := linkOf (← deref m)
  let mut d : BitVec 8 := 0#8
  let mut radix : BitVec 8 := (hd &&& 15#64).setWidth 8  -- 95
  let mut bit : BitVec 32 := 1#32 <<< radix  -- 96
  let mut idx : BitVec 8 := BitVec.ofNat 8 (popcount ((← load l).pmap &&& ~~~((~~~0#32) <<< radix)))
  for _ in budget fuel do  -- 97
    if !(((← load l).pmap &&& bit) != 0#32) then break
    let item : Ref := elem (← load l).ptr idx.toNat  -- 98
    if ((← load l).tmap &&& bit) == 0#32 then  -- 99
      l := item  -- 100
      d := d + 1#8  -- 101
      if (d % 16#8) != 0#8 then  -- 102
        hd := hd >>> 4  -- 103
      else  -- 105
        hw := hw.write key
        hd := hw.sum64 sum  -- 106
      radix := (hd &&& 15#64).setWidth 8  -- 108
      bit := 1#32 <<< radix  -- 109
      idx := BitVec.ofNat 8 (popcount ((← load l).pmap &&& ~~~((~~~0#32) <<< radix)))
      continue  -- 110
    let kv : Amt.Ptr := (← load item).ptr  -- 112
    if goEq (← kvKey kv) key then
      return (← fieldAddr kv)  -- 113
    return .nil  -- 115
  return .nil  -- 117

/-- string_map.go:71-76. -/
def Get {V : Type} [Inhabited V] (sum : Maphash) (fuel : Nat) (m : Handle) (key : ByteStr) : M ByteStr V (V × Bool) := do
  let mut value : V := default
  let mut ok : Bool := false
  let ptr := (← Ptr sum fuel m key)  -- 72
  if ptr != .nil then
    value := (← kvVal ptr)  -- 73
    ok := true
  return (value, ok)  -- 75

/-- string_map.go:79-86. -/
def Val {V : Type} [Inhabited V] (sum : Maphash) (fuel : Nat) (m : Handle) (key : ByteStr) : M ByteStr V V := do
  let mut value : V := default
  if m.isSome then  -- 80
    let ptr := (← Ptr sum fuel m key)  -- 81
    if ptr != .nil then
      value := (← kvVal ptr)  -- 82
  return value  -- 85

/-- string_map.go:121-217. -/
def Set {V : Type} [Inhabited V] (sum : Maphash) (fuel : Nat) (m : Handle) (key : ByteStr) (value : V) : M ByteStr V Unit := do
  let mut hw : Hasher := {}  -- 122
  hw := hw.setSeed (← getRoot (← deref m)).seed  -- 123
  hw := hw.write key  -- 124
  let mut hd : BitVec 64 := hw.sum64 sum  -- 125
  let mut l : Ref := linkOf (← deref m)
  let mut d : BitVec 8 := 0#8
  let mut radix : BitVec 8 := (hd &&& 15#64).setWidth 8  -- 126
  let mut bit : BitVec 32 := 1#32 <<< radix  -- 127
  let mut idx : BitVec 8 := BitVec.ofNat 8 (popcount ((← load l).pmap &&& ~~~((~~~0#32) <<< radix)))
  for _ in budget fuel do  -- 128
    if !(((← load l).pmap &&& bit) != 0#32) then break
    let mut item : Ref := elem (← load l).ptr idx.toNat  -- 129
    if ((← load l).tmap &&& bit) == 0#32 then  -- 130
      l := item  -- 131
      d := d + 1#8  -- 132
      if (d % 16#8) != 0#8 then  -- 133
        hd := hd >>> 4  -- 134
      else  -- 136
        hw := hw.write key
        hd := hw.sum64 sum  -- 137
      radix := (hd &&& 15#64).setWidth 8  -- 139
      bit := 1#32 <<< radix  -- 140
      idx := BitVec.ofNat 8 (popcount ((← load l).pmap &&& ~~~((~~~0#32) <<< radix)))
      continue  -- 141
    let ckv : Amt.Ptr := (← load item).ptr  -- 143
    let ckey : ByteStr := (← kvKey ckv)  -- 144
    if goEq ckey key then  -- 145
      storeVal ckv value  -- 146
      return  -- 147
    let mut chw : Hasher := {}  -- 150
    chw := chw.setSeed (← getRoot (← deref m)).seed  -- 151
    let mut cd : BitVec 8 := 0#8  -- 152
    for _ in budget fuel do
      if !(decide (cd ≤ d)) then break
      chw := chw.write ckey  -- 153
      cd := cd + 16#8  -- 152
    let mut chd : BitVec 64 := (chw.sum64 sum) >>> (4#8 * (d % 16#8))  -- 155
    setTmap l ((← load l).tmap &&& ~~~bit)  -- 157
    modRoot (← deref m) fun r => { r with dep := r.dep - d.setWidth 64 }  -- 158
    for _ in budget fuel do  -- 159
      d := d + 1#8  -- 160
      if (d % 16#8) != 0#8 then  -- 161
        hd := hd >>> 4  -- 162
        chd := chd >>> 4  -- 163
      else  -- 165
        hw := hw.write key
        chw := chw.write ckey  -- 166
        hd := hw.sum64 sum  -- 167
        chd := chw.sum64 sum
      let kbit : BitVec 32 := 1#32 <<< ((hd &&& 15#64).setWidth 8)  -- 169
      let cbit : BitVec 32 := 1#32 <<< ((chd &&& 15#64).setWidth 8)
      setPmap item (kbit ||| cbit)  -- 170
      if kbit != cbit then  -- 171
        setTmap item (← load item).pmap  -- 172
        setPtr item (← newLinkArray 2#8)  -- 173
        let kv : Amt.Ptr := (← alloc (.kv (some key) value))  -- 174
        let pair : Amt.Ptr := (← load item).ptr  -- 175
        if decide (kbit < cbit) then
          setPtr (elem pair 0) kv  -- 176
          setPtr (elem pair 1) ckv
        else  -- 178
          setPtr (elem pair 0) ckv
          setPtr (elem pair 1) kv
        modRoot (← deref m) fun r => { r with len := r.len + 1#64 }  -- 180
        modRoot (← deref m) fun r => { r with dep := r.dep + (d.setWidth 64 * 2#64) }  -- 181
        return  -- 182
      setPtr item (← newLinkArray 1#8)  -- 185
      item := elem (← load item).ptr 0  -- 186
  let count : BitVec 8 := BitVec.ofNat 8 (popcount (← load l).pmap)  -- 189
  if ((count != 0#8) && ((count % 4#8) != 0#8)) || (d == 0#8) then  -- 190
    let mut after : Int := ((count.toNat : Int) - 1)  -- 191
    for _ in budget fuel do
      if !(decide (after ≥ (idx.toNat : Int))) then break
      store (elem (← load l).ptr ((after + 1).toNat)) ((← load (elem (← load l).ptr after.toNat)))  -- 192
      after := after - 1  -- 191
    store (elem (← load l).ptr idx.toNat) ({ ptr := (← alloc (.kv (some key) value)) : Link })  -- 195
  else  -- 199
    let src : Amt.Ptr := (← load l).ptr
    setPtr l (← newLinkArray (count + 1#8))  -- 200
    let mut before : BitVec 8 := 0#8  -- 201
    for _ in budget fuel do
      if !(decide (before < idx)) then break
      store (elem (← load l).ptr before.toNat) (← load (elem src before.toNat))  -- 202
      before := before + 1#8  -- 201
    store (elem (← load l).ptr idx.toNat) ({ ptr := (← alloc (.kv (some key) value)) : Link })  -- 205
    let mut after : BitVec 8 := idx  -- 208
    for _ in budget fuel do
      if !(decide (after < count)) then break
      store (elem (← load l).ptr ((after + 1#8).toNat)) (← load (elem src after.toNat))  -- 209
      after := after + 1#8  -- 208
  setPmap l ((← load l).pmap ||| bit)  -- 213
  setTmap l ((← load l).tmap ||| bit)  -- 214
  modRoot (← deref m) fun r => { r with len := r.len + 1#64 }  -- 215
  modRoot (← deref m) fun r => { r with dep := r.dep + d.setWidth 64 }  -- 216
  return  -- 217

/-- string_map.go:221-320. -/
def Mod {V : Type} [Inhabited V] (sum : Maphash) {U : Type} (fuel : Nat) (m : Handle) (key : ByteStr) (mod : U → Amt.Ptr → Bool → M ByteStr V U) (u₀ : U) : M ByteStr V U := do
  let mut u := u₀
  let mut hw : Hasher := {}  -- 222
  hw := hw.setSeed (← getRoot (← deref m)).seed  -- 223
  hw := hw.write key  -- 224
  let mut hd : BitVec 64 := hw.sum64 sum  -- 225
  let mut l : Ref := linkOf (← deref m)
  let mut d : BitVec 8 := 0#8
  let mut radix : BitVec 8 := (hd &&& 15#64).setWidth 8  -- 226
  let mut bit : BitVec 32 := 1#32 <<< radix  -- 227
  let mut idx : BitVec 8 := BitVec.ofNat 8 (popcount ((← load l).pmap &&& ~~~((~~~0#32) <<< radix)))
  for _ in budget fuel do  -- 228
    if !(((← load l).pmap &&& bit) != 0#32) then break
    let mut item : Ref := elem (← load l).ptr idx.toNat  -- 229
    if ((← load l).tmap &&& bit) == 0#32 then  -- 230
      l := item  -- 231
      d := d + 1#8  -- 232
      if (d % 16#8) != 0#8 then  -- 233
        hd := hd >>> 4  -- 234
      else  -- 236
        hw := hw.write key
        hd := hw.sum64 sum  -- 237
      radix := (hd &&& 15#64).setWidth 8  -- 239
      bit := 1#32 <<< radix  -- 240
      idx := BitVec.ofNat 8 (popcount ((← load l).pmap &&& ~~~((~~~0#32) <<< radix)))
      continue  -- 241
    let ckv : Amt.Ptr := (← load item).ptr  -- 243
    let ckey : ByteStr := (← kvKey ckv)  -- 244
    if goEq ckey key then  -- 245
      u ← mod u (← fieldAddr ckv) true  -- 246
      return u  -- 247
    let mut chw : Hasher := {}  -- 250
    chw := chw.setSeed (← getRoot (← deref m)).seed  -- 251
    let mut cd : BitVec 8 := 0#8  -- 252
    for _ in budget fuel do
      if !(decide (cd ≤ d)) then break
      chw := chw.write ckey  -- 253
      cd := cd + 16#8  -- 252
    let mut chd : BitVec 64 := (chw.sum64 sum) >>> (4#8 * (d % 16#8))  -- 255
    setTmap l ((← load l).tmap &&& ~~~bit)  -- 257
    modRoot (← deref m) fun r => { r with dep := r.dep - d.setWidth 64 }  -- 258
    for _ in budget fuel do  -- 259
      d := d + 1#8  -- 260
      if (d % 16#8) != 0#8 then  -- 261
        hd := hd >>> 4  -- 262
        chd := chd >>> 4  -- 263
      else  -- 265
        hw := hw.write key
        chw := chw.write ckey  -- 266
        hd := hw.sum64 sum  -- 267
        chd := chw.sum64 sum
      let kbit : BitVec 32 := 1#32 <<< ((hd &&& 15#64).setWidth 8)  -- 269
      let cbit : BitVec 32 := 1#32 <<< ((chd &&& 15#64).setWidth 8)
      setPmap item (kbit ||| cbit)  -- 270
      if kbit != cbit then  -- 271
        setTmap item (← load item).pmap  -- 272
        setPtr item (← newLinkArray 2#8)  -- 273
        let kv : Amt.Ptr := (← alloc (.kv (some key) default))  -- 274
        u ← mod u (← fieldAddr kv) false  -- 275
        let pair : Amt.Ptr := (← load item).ptr  -- 276
        if decide (kbit < cbit) then
          setPtr (elem pair 0) kv  -- 277
          setPtr (elem pair 1) ckv
        else  -- 279
          setPtr (elem pair 0) ckv
          setPtr (elem pair 1) kv
        modRoot (← deref m) fun r => { r with len := r.len + 1#64 }  -- 281
        modRoot (← deref m) fun r => { r with dep := r.dep + (d.setWidth 64 * 2#64) }  -- 282
        return u  -- 283
      setPtr item (← newLinkArray 1#8)  -- 286
      item := elem (← load item).ptr 0  -- 287
  let kv : Amt.Ptr := (← alloc (.kv (some key) default))  -- 290
  u ← mod u (← fieldAddr kv) false  -- 291
  let count : BitVec 8 := BitVec.ofNat 8 (popcount (← load l).pmap)  -- 292
  if ((count != 0#8) && ((count % 4#8) != 0#8)) || (d == 0#8) then  -- 293
    let mut after : Int := ((count.toNat : Int) - 1)  -- 294
    for _ in budget fuel do
      if !(decide (after ≥ (idx.toNat : Int))) then break
      store (elem (← load l).ptr ((after + 1).toNat)) ((← load (elem (← load l).ptr after.toNat)))  -- 295
      after := after - 1  -- 294
    store (elem (← load l).ptr idx.toNat) ({ ptr := kv : Link })  -- 298
  else  -- 302
    let src : Amt.Ptr := (← load l).ptr
    setPtr l (← newLinkArray (count + 1#8))  -- 303
    let mut before : BitVec 8 := 0#8  -- 304
    for _ in budget fuel do
      if !(decide (before < idx)) then break
      store (elem (← load l).ptr before.toNat) (← load (elem src before.toNat))  -- 305
      before := before + 1#8  -- 304
    store (elem (← load l).ptr idx.toNat) ({ ptr := kv : Link })  -- 308
    let mut after : BitVec 8 := idx  -- 311
    for _ in budget fuel do
      if !(decide (after < count)) then break
      store (elem (← load l).ptr ((after + 1#8).toNat)) (← load (elem src after.toNat))  -- 312
      after := after + 1#8  -- 311
  setPmap l ((← load l).pmap ||| bit)  -- 316
  setTmap l ((← load l).tmap ||| bit)  -- 317
  modRoot (← deref m) fun r => { r with len := r.len + 1#64 }  -- 318
  modRoot (← deref m) fun r => { r with dep := r.dep + d.setWidth 64 }  -- 319
  return u  -- 320

/-- string_map.go:323-397. -/
def Del {V : Type} [Inhabited V] (sum : Maphash) (fuel : Nat) (m : Handle) (key : ByteStr) (scratch : List PathLink) : M ByteStr V (List PathLink) := do
  let mut path := (← Slice.ofRoot (← deref m) scratch)  -- 324
  let mut hw : Hasher := {}  -- 325
  hw := hw.setSeed (← getRoot (← deref m)).seed  -- 326
  hw := hw.write key  -- 327
  let mut hd : BitVec 64 := hw.sum64 sum  -- 328
  let mut l : Ref := linkOf (← deref m)
  let mut d : BitVec 8 := 0#8
  let mut radix : BitVec 8 := (hd &&& 15#64).setWidth 8  -- 329
  let mut bit : BitVec 32 := 1#32 <<< radix  -- 330
  let mut idx : BitVec 8 := BitVec.ofNat 8 (popcount ((← load l).pmap &&& ~~~((~~~0#32) <<< radix)))
  for _ in budget fuel do  -- 331
    if !(((← load l).pmap &&& bit) != 0#32) then break
    path := path.append (radix.toNat, some l)  -- 332
    let item : Ref := elem (← load l).ptr idx.toNat  -- 333
    if ((← load l).tmap &&& bit) == 0#32 then  -- 334
      l := item  -- 335
      d := d + 1#8  -- 336
      if (d % 16#8) != 0#8 then  -- 337
        hd := hd >>> 4  -- 338
      else  -- 340
        hw := hw.write key
        hd := hw.sum64 sum  -- 341
      radix := (hd &&& 15#64).setWidth 8  -- 343
      bit := 1#32 <<< radix  -- 344
      idx := BitVec.ofNat 8 (popcount ((← load l).pmap &&& ~~~((~~~0#32) <<< radix)))
      continue  -- 345
    if !(goEq (← kvKey (← load item).ptr) key) then  -- 347
      return path.arr  -- 348
    setPmap l ((← load l).pmap &&& ~~~bit)  -- 350
    setTmap l ((← load l).tmap &&& ~~~bit)  -- 351
    modRoot (← deref m) fun r => { r with len := r.len - 1#64 }  -- 352
    modRoot (← deref m) fun r => { r with dep := r.dep - d.setWidth 64 }  -- 353
    path ← path.clearAt d  -- 354
    let mut count : BitVec 8 := BitVec.ofNat 8 (popcount (← load l).pmap)  -- 355
    for _ in budget fuel do  -- 357
      if !((count == 0#8) && (d != 0#8)) then break
      setPtr l .nil  -- 358
      d := d - 1#8  -- 359
      l := (← path.linkAt d)  -- 360
      radix := (← path.radixAt d)
      path ← path.clearAt d  -- 361
      bit := 1#32 <<< radix  -- 362
      idx := BitVec.ofNat 8 (popcount ((← load l).pmap &&& ~~~((~~~0#32) <<< radix)))
      setPmap l ((← load l).pmap &&& ~~~bit)  -- 363
      setTmap l ((← load l).tmap &&& ~~~bit)  -- 364
      count := BitVec.ofNat 8 (popcount (← load l).pmap)  -- 365
    let src : Amt.Ptr := (← load l).ptr  -- 368
    if ((count % 4#8) == 0#8) && (d != 0#8) then  -- 369
      setPtr l (← newLinkArray count)  -- 370
      let mut before : BitVec 8 := 0#8  -- 371
      for _ in budget fuel do
        if !(decide (before < idx)) then break
        store (elem (← load l).ptr before.toNat) (← load (elem src before.toNat))  -- 372
        before := before + 1#8  -- 371
    let mut after : BitVec 8 := idx  -- 376
    for _ in budget fuel do
      if !(decide (after < count)) then break
      store (elem (← load l).ptr after.toNat) ((← load (elem src ((after + 1#8).toNat))))  -- 377
      after := after + 1#8  -- 376
    for _ in budget fuel do  -- 381
      if !((← andM (do pure (count == 1#8)) (do pure ((← load l).pmap == (← load l).tmap))) && (d != 0#8)) then break
      store l ((← load (elem (← load l).ptr 0)))  -- 382
      modRoot (← deref m) fun r => { r with dep := r.dep - 1#64 }  -- 383
      d := d - 1#8  -- 384
      l := (← path.linkAt d)  -- 385
      radix := (← path.radixAt d)
      path ← path.clearAt d  -- 386
      setTmap l ((← load l).tmap ||| (1#32 <<< radix))  -- 387
      count := BitVec.ofNat 8 (popcount (← load l).pmap)  -- 388
    for _ in budget fuel do  -- 391
      if !(d != 0#8) then break
      d := d - 1#8  -- 392
      path ← path.clearAt d  -- 393
    return path.arr  -- 395
  return path.arr  -- 397

/-- string_map.go:406-423. -/
def stringScan {V U : Type} [Inhabited V] (do_ : U → ByteStr → Amt.Ptr → M ByteStr V (U × Bool)) : Nat → U → Ref → M ByteStr V (U × Bool)
  | 0, _, _ => M.fail .diverge
  | fuel + 1, u₀, l => do
    let mut u := u₀
    let mut pmap : BitVec 32 := (← load l).pmap  -- 407
    let tmap : BitVec 32 := (← load l).tmap
    let count : BitVec 8 := BitVec.ofNat 8 (popcount pmap)  -- 408
    let mut i : BitVec 8 := 0#8  -- 409
    for _ in budget fuel do
      if !(decide (i < count)) then break
      let bit : BitVec 32 := 1#32 <<< (BitVec.ofNat 8 (trailingZeros pmap))  -- 410
      let item : Ref := elem (← load l).ptr i.toNat  -- 411
      if (tmap &&& bit) != 0#32 then  -- 412
        let kv : Amt.Ptr := (← load item).ptr  -- 413
        let r ← do_ u (← kvKey kv) (← fieldAddr kv)  -- 414
        u := r.1
        if !r.2 then
          return (u, false)  -- 415
      else  -- 417
        let r ← stringScan do_ fuel u item
        u := r.1
        if !r.2 then
          return (u, false)  -- 418
      pmap := pmap &&& ~~~bit  -- 420
      i := i + 1#8  -- 409
    return (u, true)  -- 422

/-- string_map.go:402-404. -/
def All {V : Type} [Inhabited V] {U : Type} (fuel : Nat) (m : Handle) (do_ : U → ByteStr → Amt.Ptr → M ByteStr V (U × Bool)) (u : U) : M ByteStr V U := do
  let r ← stringScan do_ fuel u (linkOf (← deref m))  -- 403
  return r.1

end Amt.Go.StringMap
