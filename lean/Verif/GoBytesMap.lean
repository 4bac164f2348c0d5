/-
bytes_map.go, translated statement by statement by tools/go2lean.py; do not edit.  The number at the end of a line is the line of
bytes_map.go.
-/
import Verif.Go

set_option linter.unusedVariables false

namespace Amt.Go.BytesMap

/-- bytes_map.go:92-120. -/
def Ptr {V : Type} [Inhabited V] (sum : Maphash) (fuel : Nat) (m : Handle) (key : ByteStr) : M ByteStr V Amt.Ptr := do
  let mut hw : Hasher := {}  -- 93
  hw := hw.setSeed (← getRoot (← deref m)).seed  -- 94
  hw := hw.write key  -- 95
  let mut hd : BitVec 64 := hw.sum64 sum  -- 96
  let mut l : Ref := linkOf (← deref m)
  let mut d : BitVec 8 := 0#8
  let mut radix : BitVec 8 := (hd &&& 15#64).setWidth 8  -- 97
  let mut bit : BitVec 32 := 1#32 <<< radix  -- 98
  let mut idx : BitVec 8 := BitVec.ofNat 8 (popcount ((← load l).pmap &&& ~~~((~~~0#32) <<< radix)))
  for _ in budget fuel do  -- 99
    if !(((← load l).pmap &&& bit) != 0#32) then break
    let item : Ref := elem (← load l).ptr idx.toNat  -- 100
    if ((← load l).tmap &&& bit) == 0#32 then  -- 101
      l := item  -- 102
      d := d + 1#8  -- 103
      if (d % 16#8) != 0#8 then  -- 104
        hd := hd >>> 4  -- 105
      else  -- 107
        hw := hw.write key
        hd := hw.sum64 sum  -- 108
      radix := (hd &&& 15#64).setWidth 8  -- 110
      bit := 1#32 <<< radix  -- 111
      idx := BitVec.ofNat 8 (popcount ((← load l).pmap &&& ~~~((~~~0#32) <<< radix)))
      continue  -- 112
    let kv : Amt.Ptr := (← load item).ptr  -- 114
    if bytesEqual (← kvKey kv) key then
      return (← fieldAddr kv)  -- 115
    return .nil  -- 117
  return .nil  -- 119

/-- bytes_map.go:73-78. -/
def Get {V : Type} [Inhabited V] (sum : Maphash) (fuel : Nat) (m : Handle) (key : ByteStr) : M ByteStr V (V × Bool) := do
  let mut value : V := default
  let mut ok : Bool := false
  let ptr := (← Ptr sum fuel m key)  -- 74
  if ptr != .nil then
    value := (← kvVal ptr)  -- 75
    ok := true
  return (value, ok)  -- 77

/-- bytes_map.go:81-88. -/
def Val {V : Type} [Inhabited V] (sum : Maphash) (fuel : Nat) (m : Handle) (key : ByteStr) : M ByteStr V V := do
  let mut value : V := default
  if m.isSome then  -- 82
    let ptr := (← Ptr sum fuel m key)  -- 83
    if ptr != .nil then
      value := (← kvVal ptr)  -- 84
  return value  -- 87

/-- bytes_map.go:124-224. -/
def Set {V : Type} [Inhabited V] (sum : Maphash) (fuel : Nat) (m : Handle) (key : ByteStr) (value : V) : M ByteStr V Unit := do
  let mut hw : Hasher := {}  -- 125
  hw := hw.setSeed (← getRoot (← deref m)).seed  -- 126
  hw := hw.write key  -- 127
  let mut hd : BitVec 64 := hw.sum64 sum  -- 128
  let mut l : Ref := linkOf (← deref m)
  let mut d : BitVec 8 := 0#8
  let mut radix : BitVec 8 := (hd &&& 15#64).setWidth 8  -- 129
  let mut bit : BitVec 32 := 1#32 <<< radix  -- 130
  let mut idx : BitVec 8 := BitVec.ofNat 8 (popcount ((← load l).pmap &&& ~~~((~~~0#32) <<< radix)))
  for _ in budget fuel do  -- 131
    if !(((← load l).pmap &&& bit) != 0#32) then break
    let mut item : Ref := elem (← load l).ptr idx.toNat  -- 132
    if ((← load l).tmap &&& bit) == 0#32 then  -- 133
      l := item  -- 134
      d := d + 1#8  -- 135
      if (d % 16#8) != 0#8 then  -- 136
        hd := hd >>> 4  -- 137
      else  -- 139
        hw := hw.write key
        hd := hw.sum64 sum  -- 140
      radix := (hd &&& 15#64).setWidth 8  -- 142
      bit := 1#32 <<< radix  -- 143
      idx := BitVec.ofNat 8 (popcount ((← load l).pmap &&& ~~~((~~~0#32) <<< radix)))
      continue  -- 144
    let ckv : Amt.Ptr := (← load item).ptr  -- 146
    let ckey : ByteStr := (← kvKey ckv)  -- 147
    if bytesEqual ckey key then  -- 148
      storeVal ckv value  -- 149
      return  -- 150
    let mut chw : Hasher := {}  -- 153
    chw := chw.setSeed (← getRoot (← deref m)).seed  -- 154
    let mut cd : BitVec 8 := 0#8  -- 155
    for _ in budget fuel do
      if !(decide (cd ≤ d)) then break
      chw := chw.write ckey  -- 156
      cd := cd + 16#8  -- 155
    let mut chd : BitVec 64 := (chw.sum64 sum) >>> (4#8 * (d % 16#8))  -- 158
    if (chd &&& 15#64).setWidth 8 != radix then  -- 159
      setPtr item ((← alloc (.kv (some key) value)))  -- 160
      return  -- 161
    setTmap l ((← load l).tmap &&& ~~~bit)  -- 164
    modRoot (← deref m) fun r => { r with dep := r.dep - d.setWidth 64 }  -- 165
    for _ in budget fuel do  -- 166
      d := d + 1#8  -- 167
      if (d % 16#8) != 0#8 then  -- 168
        hd := hd >>> 4  -- 169
        chd := chd >>> 4  -- 170
      else  -- 172
        hw := hw.write key
        chw := chw.write ckey  -- 173
        hd := hw.sum64 sum  -- 174
        chd := chw.sum64 sum
      let kbit : BitVec 32 := 1#32 <<< ((hd &&& 15#64).setWidth 8)  -- 176
      let cbit : BitVec 32 := 1#32 <<< ((chd &&& 15#64).setWidth 8)
      setPmap item (kbit ||| cbit)  -- 177
      if kbit != cbit then  -- 178
        setTmap item (← load item).pmap  -- 179
        setPtr item (← newLinkArray 2#8)  -- 180
        let kv : Amt.Ptr := (← alloc (.kv (some key) value))  -- 181
        let pair : Amt.Ptr := (← load item).ptr  -- 182
        if decide (kbit < cbit) then
          setPtr (elem pair 0) kv  -- 183
          setPtr (elem pair 1) ckv
        else  -- 185
          setPtr (elem pair 0) ckv
          setPtr (elem pair 1) kv
        modRoot (← deref m) fun r => { r with len := r.len + 1#64 }  -- 187
        modRoot (← deref m) fun r => { r with dep := r.dep + (d.setWidth 64 * 2#64) }  -- 188
        return  -- 189
      setPtr item (← newLinkArray 1#8)  -- 192
      item := elem (← load item).ptr 0  -- 193
  let count : BitVec 8 := BitVec.ofNat 8 (popcount (← load l).pmap)  -- 196
  if ((count != 0#8) && ((count % 4#8) != 0#8)) || (d == 0#8) then  -- 197
    let mut after : Int := ((count.toNat : Int) - 1)  -- 198
    for _ in budget fuel do
      if !(decide (after ≥ (idx.toNat : Int))) then break
      store (elem (← load l).ptr ((after + 1).toNat)) ((← load (elem (← load l).ptr after.toNat)))  -- 199
      after := after - 1  -- 198
    store (elem (← load l).ptr idx.toNat) ({ ptr := (← alloc (.kv (some key) value)) : Link })  -- 202
  else  -- 206
    let src : Amt.Ptr := (← load l).ptr
    setPtr l (← newLinkArray (count + 1#8))  -- 207
    let mut before : BitVec 8 := 0#8  -- 208
    for _ in budget fuel do
      if !(decide (before < idx)) then break
      store (elem (← load l).ptr before.toNat) (← load (elem src before.toNat))  -- 209
      before := before + 1#8  -- 208
    store (elem (← load l).ptr idx.toNat) ({ ptr := (← alloc (.kv (some key) value)) : Link })  -- 212
    let mut after : BitVec 8 := idx  -- 215
    for _ in budget fuel do
      if !(decide (after < count)) then break
      store (elem (← load l).ptr ((after + 1#8).toNat)) (← load (elem src after.toNat))  -- 216
      after := after + 1#8  -- 215
  setPmap l ((← load l).pmap ||| bit)  -- 220
  setTmap l ((← load l).tmap ||| bit)  -- 221
  modRoot (← deref m) fun r => { r with len := r.len + 1#64 }  -- 222
  modRoot (← deref m) fun r => { r with dep := r.dep + d.setWidth 64 }  -- 223
  return  -- 224

/-- bytes_map.go:229-334. -/
def Mod {V : Type} [Inhabited V] (sum : Maphash) {U : Type} (fuel : Nat) (m : Handle) (key : ByteStr) (mod : U → Amt.Ptr → Bool → M ByteStr V U) (u₀ : U) : M ByteStr V U := do
  let mut u := u₀
  let mut hw : Hasher := {}  -- 230
  hw := hw.setSeed (← getRoot (← deref m)).seed  -- 231
  hw := hw.write key  -- 232
  let mut hd : BitVec 64 := hw.sum64 sum  -- 233
  let mut l : Ref := linkOf (← deref m)
  let mut d : BitVec 8 := 0#8
  let mut radix : BitVec 8 := (hd &&& 15#64).setWidth 8  -- 234
  let mut bit : BitVec 32 := 1#32 <<< radix  -- 235
  let mut idx : BitVec 8 := BitVec.ofNat 8 (popcount ((← load l).pmap &&& ~~~((~~~0#32) <<< radix)))
  for _ in budget fuel do  -- 236
    if !(((← load l).pmap &&& bit) != 0#32) then break
    let mut item : Ref := elem (← load l).ptr idx.toNat  -- 237
    if ((← load l).tmap &&& bit) == 0#32 then  -- 238
      l := item  -- 239
      d := d + 1#8  -- 240
      if (d % 16#8) != 0#8 then  -- 241
        hd := hd >>> 4  -- 242
      else  -- 244
        hw := hw.write key
        hd := hw.sum64 sum  -- 245
      radix := (hd &&& 15#64).setWidth 8  -- 247
      bit := 1#32 <<< radix  -- 248
      idx := BitVec.ofNat 8 (popcount ((← load l).pmap &&& ~~~((~~~0#32) <<< radix)))
      continue  -- 249
    let ckv : Amt.Ptr := (← load item).ptr  -- 251
    let ckey : ByteStr := (← kvKey ckv)  -- 252
    if bytesEqual ckey key then  -- 253
      u ← mod u (← fieldAddr ckv) true  -- 254
      return u  -- 255
    let mut chw : Hasher := {}  -- 258
    chw := chw.setSeed (← getRoot (← deref m)).seed  -- 259
    let mut cd : BitVec 8 := 0#8  -- 260
    for _ in budget fuel do
      if !(decide (cd ≤ d)) then break
      chw := chw.write ckey  -- 261
      cd := cd + 16#8  -- 260
    let mut chd : BitVec 64 := (chw.sum64 sum) >>> (4#8 * (d % 16#8))  -- 263
    if (chd &&& 15#64).setWidth 8 != radix then  -- 264
      let kv : Amt.Ptr := (← alloc (.kv (some key) default))  -- 265
      u ← mod u (← fieldAddr kv) false  -- 266
      setPtr item kv  -- 267
      return u  -- 268
    setTmap l ((← load l).tmap &&& ~~~bit)  -- 271
    modRoot (← deref m) fun r => { r with dep := r.dep - d.setWidth 64 }  -- 272
    for _ in budget fuel do  -- 273
      d := d + 1#8  -- 274
      if (d % 16#8) != 0#8 then  -- 275
        hd := hd >>> 4  -- 276
        chd := chd >>> 4  -- 277
      else  -- 279
        hw := hw.write key
        chw := chw.write ckey  -- 280
        hd := hw.sum64 sum  -- 281
        chd := chw.sum64 sum
      let kbit : BitVec 32 := 1#32 <<< ((hd &&& 15#64).setWidth 8)  -- 283
      let cbit : BitVec 32 := 1#32 <<< ((chd &&& 15#64).setWidth 8)
      setPmap item (kbit ||| cbit)  -- 284
      if kbit != cbit then  -- 285
        setTmap item (← load item).pmap  -- 286
        setPtr item (← newLinkArray 2#8)  -- 287
        let kv : Amt.Ptr := (← alloc (.kv (some key) default))  -- 288
        u ← mod u (← fieldAddr kv) false  -- 289
        let pair : Amt.Ptr := (← load item).ptr  -- 290
        if decide (kbit < cbit) then
          setPtr (elem pair 0) kv  -- 291
          setPtr (elem pair 1) ckv
        else  -- 293
          setPtr (elem pair 0) ckv
          setPtr (elem pair 1) kv
        modRoot (← deref m) fun r => { r with len := r.len + 1#64 }  -- 295
        modRoot (← deref m) fun r => { r with dep := r.dep + (d.setWidth 64 * 2#64) }  -- 296
        return u  -- 297
      setPtr item (← newLinkArray 1#8)  -- 300
      item := elem (← load item).ptr 0  -- 301
  let kv : Amt.Ptr := (← alloc (.kv (some key) default))  -- 304
  u ← mod u (← fieldAddr kv) false  -- 305
  let count : BitVec 8 := BitVec.ofNat 8 (popcount (← load l).pmap)  -- 306
  if ((count != 0#8) && ((count % 4#8) != 0#8)) || (d == 0#8) then  -- 307
    let mut after : Int := ((count.toNat : Int) - 1)  -- 308
    for _ in budget fuel do
      if !(decide (after ≥ (idx.toNat : Int))) then break
      store (elem (← load l).ptr ((after + 1).toNat)) ((← load (elem (← load l).ptr after.toNat)))  -- 309
      after := after - 1  -- 308
    store (elem (← load l).ptr idx.toNat) ({ ptr := kv : Link })  -- 312
  else  -- 316
    let src : Amt.Ptr := (← load l).ptr
    setPtr l (← newLinkArray (count + 1#8))  -- 317
    let mut before : BitVec 8 := 0#8  -- 318
    for _ in budget fuel do
      if !(decide (before < idx)) then break
      store (elem (← load l).ptr before.toNat) (← load (elem src before.toNat))  -- 319
      before := before + 1#8  -- 318
    store (elem (← load l).ptr idx.toNat) ({ ptr := kv : Link })  -- 322
    let mut after : BitVec 8 := idx  -- 325
    for _ in budget fuel do
      if !(decide (after < count)) then break
      store (elem (← load l).ptr ((after + 1#8).toNat)) (← load (elem src after.toNat))  -- 326
      after := after + 1#8  -- 325
  setPmap l ((← load l).pmap ||| bit)  -- 330
  setTmap l ((← load l).tmap ||| bit)  -- 331
  modRoot (← deref m) fun r => { r with len := r.len + 1#64 }  -- 332
  modRoot (← deref m) fun r => { r with dep := r.dep + d.setWidth 64 }  -- 333
  return u  -- 334

/-- bytes_map.go:337-411. -/
def Del {V : Type} [Inhabited V] (sum : Maphash) (fuel : Nat) (m : Handle) (key : ByteStr) (scratch : List PathLink) : M ByteStr V (List PathLink) := do
  let mut path := (← Slice.ofRoot (← deref m) scratch)  -- 338
  let mut hw : Hasher := {}  -- 339
  hw := hw.setSeed (← getRoot (← deref m)).seed  -- 340
  hw := hw.write key  -- 341
  let mut hd : BitVec 64 := hw.sum64 sum  -- 342
  let mut l : Ref := linkOf (← deref m)
  let mut d : BitVec 8 := 0#8
  let mut radix : BitVec 8 := (hd &&& 15#64).setWidth 8  -- 343
  let mut bit : BitVec 32 := 1#32 <<< radix  -- 344
  let mut idx : BitVec 8 := BitVec.ofNat 8 (popcount ((← load l).pmap &&& ~~~((~~~0#32) <<< radix)))
  for _ in budget fuel do  -- 345
    if !(((← load l).pmap &&& bit) != 0#32) then break
    path := path.append (radix.toNat, some l)  -- 346
    let item : Ref := elem (← load l).ptr idx.toNat  -- 347
    if ((← load l).tmap &&& bit) == 0#32 then  -- 348
      l := item  -- 349
      d := d + 1#8  -- 350
      if (d % 16#8) != 0#8 then  -- 351
        hd := hd >>> 4  -- 352
      else  -- 354
        hw := hw.write key
        hd := hw.sum64 sum  -- 355
      radix := (hd &&& 15#64).setWidth 8  -- 357
      bit := 1#32 <<< radix  -- 358
      idx := BitVec.ofNat 8 (popcount ((← load l).pmap &&& ~~~((~~~0#32) <<< radix)))
      continue  -- 359
    if !(bytesEqual (← kvKey (← load item).ptr) key) then  -- 361
      return path.arr  -- 362
    setPmap l ((← load l).pmap &&& ~~~bit)  -- 364
    setTmap l ((← load l).tmap &&& ~~~bit)  -- 365
    modRoot (← deref m) fun r => { r with len := r.len - 1#64 }  -- 366
    modRoot (← deref m) fun r => { r with dep := r.dep - d.setWidth 64 }  -- 367
    path ← path.clearAt d  -- 368
    let mut count : BitVec 8 := BitVec.ofNat 8 (popcount (← load l).pmap)  -- 369
    for _ in budget fuel do  -- 371
      if !((count == 0#8) && (d != 0#8)) then break
      setPtr l .nil  -- 372
      d := d - 1#8  -- 373
      l := (← path.linkAt d)  -- 374
      radix := (← path.radixAt d)
      path ← path.clearAt d  -- 375
      bit := 1#32 <<< radix  -- 376
      idx := BitVec.ofNat 8 (popcount ((← load l).pmap &&& ~~~((~~~0#32) <<< radix)))
      setPmap l ((← load l).pmap &&& ~~~bit)  -- 377
      setTmap l ((← load l).tmap &&& ~~~bit)  -- 378
      count := BitVec.ofNat 8 (popcount (← load l).pmap)  -- 379
    let src : Amt.Ptr := (← load l).ptr  -- 382
    if ((count % 4#8) == 0#8) && (d != 0#8) then  -- 383
      setPtr l (← newLinkArray count)  -- 384
      let mut before : BitVec 8 := 0#8  -- 385
      for _ in budget fuel do
        if !(decide (before < idx)) then break
        store (elem (← load l).ptr before.toNat) (← load (elem src before.toNat))  -- 386
        before := before + 1#8  -- 385
    let mut after : BitVec 8 := idx  -- 390
    for _ in budget fuel do
      if !(decide (after < count)) then break
      store (elem (← load l).ptr after.toNat) ((← load (elem src ((after + 1#8).toNat))))  -- 391
      after := after + 1#8  -- 390
    for _ in budget fuel do  -- 395
      if !((← andM (do pure (count == 1#8)) (do pure ((← load l).pmap == (← load l).tmap))) && (d != 0#8)) then break
      store l ((← load (elem (← load l).ptr 0)))  -- 396
      modRoot (← deref m) fun r => { r with dep := r.dep - 1#64 }  -- 397
      d := d - 1#8  -- 398
      l := (← path.linkAt d)  -- 399
      radix := (← path.radixAt d)
      path ← path.clearAt d  -- 400
      setTmap l ((← load l).tmap ||| (1#32 <<< radix))  -- 401
      count := BitVec.ofNat 8 (popcount (← load l).pmap)  -- 402
    for _ in budget fuel do  -- 405
      if !(d != 0#8) then break
      d := d - 1#8  -- 406
      path ← path.clearAt d  -- 407
    return path.arr  -- 409
  return path.arr  -- 411

/-- bytes_map.go:420-437. -/
def bytesScan {V U : Type} [Inhabited V] (do_ : U → ByteStr → Amt.Ptr → M ByteStr V (U × Bool)) : Nat → U → Ref → M ByteStr V (U × Bool)
  | 0, _, _ => M.fail .diverge
  | fuel + 1, u₀, l => do
    let mut u := u₀
    let mut pmap : BitVec 32 := (← load l).pmap  -- 421
    let tmap : BitVec 32 := (← load l).tmap
    let count : BitVec 8 := BitVec.ofNat 8 (popcount pmap)  -- 422
    let mut i : BitVec 8 := 0#8  -- 423
    for _ in budget fuel do
      if !(decide (i < count)) then break
      let bit : BitVec 32 := 1#32 <<< (BitVec.ofNat 8 (trailingZeros pmap))  -- 424
      let item : Ref := elem (← load l).ptr i.toNat  -- 425
      if (tmap &&& bit) != 0#32 then  -- 426
        let kv : Amt.Ptr := (← load item).ptr  -- 427
        let r ← do_ u (← kvKey kv) (← fieldAddr kv)  -- 428
        u := r.1
        if !r.2 then
          return (u, false)  -- 429
      else  -- 431
        let r ← bytesScan do_ fuel u item
        u := r.1
        if !r.2 then
          return (u, false)  -- 432
      pmap := pmap &&& ~~~bit  -- 434
      i := i + 1#8  -- 423
    return (u, true)  -- 436

/-- bytes_map.go:416-418. -/
def All {V : Type} [Inhabited V] {U : Type} (fuel : Nat) (m : Handle) (do_ : U → ByteStr → Amt.Ptr → M ByteStr V (U × Bool)) (u : U) : M ByteStr V U := do
  let r ← bytesScan do_ fuel u (linkOf (← deref m))  -- 417
  return r.1

end Amt.Go.BytesMap
