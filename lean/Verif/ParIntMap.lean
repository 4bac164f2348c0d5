/-
int_map.go, translated as a tree of memory accesses by tools/go2lean.py; do not edit.  The number at the end of a line is the line of
int_map.go.
-/
import Verif.Par

set_option linter.unusedVariables false

namespace Amt.Par.IntMap

/-- int_map.go:96-125. -/
def Ptr {V : Type} [Inhabited V] (sum : Maphash) (fuel : Nat) (m : Handle) (key : IntKey) : T IntKey V Amt.Ptr := do
  let kb := intbytes key  -- 97
  let mut hw : Hasher := {}  -- 98
  hw := hw.setSeed (← getRoot (← deref m)).seed  -- 99
  hw := hw.write kb  -- 100
  let mut hd : BitVec 64 := hw.sum64 sum  -- 101
  let mut l : Ref := linkOf (← deref m)
  let mut d : BitVec 8 := 0#8
  let mut radix : BitVec 8 := (hd &&& 15#64).setWidth 8  -- 102
  let mut bit : BitVec 32 := 1#32 <<< radix  -- 103
  let mut idx : BitVec 8 := BitVec.ofNat 8 (popcount ((← load l).pmap &&& ~~~((~~~0#32) <<< radix)))
  for _ in budget fuel do  -- 104
    if !(((← load l).pmap &&& bit) != 0#32) then break
    let item : Ref := elem (← load l).ptr idx.toNat  -- 105
    if ((← load l).tmap &&& bit) == 0#32 then  -- 106
      l := item  -- 107
      d := d + 1#8  -- 108
      if (d % 16#8) != 0#8 then  -- 109
        hd := hd >>> 4  -- 110
      else  -- 112
        hw := hw.write kb
        hd := hw.sum64 sum  -- 113
      radix := (hd &&& 15#64).setWidth 8  -- 115
      bit := 1#32 <<< radix  -- 116
      idx := BitVec.ofNat 8 (popcount ((← load l).pmap &&& ~~~((~~~0#32) <<< radix)))
      continue  -- 117
    let k : IntKey := (← load item).pmap.setWidth 64 ||| (((← load item).tmap.setWidth 64) <<< 32)  -- 119
    if goEq k key then
      return (← fieldAddr (← load item).ptr)  -- 120
    return .nil  -- 122
  return .nil  -- 124

/-- int_map.go:77-82. -/
def Get {V : Type} [Inhabited V] (sum : Maphash) (fuel : Nat) (m : Handle) (key : IntKey) : T IntKey V (V × Bool) := do
  let mut value : V := default
  let mut ok : Bool := false
  let ptr := (← Ptr sum fuel m key)  -- 78
  if ptr != .nil then
    value := (← kvVal ptr)  -- 79
    ok := true
  return (value, ok)  -- 81

/-- int_map.go:85-92. -/
def Val {V : Type} [Inhabited V] (sum : Maphash) (fuel : Nat) (m : Handle) (key : IntKey) : T IntKey V V := do
  let mut value : V := default
  if m.isSome then  -- 86
    let ptr := (← Ptr sum fuel m key)  -- 87
    if ptr != .nil then
      value := (← kvVal ptr)  -- 88
  return value  -- 91

/-- int_map.go:128-232. -/
def Set {V : Type} [Inhabited V] (sum : Maphash) (fuel : Nat) (m : Handle) (key : IntKey) (value : V) : T IntKey V Unit := do
  let kb := intbytes key  -- 129
  let mut hw : Hasher := {}  -- 130
  hw := hw.setSeed (← getRoot (← deref m)).seed  -- 131
  hw := hw.write kb  -- 132
  let mut hd : BitVec 64 := hw.sum64 sum  -- 133
  let mut l : Ref := linkOf (← deref m)
  let mut d : BitVec 8 := 0#8
  let mut radix : BitVec 8 := (hd &&& 15#64).setWidth 8  -- 134
  let mut bit : BitVec 32 := 1#32 <<< radix  -- 135
  let mut idx : BitVec 8 := BitVec.ofNat 8 (popcount ((← load l).pmap &&& ~~~((~~~0#32) <<< radix)))
  for _ in budget fuel do  -- 136
    if !(((← load l).pmap &&& bit) != 0#32) then break
    let mut item : Ref := elem (← load l).ptr idx.toNat  -- 137
    if ((← load l).tmap &&& bit) == 0#32 then  -- 138
      l := item  -- 139
      d := d + 1#8  -- 140
      if (d % 16#8) != 0#8 then  -- 141
        hd := hd >>> 4  -- 142
      else  -- 144
        hw := hw.write kb
        hd := hw.sum64 sum  -- 145
      radix := (hd &&& 15#64).setWidth 8  -- 147
      bit := 1#32 <<< radix  -- 148
      idx := BitVec.ofNat 8 (popcount ((← load l).pmap &&& ~~~((~~~0#32) <<< radix)))
      continue  -- 149
    let cval : Amt.Ptr := (← load item).ptr  -- 151
    let ckey : IntKey := (← load item).pmap.setWidth 64 ||| (((← load item).tmap.setWidth 64) <<< 32)  -- 152
    if goEq ckey key then  -- 153
      storeVal cval value  -- 154
      return  -- 155
    let ckb := intbytes ckey  -- 158
    let mut chw : Hasher := {}  -- 159
    chw := chw.setSeed (← getRoot (← deref m)).seed  -- 160
    let mut cd : BitVec 8 := 0#8  -- 161
    for _ in budget fuel do
      if !(decide (cd ≤ d)) then break
      chw := chw.write ckb  -- 162
      cd := cd + 16#8  -- 161
    let mut chd : BitVec 64 := (chw.sum64 sum) >>> (4#8 * (d % 16#8))  -- 164
    setTmap l ((← load l).tmap &&& ~~~bit)  -- 166
    modDep (← deref m) fun x => x - d.setWidth 64  -- 167
    for _ in budget fuel do  -- 168
      d := d + 1#8  -- 169
      if (d % 16#8) != 0#8 then  -- 170
        hd := hd >>> 4  -- 171
        chd := chd >>> 4  -- 172
      else  -- 174
        hw := hw.write kb
        chw := chw.write ckb  -- 175
        hd := hw.sum64 sum  -- 176
        chd := chw.sum64 sum
      let kbit : BitVec 32 := 1#32 <<< ((hd &&& 15#64).setWidth 8)  -- 178
      let cbit : BitVec 32 := 1#32 <<< ((chd &&& 15#64).setWidth 8)
      setPmap item (kbit ||| cbit)  -- 179
      if kbit != cbit then  -- 180
        setTmap item (← load item).pmap  -- 181
        setPtr item (← newLinkArray 2#8)  -- 182
        let val : Amt.Ptr := (← alloc (.kv none value))  -- 183
        let pair : Amt.Ptr := (← load item).ptr  -- 184
        if decide (kbit < cbit) then
          store (elem pair 0) ({ ptr := val, pmap := key.setWidth 32, tmap := (key.sshiftRight 32).setWidth 32 : Link })  -- 185
          store (elem pair 1) ({ ptr := cval, pmap := ckey.setWidth 32, tmap := (ckey.sshiftRight 32).setWidth 32 : Link })  -- 186
        else  -- 188
          store (elem pair 0) ({ ptr := cval, pmap := ckey.setWidth 32, tmap := (ckey.sshiftRight 32).setWidth 32 : Link })
          store (elem pair 1) ({ ptr := val, pmap := key.setWidth 32, tmap := (key.sshiftRight 32).setWidth 32 : Link })  -- 189
        modLen (← deref m) fun x => x + 1#64  -- 191
        modDep (← deref m) fun x => x + (d.setWidth 64 * 2#64)  -- 192
        return  -- 193
      setPtr item (← newLinkArray 1#8)  -- 196
      item := elem (← load item).ptr 0  -- 197
  let count : BitVec 8 := BitVec.ofNat 8 (popcount (← load l).pmap)  -- 200
  if ((count != 0#8) && ((count % 4#8) != 0#8)) || (d == 0#8) then  -- 201
    let mut after : Int := ((count.toNat : Int) - 1)  -- 202
    for _ in budget fuel do
      if !(decide (after ≥ (idx.toNat : Int))) then break
      store (elem (← load l).ptr ((after + 1).toNat)) ((← load (elem (← load l).ptr after.toNat)))  -- 203
      after := after - 1  -- 202
    store (elem (← load l).ptr idx.toNat) ({ ptr := (← alloc (.kv none value)), pmap := key.setWidth 32, tmap := (key.sshiftRight 32).setWidth 32 : Link })  -- 206
  else  -- 212
    let src : Amt.Ptr := (← load l).ptr
    setPtr l (← newLinkArray (count + 1#8))  -- 213
    let mut before : BitVec 8 := 0#8  -- 214
    for _ in budget fuel do
      if !(decide (before < idx)) then break
      store (elem (← load l).ptr before.toNat) (← load (elem src before.toNat))  -- 215
      before := before + 1#8  -- 214
    store (elem (← load l).ptr idx.toNat) ({ ptr := (← alloc (.kv none value)), pmap := key.setWidth 32, tmap := (key.sshiftRight 32).setWidth 32 : Link })  -- 218
    let mut after : BitVec 8 := idx  -- 223
    for _ in budget fuel do
      if !(decide (after < count)) then break
      store (elem (← load l).ptr ((after + 1#8).toNat)) (← load (elem src after.toNat))  -- 224
      after := after + 1#8  -- 223
  setPmap l ((← load l).pmap ||| bit)  -- 228
  setTmap l ((← load l).tmap ||| bit)  -- 229
  modLen (← deref m) fun x => x + 1#64  -- 230
  modDep (← deref m) fun x => x + d.setWidth 64  -- 231
  return  -- 232

/-- int_map.go:236-343. -/
def Mod {V : Type} [Inhabited V] (sum : Maphash) {U : Type} (fuel : Nat) (m : Handle) (key : IntKey) (mod : U → Amt.Ptr → Bool → T IntKey V U) (u₀ : U) : T IntKey V U := do
  let mut u := u₀
  let kb := intbytes key  -- 237
  let mut hw : Hasher := {}  -- 238
  hw := hw.setSeed (← getRoot (← deref m)).seed  -- 239
  hw := hw.write kb  -- 240
  let mut hd : BitVec 64 := hw.sum64 sum  -- 241
  let mut l : Ref := linkOf (← deref m)
  let mut d : BitVec 8 := 0#8
  let mut radix : BitVec 8 := (hd &&& 15#64).setWidth 8  -- 242
  let mut bit : BitVec 32 := 1#32 <<< radix  -- 243
  let mut idx : BitVec 8 := BitVec.ofNat 8 (popcount ((← load l).pmap &&& ~~~((~~~0#32) <<< radix)))
  for _ in budget fuel do  -- 244
    if !(((← load l).pmap &&& bit) != 0#32) then break
    let mut item : Ref := elem (← load l).ptr idx.toNat  -- 245
    if ((← load l).tmap &&& bit) == 0#32 then  -- 246
      l := item  -- 247
      d := d + 1#8  -- 248
      if (d % 16#8) != 0#8 then  -- 249
        hd := hd >>> 4  -- 250
      else  -- 252
        hw := hw.write kb
        hd := hw.sum64 sum  -- 253
      radix := (hd &&& 15#64).setWidth 8  -- 255
      bit := 1#32 <<< radix  -- 256
      idx := BitVec.ofNat 8 (popcount ((← load l).pmap &&& ~~~((~~~0#32) <<< radix)))
      continue  -- 257
    let cval : Amt.Ptr := (← load item).ptr  -- 259
    let ckey : IntKey := (← load item).pmap.setWidth 64 ||| (((← load item).tmap.setWidth 64) <<< 32)  -- 260
    if goEq ckey key then  -- 261
      u ← mod u (← fieldAddr cval) true  -- 262
      return u  -- 263
    let ckb := intbytes ckey  -- 266
    let mut chw : Hasher := {}  -- 267
    chw := chw.setSeed (← getRoot (← deref m)).seed  -- 268
    let mut cd : BitVec 8 := 0#8  -- 269
    for _ in budget fuel do
      if !(decide (cd ≤ d)) then break
      chw := chw.write ckb  -- 270
      cd := cd + 16#8  -- 269
    let mut chd : BitVec 64 := (chw.sum64 sum) >>> (4#8 * (d % 16#8))  -- 272
    setTmap l ((← load l).tmap &&& ~~~bit)  -- 274
    modDep (← deref m) fun x => x - d.setWidth 64  -- 275
    for _ in budget fuel do  -- 276
      d := d + 1#8  -- 277
      if (d % 16#8) != 0#8 then  -- 278
        hd := hd >>> 4  -- 279
        chd := chd >>> 4  -- 280
      else  -- 282
        hw := hw.write kb
        chw := chw.write ckb  -- 283
        hd := hw.sum64 sum  -- 284
        chd := chw.sum64 sum
      let kbit : BitVec 32 := 1#32 <<< ((hd &&& 15#64).setWidth 8)  -- 286
      let cbit : BitVec 32 := 1#32 <<< ((chd &&& 15#64).setWidth 8)
      setPmap item (kbit ||| cbit)  -- 287
      if kbit != cbit then  -- 288
        setTmap item (← load item).pmap  -- 289
        setPtr item (← newLinkArray 2#8)  -- 290
        let val : Amt.Ptr := (← alloc (.kv none default))  -- 291
        u ← mod u (← fieldAddr val) false  -- 292
        let pair : Amt.Ptr := (← load item).ptr  -- 293
        if decide (kbit < cbit) then
          store (elem pair 0) ({ ptr := val, pmap := key.setWidth 32, tmap := (key.sshiftRight 32).setWidth 32 : Link })  -- 294
          store (elem pair 1) ({ ptr := cval, pmap := ckey.setWidth 32, tmap := (ckey.sshiftRight 32).setWidth 32 : Link })  -- 295
        else  -- 297
          store (elem pair 0) ({ ptr := cval, pmap := ckey.setWidth 32, tmap := (ckey.sshiftRight 32).setWidth 32 : Link })
          store (elem pair 1) ({ ptr := val, pmap := key.setWidth 32, tmap := (key.sshiftRight 32).setWidth 32 : Link })  -- 298
        modLen (← deref m) fun x => x + 1#64  -- 300
        modDep (← deref m) fun x => x + (d.setWidth 64 * 2#64)  -- 301
        return u  -- 302
      setPtr item (← newLinkArray 1#8)  -- 305
      item := elem (← load item).ptr 0  -- 306
  let val : Amt.Ptr := (← alloc (.kv none default))  -- 309
  u ← mod u (← fieldAddr val) false  -- 310
  let count : BitVec 8 := BitVec.ofNat 8 (popcount (← load l).pmap)  -- 311
  if ((count != 0#8) && ((count % 4#8) != 0#8)) || (d == 0#8) then  -- 312
    let mut after : Int := ((count.toNat : Int) - 1)  -- 313
    for _ in budget fuel do
      if !(decide (after ≥ (idx.toNat : Int))) then break
      store (elem (← load l).ptr ((after + 1).toNat)) ((← load (elem (← load l).ptr after.toNat)))  -- 314
      after := after - 1  -- 313
    store (elem (← load l).ptr idx.toNat) ({ ptr := val, pmap := key.setWidth 32, tmap := (key.sshiftRight 32).setWidth 32 : Link })  -- 317
  else  -- 323
    let src : Amt.Ptr := (← load l).ptr
    setPtr l (← newLinkArray (count + 1#8))  -- 324
    let mut before : BitVec 8 := 0#8  -- 325
    for _ in budget fuel do
      if !(decide (before < idx)) then break
      store (elem (← load l).ptr before.toNat) (← load (elem src before.toNat))  -- 326
      before := before + 1#8  -- 325
    store (elem (← load l).ptr idx.toNat) ({ ptr := val, pmap := key.setWidth 32, tmap := (key.sshiftRight 32).setWidth 32 : Link })  -- 329
    let mut after : BitVec 8 := idx  -- 334
    for _ in budget fuel do
      if !(decide (after < count)) then break
      store (elem (← load l).ptr ((after + 1#8).toNat)) (← load (elem src after.toNat))  -- 335
      after := after + 1#8  -- 334
  setPmap l ((← load l).pmap ||| bit)  -- 339
  setTmap l ((← load l).tmap ||| bit)  -- 340
  modLen (← deref m) fun x => x + 1#64  -- 341
  modDep (← deref m) fun x => x + d.setWidth 64  -- 342
  return u  -- 343

/-- int_map.go:346-421. -/
def Del {V : Type} [Inhabited V] (sum : Maphash) (fuel : Nat) (m : Handle) (key : IntKey) (scratch : List PathLink) : T IntKey V (List PathLink) := do
  let mut path := (← Slice.ofRootT (← deref m) scratch)  -- 347
  let kb := intbytes key  -- 348
  let mut hw : Hasher := {}  -- 349
  hw := hw.setSeed (← getRoot (← deref m)).seed  -- 350
  hw := hw.write kb  -- 351
  let mut hd : BitVec 64 := hw.sum64 sum  -- 352
  let mut l : Ref := linkOf (← deref m)
  let mut d : BitVec 8 := 0#8
  let mut radix : BitVec 8 := (hd &&& 15#64).setWidth 8  -- 353
  let mut bit : BitVec 32 := 1#32 <<< radix  -- 354
  let mut idx : BitVec 8 := BitVec.ofNat 8 (popcount ((← load l).pmap &&& ~~~((~~~0#32) <<< radix)))
  for _ in budget fuel do  -- 355
    if !(((← load l).pmap &&& bit) != 0#32) then break
    path := path.append (radix.toNat, some l)  -- 356
    let item : Ref := elem (← load l).ptr idx.toNat  -- 357
    if ((← load l).tmap &&& bit) == 0#32 then  -- 358
      l := item  -- 359
      d := d + 1#8  -- 360
      if (d % 16#8) != 0#8 then  -- 361
        hd := hd >>> 4  -- 362
      else  -- 364
        hw := hw.write kb
        hd := hw.sum64 sum  -- 365
      radix := (hd &&& 15#64).setWidth 8  -- 367
      bit := 1#32 <<< radix  -- 368
      idx := BitVec.ofNat 8 (popcount ((← load l).pmap &&& ~~~((~~~0#32) <<< radix)))
      continue  -- 369
    let k : IntKey := (← load item).pmap.setWidth 64 ||| (((← load item).tmap.setWidth 64) <<< 32)  -- 371
    if !(goEq k key) then
      return path.arr  -- 372
    setPmap l ((← load l).pmap &&& ~~~bit)  -- 374
    setTmap l ((← load l).tmap &&& ~~~bit)  -- 375
    modLen (← deref m) fun x => x - 1#64  -- 376
    modDep (← deref m) fun x => x - d.setWidth 64  -- 377
    path ← path.clearAtT d  -- 378
    let mut count : BitVec 8 := BitVec.ofNat 8 (popcount (← load l).pmap)  -- 379
    for _ in budget fuel do  -- 381
      if !((count == 0#8) && (d != 0#8)) then break
      setPtr l .nil  -- 382
      d := d - 1#8  -- 383
      l := (← path.linkAtT d)  -- 384
      radix := (← path.radixAtT d)
      path ← path.clearAtT d  -- 385
      bit := 1#32 <<< radix  -- 386
      idx := BitVec.ofNat 8 (popcount ((← load l).pmap &&& ~~~((~~~0#32) <<< radix)))
      setPmap l ((← load l).pmap &&& ~~~bit)  -- 387
      setTmap l ((← load l).tmap &&& ~~~bit)  -- 388
      count := BitVec.ofNat 8 (popcount (← load l).pmap)  -- 389
    let src : Amt.Ptr := (← load l).ptr  -- 392
    if ((count % 4#8) == 0#8) && (d != 0#8) then  -- 393
      setPtr l (← newLinkArray count)  -- 394
      let mut before : BitVec 8 := 0#8  -- 395
      for _ in budget fuel do
        if !(decide (before < idx)) then break
        store (elem (← load l).ptr before.toNat) (← load (elem src before.toNat))  -- 396
        before := before + 1#8  -- 395
    let mut after : BitVec 8 := idx  -- 400
    for _ in budget fuel do
      if !(decide (after < count)) then break
      store (elem (← load l).ptr after.toNat) ((← load (elem src ((after + 1#8).toNat))))  -- 401
      after := after + 1#8  -- 400
    for _ in budget fuel do  -- 405
      if !((← andM (do pure (count == 1#8)) (do pure ((← load l).pmap == (← load l).tmap))) && (d != 0#8)) then break
      store l ((← load (elem (← load l).ptr 0)))  -- 406
      modDep (← deref m) fun x => x - 1#64  -- 407
      d := d - 1#8  -- 408
      l := (← path.linkAtT d)  -- 409
      radix := (← path.radixAtT d)
      path ← path.clearAtT d  -- 410
      setTmap l ((← load l).tmap ||| (1#32 <<< radix))  -- 411
      count := BitVec.ofNat 8 (popcount (← load l).pmap)  -- 412
    for _ in budget fuel do  -- 415
      if !(d != 0#8) then break
      d := d - 1#8  -- 416
      path ← path.clearAtT d  -- 417
    return path.arr  -- 419
  return path.arr  -- 421

/-- int_map.go:430-447. -/
def intScan {V U : Type} [Inhabited V] (do_ : U → IntKey → Amt.Ptr → T IntKey V (U × Bool)) : Nat → U → Ref → T IntKey V (U × Bool)
  | 0, _, _ => T.fail .diverge
  | fuel + 1, u₀, l => do
    let mut u := u₀
    let mut pmap : BitVec 32 := (← load l).pmap  -- 431
    let tmap : BitVec 32 := (← load l).tmap
    let count : BitVec 8 := BitVec.ofNat 8 (popcount pmap)  -- 432
    let mut i : BitVec 8 := 0#8  -- 433
    for _ in budget fuel do
      if !(decide (i < count)) then break
      let bit : BitVec 32 := 1#32 <<< (BitVec.ofNat 8 (trailingZeros pmap))  -- 434
      let item : Ref := elem (← load l).ptr i.toNat  -- 435
      if (tmap &&& bit) != 0#32 then  -- 436
        let val : Amt.Ptr := (← load item).ptr  -- 437
        let k : IntKey := (← load item).pmap.setWidth 64 ||| (((← load item).tmap.setWidth 64) <<< 32)  -- 438
        let r ← do_ u k (← fieldAddr val)
        u := r.1
        if !r.2 then
          return (u, false)  -- 439
      else  -- 441
        let r ← intScan do_ fuel u item
        u := r.1
        if !r.2 then
          return (u, false)  -- 442
      pmap := pmap &&& ~~~bit  -- 444
      i := i + 1#8  -- 433
    return (u, true)  -- 446

/-- int_map.go:426-428. -/
def All {V : Type} [Inhabited V] {U : Type} (fuel : Nat) (m : Handle) (do_ : U → IntKey → Amt.Ptr → T IntKey V (U × Bool)) (u : U) : T IntKey V U := do
  let r ← intScan do_ fuel u (linkOf (← deref m))  -- 427
  return r.1

end Amt.Par.IntMap
