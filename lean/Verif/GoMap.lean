/-
generic_map.go, translated statement by statement by tools/go2lean.py; do not edit.  The number at the end of a line is the line of
generic_map.go.
-/
import Verif.Go

set_option linter.unusedVariables false

namespace Amt.Go.Map

/-- generic_map.go:97-121. -/
def Ptr {K V : Type} [Inhabited V] (I : KeyImpl K) (fuel : Nat) (m : Handle) (key : K) : M K V Amt.Ptr := do
  let mut hd : BitVec 64 := I.hash key (← getRoot (← deref m)).seed (0#64).toNat  -- 98
  let mut l : Ref := linkOf (← deref m)
  let mut d : BitVec 8 := 0#8
  let mut radix : BitVec 8 := (hd &&& 15#64).setWidth 8  -- 99
  let mut bit : BitVec 32 := 1#32 <<< radix  -- 100
  let mut idx : BitVec 8 := BitVec.ofNat 8 (popcount ((← load l).pmap &&& ~~~((~~~0#32) <<< radix)))
  for _ in budget fuel do  -- 101
    if !(((← load l).pmap &&& bit) != 0#32) then break
    let item : Ref := elem (← load l).ptr idx.toNat  -- 102
    if ((← load l).tmap &&& bit) == 0#32 then  -- 103
      l := item  -- 104
      d := d + 1#8  -- 105
      if (d &&& 15#8) != 0#8 then  -- 106
        hd := hd >>> 4  -- 107
      else  -- 109
        hd := I.hash key (← getRoot (← deref m)).seed ((d >>> 4).setWidth 64).toNat
      radix := (hd &&& 15#64).setWidth 8  -- 111
      bit := 1#32 <<< radix  -- 112
      idx := BitVec.ofNat 8 (popcount ((← load l).pmap &&& ~~~((~~~0#32) <<< radix)))
      continue  -- 113
    let kv : Amt.Ptr := (← load item).ptr  -- 115
    if I.equal key (← kvKey kv) then
      return (← fieldAddr kv)  -- 116
    return .nil  -- 118
  return .nil  -- 120

/-- generic_map.go:78-83. -/
def Get {K V : Type} [Inhabited V] (I : KeyImpl K) (fuel : Nat) (m : Handle) (key : K) : M K V (V × Bool) := do
  let mut value : V := default
  let mut ok : Bool := false
  let ptr := (← Ptr I fuel m key)  -- 79
  if ptr != .nil then
    value := (← kvVal ptr)  -- 80
    ok := true
  return (value, ok)  -- 82

/-- generic_map.go:86-93. -/
def Val {K V : Type} [Inhabited V] (I : KeyImpl K) (fuel : Nat) (m : Handle) (key : K) : M K V V := do
  let mut value : V := default
  if m.isSome then  -- 87
    let ptr := (← Ptr I fuel m key)  -- 88
    if ptr != .nil then
      value := (← kvVal ptr)  -- 89
  return value  -- 92

/-- generic_map.go:124-209. -/
def Set {K V : Type} [Inhabited V] (I : KeyImpl K) (fuel : Nat) (m : Handle) (key : K) (value : V) : M K V Unit := do
  let mut hd : BitVec 64 := I.hash key (← getRoot (← deref m)).seed (0#64).toNat  -- 125
  let mut l : Ref := linkOf (← deref m)
  let mut d : BitVec 8 := 0#8
  let mut radix : BitVec 8 := (hd &&& 15#64).setWidth 8  -- 126
  let mut bit : BitVec 32 := 1#32 <<< radix  -- 127
  let mut idx : BitVec 8 := BitVec.ofNat 8 (popcount ((← load l).pmap &&& ~~~((~~~0#32) <<< radix)))
  for _ in budget fuel do  -- 128
    if !(((← load l).pmap &&& bit) != 0#32) then break
    let mut item : Ref := elem (← load l).ptr idx.toNat  -- 129
    if ((← load l).tmap &&& bit) == 0#32 then  -- 130
      l := item  -- 131
      d := d + 1#8  -- 132
      if (d &&& 15#8) != 0#8 then  -- 133
        hd := hd >>> 4  -- 134
      else  -- 136
        hd := I.hash key (← getRoot (← deref m)).seed ((d >>> 4).setWidth 64).toNat
      radix := (hd &&& 15#64).setWidth 8  -- 138
      bit := 1#32 <<< radix  -- 139
      idx := BitVec.ofNat 8 (popcount ((← load l).pmap &&& ~~~((~~~0#32) <<< radix)))
      continue  -- 140
    let ckv : Amt.Ptr := (← load item).ptr  -- 142
    let ckey : K := (← kvKey ckv)  -- 143
    if I.equal key ckey then  -- 144
      storeVal ckv value  -- 145
      return  -- 146
    let mut chd : BitVec 64 := (I.hash ckey (← getRoot (← deref m)).seed ((d % 16#8).setWidth 64).toNat) >>> (4#8 * (d % 16#8))  -- 149
    setTmap l ((← load l).tmap &&& ~~~bit)  -- 151
    modRoot (← deref m) fun r => { r with dep := r.dep - d.setWidth 64 }  -- 152
    for _ in budget fuel do  -- 153
      d := d + 1#8  -- 154
      if (d &&& 15#8) != 0#8 then  -- 155
        hd := hd >>> 4  -- 156
        chd := chd >>> 4  -- 157
      else  -- 159
        hd := I.hash key (← getRoot (← deref m)).seed ((d >>> 4).setWidth 64).toNat
        chd := I.hash ckey (← getRoot (← deref m)).seed ((d >>> 4).setWidth 64).toNat
      let kbit : BitVec 32 := 1#32 <<< ((hd &&& 15#64).setWidth 8)  -- 161
      let cbit : BitVec 32 := 1#32 <<< ((chd &&& 15#64).setWidth 8)
      setPmap item (kbit ||| cbit)  -- 162
      if kbit != cbit then  -- 163
        setTmap item (← load item).pmap  -- 164
        setPtr item (← newLinkArray 2#8)  -- 165
        let kv : Amt.Ptr := (← alloc (.kv (some key) value))  -- 166
        let pair : Amt.Ptr := (← load item).ptr  -- 167
        if decide (kbit < cbit) then
          setPtr (elem pair 0) kv  -- 168
          setPtr (elem pair 1) ckv
        else  -- 170
          setPtr (elem pair 0) ckv
          setPtr (elem pair 1) kv
        modRoot (← deref m) fun r => { r with len := r.len + 1#64 }  -- 172
        modRoot (← deref m) fun r => { r with dep := r.dep + (d.setWidth 64 * 2#64) }  -- 173
        return  -- 174
      setPtr item (← newLinkArray 1#8)  -- 177
      item := elem (← load item).ptr 0  -- 178
  let count : BitVec 8 := BitVec.ofNat 8 (popcount (← load l).pmap)  -- 181
  if ((count != 0#8) && ((count % 4#8) != 0#8)) || (d == 0#8) then  -- 182
    let mut after : Int := ((count.toNat : Int) - 1)  -- 183
    for _ in budget fuel do
      if !(decide (after ≥ (idx.toNat : Int))) then break
      store (elem (← load l).ptr ((after + 1).toNat)) ((← load (elem (← load l).ptr after.toNat)))  -- 184
      after := after - 1  -- 183
    store (elem (← load l).ptr idx.toNat) ({ ptr := (← alloc (.kv (some key) value)) : Link })  -- 187
  else  -- 191
    let src : Amt.Ptr := (← load l).ptr
    setPtr l (← newLinkArray (count + 1#8))  -- 192
    let mut before : BitVec 8 := 0#8  -- 193
    for _ in budget fuel do
      if !(decide (before < idx)) then break
      store (elem (← load l).ptr before.toNat) (← load (elem src before.toNat))  -- 194
      before := before + 1#8  -- 193
    store (elem (← load l).ptr idx.toNat) ({ ptr := (← alloc (.kv (some key) value)) : Link })  -- 197
    let mut after : BitVec 8 := idx  -- 200
    for _ in budget fuel do
      if !(decide (after < count)) then break
      store (elem (← load l).ptr ((after + 1#8).toNat)) (← load (elem src after.toNat))  -- 201
      after := after + 1#8  -- 200
  setPmap l ((← load l).pmap ||| bit)  -- 205
  setTmap l ((← load l).tmap ||| bit)  -- 206
  modRoot (← deref m) fun r => { r with len := r.len + 1#64 }  -- 207
  modRoot (← deref m) fun r => { r with dep := r.dep + d.setWidth 64 }  -- 208
  return  -- 209

/-- generic_map.go:213-301. -/
def Mod {K V : Type} [Inhabited V] (I : KeyImpl K) {U : Type} (fuel : Nat) (m : Handle) (key : K) (mod : U → Amt.Ptr → Bool → M K V U) (u₀ : U) : M K V U := do
  let mut u := u₀
  let mut hd : BitVec 64 := I.hash key (← getRoot (← deref m)).seed (0#64).toNat  -- 214
  let mut l : Ref := linkOf (← deref m)
  let mut d : BitVec 8 := 0#8
  let mut radix : BitVec 8 := (hd &&& 15#64).setWidth 8  -- 215
  let mut bit : BitVec 32 := 1#32 <<< radix  -- 216
  let mut idx : BitVec 8 := BitVec.ofNat 8 (popcount ((← load l).pmap &&& ~~~((~~~0#32) <<< radix)))
  for _ in budget fuel do  -- 217
    if !(((← load l).pmap &&& bit) != 0#32) then break
    let mut item : Ref := elem (← load l).ptr idx.toNat  -- 218
    if ((← load l).tmap &&& bit) == 0#32 then  -- 219
      l := item  -- 220
      d := d + 1#8  -- 221
      if (d &&& 15#8) != 0#8 then  -- 222
        hd := hd >>> 4  -- 223
      else  -- 225
        hd := I.hash key (← getRoot (← deref m)).seed ((d >>> 4).setWidth 64).toNat
      radix := (hd &&& 15#64).setWidth 8  -- 227
      bit := 1#32 <<< radix  -- 228
      idx := BitVec.ofNat 8 (popcount ((← load l).pmap &&& ~~~((~~~0#32) <<< radix)))
      continue  -- 229
    let ckv : Amt.Ptr := (← load item).ptr  -- 231
    let ckey : K := (← kvKey ckv)  -- 232
    if I.equal key ckey then  -- 233
      u ← mod u (← fieldAddr ckv) true  -- 234
      return u  -- 235
    let mut chd : BitVec 64 := (I.hash key (← getRoot (← deref m)).seed ((d % 16#8).setWidth 64).toNat) >>> (4#8 * (d % 16#8))  -- 238
    setTmap l ((← load l).tmap &&& ~~~bit)  -- 240
    modRoot (← deref m) fun r => { r with dep := r.dep - d.setWidth 64 }  -- 241
    for _ in budget fuel do  -- 242
      d := d + 1#8  -- 243
      if (d &&& 15#8) != 0#8 then  -- 244
        hd := hd >>> 4  -- 245
        chd := chd >>> 4  -- 246
      else  -- 248
        hd := I.hash key (← getRoot (← deref m)).seed ((d >>> 4).setWidth 64).toNat
        chd := I.hash ckey (← getRoot (← deref m)).seed ((d >>> 4).setWidth 64).toNat
      let kbit : BitVec 32 := 1#32 <<< ((hd &&& 15#64).setWidth 8)  -- 250
      let cbit : BitVec 32 := 1#32 <<< ((chd &&& 15#64).setWidth 8)
      setPmap item (kbit ||| cbit)  -- 251
      if kbit != cbit then  -- 252
        setTmap item (← load item).pmap  -- 253
        setPtr item (← newLinkArray 2#8)  -- 254
        let kv : Amt.Ptr := (← alloc (.kv (some key) default))  -- 255
        u ← mod u (← fieldAddr kv) false  -- 256
        let pair : Amt.Ptr := (← load item).ptr  -- 257
        if decide (kbit < cbit) then
          setPtr (elem pair 0) kv  -- 258
          setPtr (elem pair 1) ckv
        else  -- 260
          setPtr (elem pair 0) ckv
          setPtr (elem pair 1) kv
        modRoot (← deref m) fun r => { r with len := r.len + 1#64 }  -- 262
        modRoot (← deref m) fun r => { r with dep := r.dep + (d.setWidth 64 * 2#64) }  -- 263
        return u  -- 264
      setPtr item (← newLinkArray 1#8)  -- 267
      item := elem (← load item).ptr 0  -- 268
  let kv : Amt.Ptr := (← alloc (.kv (some key) default))  -- 271
  u ← mod u (← fieldAddr kv) false  -- 272
  let count : BitVec 8 := BitVec.ofNat 8 (popcount (← load l).pmap)  -- 273
  if ((count != 0#8) && ((count % 4#8) != 0#8)) || (d == 0#8) then  -- 274
    let mut after : Int := ((count.toNat : Int) - 1)  -- 275
    for _ in budget fuel do
      if !(decide (after ≥ (idx.toNat : Int))) then break
      store (elem (← load l).ptr ((after + 1).toNat)) ((← load (elem (← load l).ptr after.toNat)))  -- 276
      after := after - 1  -- 275
    store (elem (← load l).ptr idx.toNat) ({ ptr := kv : Link })  -- 279
  else  -- 283
    let src : Amt.Ptr := (← load l).ptr
    setPtr l (← newLinkArray (count + 1#8))  -- 284
    let mut before : BitVec 8 := 0#8  -- 285
    for _ in budget fuel do
      if !(decide (before < idx)) then break
      store (elem (← load l).ptr before.toNat) (← load (elem src before.toNat))  -- 286
      before := before + 1#8  -- 285
    store (elem (← load l).ptr idx.toNat) ({ ptr := kv : Link })  -- 289
    let mut after : BitVec 8 := idx  -- 292
    for _ in budget fuel do
      if !(decide (after < count)) then break
      store (elem (← load l).ptr ((after + 1#8).toNat)) (← load (elem src after.toNat))  -- 293
      after := after + 1#8  -- 292
  setPmap l ((← load l).pmap ||| bit)  -- 297
  setTmap l ((← load l).tmap ||| bit)  -- 298
  modRoot (← deref m) fun r => { r with len := r.len + 1#64 }  -- 299
  modRoot (← deref m) fun r => { r with dep := r.dep + d.setWidth 64 }  -- 300
  return u  -- 301

/-- generic_map.go:304-374. -/
def Del {K V : Type} [Inhabited V] (I : KeyImpl K) (fuel : Nat) (m : Handle) (key : K) (scratch : List PathLink) : M K V (List PathLink) := do
  let mut path := (← Slice.ofRoot (← deref m) scratch)  -- 305
  let mut hd : BitVec 64 := I.hash key (← getRoot (← deref m)).seed (0#64).toNat  -- 306
  let mut l : Ref := linkOf (← deref m)
  let mut d : BitVec 8 := 0#8
  let mut radix : BitVec 8 := (hd &&& 15#64).setWidth 8  -- 307
  let mut bit : BitVec 32 := 1#32 <<< radix  -- 308
  let mut idx : BitVec 8 := BitVec.ofNat 8 (popcount ((← load l).pmap &&& ~~~((~~~0#32) <<< radix)))
  for _ in budget fuel do  -- 309
    if !(((← load l).pmap &&& bit) != 0#32) then break
    path := path.append (radix.toNat, some l)  -- 310
    let item : Ref := elem (← load l).ptr idx.toNat  -- 311
    if ((← load l).tmap &&& bit) == 0#32 then  -- 312
      l := item  -- 313
      d := d + 1#8  -- 314
      if (d &&& 15#8) != 0#8 then  -- 315
        hd := hd >>> 4  -- 316
      else  -- 318
        hd := I.hash key (← getRoot (← deref m)).seed ((d >>> 4).setWidth 64).toNat
      radix := (hd &&& 15#64).setWidth 8  -- 320
      bit := 1#32 <<< radix  -- 321
      idx := BitVec.ofNat 8 (popcount ((← load l).pmap &&& ~~~((~~~0#32) <<< radix)))
      continue  -- 322
    if !(I.equal key (← kvKey (← load item).ptr)) then  -- 324
      return path.arr  -- 325
    setPmap l ((← load l).pmap &&& ~~~bit)  -- 327
    setTmap l ((← load l).tmap &&& ~~~bit)  -- 328
    modRoot (← deref m) fun r => { r with len := r.len - 1#64 }  -- 329
    modRoot (← deref m) fun r => { r with dep := r.dep - d.setWidth 64 }  -- 330
    path ← path.clearAt d  -- 331
    let mut count : BitVec 8 := BitVec.ofNat 8 (popcount (← load l).pmap)  -- 332
    for _ in budget fuel do  -- 334
      if !((count == 0#8) && (d != 0#8)) then break
      setPtr l .nil  -- 335
      d := d - 1#8  -- 336
      l := (← path.linkAt d)  -- 337
      radix := (← path.radixAt d)
      path ← path.clearAt d  -- 338
      bit := 1#32 <<< radix  -- 339
      idx := BitVec.ofNat 8 (popcount ((← load l).pmap &&& ~~~((~~~0#32) <<< radix)))
      setPmap l ((← load l).pmap &&& ~~~bit)  -- 340
      setTmap l ((← load l).tmap &&& ~~~bit)  -- 341
      count := BitVec.ofNat 8 (popcount (← load l).pmap)  -- 342
    let src : Amt.Ptr := (← load l).ptr  -- 345
    if ((count % 4#8) == 0#8) && (d != 0#8) then  -- 346
      setPtr l (← newLinkArray count)  -- 347
      let mut before : BitVec 8 := 0#8  -- 348
      for _ in budget fuel do
        if !(decide (before < idx)) then break
        store (elem (← load l).ptr before.toNat) (← load (elem src before.toNat))  -- 349
        before := before + 1#8  -- 348
    let mut after : BitVec 8 := idx  -- 353
    for _ in budget fuel do
      if !(decide (after < count)) then break
      store (elem (← load l).ptr after.toNat) ((← load (elem src ((after + 1#8).toNat))))  -- 354
      after := after + 1#8  -- 353
    for _ in budget fuel do  -- 358
      if !((← andM (do pure (count == 1#8)) (do pure ((← load l).pmap == (← load l).tmap))) && (d != 0#8)) then break
      store l ((← load (elem (← load l).ptr 0)))  -- 359
      modRoot (← deref m) fun r => { r with dep := r.dep - 1#64 }  -- 360
      d := d - 1#8  -- 361
      l := (← path.linkAt d)  -- 362
      radix := (← path.radixAt d)
      path ← path.clearAt d  -- 363
      setTmap l ((← load l).tmap ||| (1#32 <<< radix))  -- 364
      count := BitVec.ofNat 8 (popcount (← load l).pmap)  -- 365
    for _ in budget fuel do  -- 368
      if !(d != 0#8) then break
      d := d - 1#8  -- 369
      path ← path.clearAt d  -- 370
    return path.arr  -- 372
  return path.arr  -- 374

/-- generic_map.go:383-400. -/
def mapScan {K V U : Type} [Inhabited V] (do_ : U → K → Amt.Ptr → M K V (U × Bool)) : Nat → U → Ref → M K V (U × Bool)
  | 0, _, _ => M.fail .diverge
  | fuel + 1, u₀, l => do
    let mut u := u₀
    let mut pmap : BitVec 32 := (← load l).pmap  -- 384
    let tmap : BitVec 32 := (← load l).tmap
    let count : BitVec 8 := BitVec.ofNat 8 (popcount pmap)  -- 385
    let mut i : BitVec 8 := 0#8  -- 386
    for _ in budget fuel do
      if !(decide (i < count)) then break
      let bit : BitVec 32 := 1#32 <<< (BitVec.ofNat 8 (trailingZeros pmap))  -- 387
      let item : Ref := elem (← load l).ptr i.toNat  -- 388
      if (tmap &&& bit) != 0#32 then  -- 389
        let kv : Amt.Ptr := (← load item).ptr  -- 390
        let r ← do_ u (← kvKey kv) (← fieldAddr kv)  -- 391
        u := r.1
        if !r.2 then
          return (u, false)  -- 392
      else  -- 394
        let r ← mapScan do_ fuel u item
        u := r.1
        if !r.2 then
          return (u, false)  -- 395
      pmap := pmap &&& ~~~bit  -- 397
      i := i + 1#8  -- 386
    return (u, true)  -- 399

/-- generic_map.go:379-381. -/
def All {K V : Type} [Inhabited V] {U : Type} (fuel : Nat) (m : Handle) (do_ : U → K → Amt.Ptr → M K V (U × Bool)) (u : U) : M K V U := do
  let r ← mapScan do_ fuel u (linkOf (← deref m))  -- 380
  return r.1

end Amt.Go.Map
