/-
generic_set.go, translated statement by statement by tools/go2lean.py; do not edit.  The number at the end of a line is the line of
generic_set.go.
-/
import Verif.Go

set_option linter.unusedVariables false

namespace Amt.Go.Set

/-- generic_set.go:52-73. -/
def Has {K : Type} (I : KeyImpl K) (fuel : Nat) (s : Handle) (key : K) : M K Unit Bool := do
  let mut hd : BitVec 64 := I.hash key (← getRoot (← deref s)).seed (0#64).toNat  -- 53
  let mut l : Ref := linkOf (← deref s)
  let mut d : BitVec 8 := 0#8
  let mut radix : BitVec 8 := (hd &&& 15#64).setWidth 8  -- 54
  let mut bit : BitVec 32 := 1#32 <<< radix  -- 55
  let mut idx : BitVec 8 := BitVec.ofNat 8 (popcount ((← load l).pmap &&& ~~~((~~~0#32) <<< radix)))
  for _ in budget fuel do  -- 56
    if !(((← load l).pmap &&& bit) != 0#32) then break
    let item : Ref := elem (← load l).ptr idx.toNat  -- 57
    if ((← load l).tmap &&& bit) == 0#32 then  -- 58
      l := item  -- 59
      d := d + 1#8  -- 60
      if (d &&& 15#8) != 0#8 then  -- 61
        hd := hd >>> 4  -- 62
      else  -- 64
        hd := I.hash key (← getRoot (← deref s)).seed ((d >>> 4).setWidth 64).toNat
      radix := (hd &&& 15#64).setWidth 8  -- 66
      bit := 1#32 <<< radix  -- 67
      idx := BitVec.ofNat 8 (popcount ((← load l).pmap &&& ~~~((~~~0#32) <<< radix)))
      continue  -- 68
    return I.equal key (← kvKey (← load item).ptr)  -- 70
  return false  -- 72

/-- generic_set.go:76-160. -/
def Add {K : Type} (I : KeyImpl K) (fuel : Nat) (s : Handle) (key : K) : M K Unit Unit := do
  let mut hd : BitVec 64 := I.hash key (← getRoot (← deref s)).seed (0#64).toNat  -- 77
  let mut l : Ref := linkOf (← deref s)
  let mut d : BitVec 8 := 0#8
  let mut radix : BitVec 8 := (hd &&& 15#64).setWidth 8  -- 78
  let mut bit : BitVec 32 := 1#32 <<< radix  -- 79
  let mut idx : BitVec 8 := BitVec.ofNat 8 (popcount ((← load l).pmap &&& ~~~((~~~0#32) <<< radix)))
  for _ in budget fuel do  -- 80
    if !(((← load l).pmap &&& bit) != 0#32) then break
    let mut item : Ref := elem (← load l).ptr idx.toNat  -- 81
    if ((← load l).tmap &&& bit) == 0#32 then  -- 82
      l := item  -- 83
      d := d + 1#8  -- 84
      if (d &&& 15#8) != 0#8 then  -- 85
        hd := hd >>> 4  -- 86
      else  -- 88
        hd := I.hash key (← getRoot (← deref s)).seed ((d >>> 4).setWidth 64).toNat
      radix := (hd &&& 15#64).setWidth 8  -- 90
      bit := 1#32 <<< radix  -- 91
      idx := BitVec.ofNat 8 (popcount ((← load l).pmap &&& ~~~((~~~0#32) <<< radix)))
      continue  -- 92
    let ckv : Amt.Ptr := (← load item).ptr  -- 94
    let ckey : K := (← kvKey ckv)  -- 95
    if I.equal key ckey then  -- 96
      return  -- 97
    let mut chd : BitVec 64 := (I.hash ckey (← getRoot (← deref s)).seed ((d % 16#8).setWidth 64).toNat) >>> (4#8 * (d % 16#8))  -- 100
    setTmap l ((← load l).tmap &&& ~~~bit)  -- 102
    modRoot (← deref s) fun r => { r with dep := r.dep - d.setWidth 64 }  -- 103
    for _ in budget fuel do  -- 104
      d := d + 1#8  -- 105
      if (d &&& 15#8) != 0#8 then  -- 106
        hd := hd >>> 4  -- 107
        chd := chd >>> 4  -- 108
      else  -- 110
        hd := I.hash key (← getRoot (← deref s)).seed ((d >>> 4).setWidth 64).toNat
        chd := I.hash ckey (← getRoot (← deref s)).seed ((d >>> 4).setWidth 64).toNat
      let kbit : BitVec 32 := 1#32 <<< ((hd &&& 15#64).setWidth 8)  -- 112
      let cbit : BitVec 32 := 1#32 <<< ((chd &&& 15#64).setWidth 8)
      setPmap item (kbit ||| cbit)  -- 113
      if kbit != cbit then  -- 114
        setTmap item (← load item).pmap  -- 115
        setPtr item (← newLinkArray 2#8)  -- 116
        let kv : Amt.Ptr := (← alloc (.kv (some key) ()))  -- 117
        let pair : Amt.Ptr := (← load item).ptr  -- 118
        if decide (kbit < cbit) then
          setPtr (elem pair 0) kv  -- 119
          setPtr (elem pair 1) ckv
        else  -- 121
          setPtr (elem pair 0) ckv
          setPtr (elem pair 1) kv
        modRoot (← deref s) fun r => { r with len := r.len + 1#64 }  -- 123
        modRoot (← deref s) fun r => { r with dep := r.dep + (d.setWidth 64 * 2#64) }  -- 124
        return  -- 125
      setPtr item (← newLinkArray 1#8)  -- 128
      item := elem (← load item).ptr 0  -- 129
  let count : BitVec 8 := BitVec.ofNat 8 (popcount (← load l).pmap)  -- 132
  if ((count != 0#8) && ((count % 4#8) != 0#8)) || (d == 0#8) then  -- 133
    let mut after : Int := ((count.toNat : Int) - 1)  -- 134
    for _ in budget fuel do
      if !(decide (after ≥ (idx.toNat : Int))) then break
      store (elem (← load l).ptr ((after + 1).toNat)) ((← load (elem (← load l).ptr after.toNat)))  -- 135
      after := after - 1  -- 134
    store (elem (← load l).ptr idx.toNat) ({ ptr := (← alloc (.kv (some key) ())) : Link })  -- 138
  else  -- 142
    let src : Amt.Ptr := (← load l).ptr
    setPtr l (← newLinkArray (count + 1#8))  -- 143
    let mut before : BitVec 8 := 0#8  -- 144
    for _ in budget fuel do
      if !(decide (before < idx)) then break
      store (elem (← load l).ptr before.toNat) (← load (elem src before.toNat))  -- 145
      before := before + 1#8  -- 144
    store (elem (← load l).ptr idx.toNat) ({ ptr := (← alloc (.kv (some key) ())) : Link })  -- 148
    let mut after : BitVec 8 := idx  -- 151
    for _ in budget fuel do
      if !(decide (after < count)) then break
      store (elem (← load l).ptr ((after + 1#8).toNat)) (← load (elem src after.toNat))  -- 152
      after := after + 1#8  -- 151
  setPmap l ((← load l).pmap ||| bit)  -- 156
  setTmap l ((← load l).tmap ||| bit)  -- 157
  modRoot (← deref s) fun r => { r with len := r.len + 1#64 }  -- 158
  modRoot (← deref s) fun r => { r with dep := r.dep + d.setWidth 64 }  -- 159
  return  -- 160

/-- generic_set.go:163-233. -/
def Del {K : Type} (I : KeyImpl K) (fuel : Nat) (s : Handle) (key : K) (scratch : List PathLink) : M K Unit (List PathLink) := do
  let mut path := (← Slice.ofRoot (← deref s) scratch)  -- 164
  let mut hd : BitVec 64 := I.hash key (← getRoot (← deref s)).seed (0#64).toNat  -- 165
  let mut l : Ref := linkOf (← deref s)
  let mut d : BitVec 8 := 0#8
  let mut radix : BitVec 8 := (hd &&& 15#64).setWidth 8  -- 166
  let mut bit : BitVec 32 := 1#32 <<< radix  -- 167
  let mut idx : BitVec 8 := BitVec.ofNat 8 (popcount ((← load l).pmap &&& ~~~((~~~0#32) <<< radix)))
  for _ in budget fuel do  -- 168
    if !(((← load l).pmap &&& bit) != 0#32) then break
    path := path.append (radix.toNat, some l)  -- 169
    let item : Ref := elem (← load l).ptr idx.toNat  -- 170
    if ((← load l).tmap &&& bit) == 0#32 then  -- 171
      l := item  -- 172
      d := d + 1#8  -- 173
      if (d &&& 15#8) != 0#8 then  -- 174
        hd := hd >>> 4  -- 175
      else  -- 177
        hd := I.hash key (← getRoot (← deref s)).seed ((d >>> 4).setWidth 64).toNat
      radix := (hd &&& 15#64).setWidth 8  -- 179
      bit := 1#32 <<< radix  -- 180
      idx := BitVec.ofNat 8 (popcount ((← load l).pmap &&& ~~~((~~~0#32) <<< radix)))
      continue  -- 181
    if !(I.equal key (← kvKey (← load item).ptr)) then  -- 183
      return path.arr  -- 184
    setPmap l ((← load l).pmap &&& ~~~bit)  -- 186
    setTmap l ((← load l).tmap &&& ~~~bit)  -- 187
    modRoot (← deref s) fun r => { r with len := r.len - 1#64 }  -- 188
    modRoot (← deref s) fun r => { r with dep := r.dep - d.setWidth 64 }  -- 189
    path ← path.clearAt d  -- 190
    let mut count : BitVec 8 := BitVec.ofNat 8 (popcount (← load l).pmap)  -- 191
    for _ in budget fuel do  -- 193
      if !((count == 0#8) && (d != 0#8)) then break
      setPtr l .nil  -- 194
      d := d - 1#8  -- 195
      l := (← path.linkAt d)  -- 196
      radix := (← path.radixAt d)
      path ← path.clearAt d  -- 197
      bit := 1#32 <<< radix  -- 198
      idx := BitVec.ofNat 8 (popcount ((← load l).pmap &&& ~~~((~~~0#32) <<< radix)))
      setPmap l ((← load l).pmap &&& ~~~bit)  -- 199
      setTmap l ((← load l).tmap &&& ~~~bit)  -- 200
      count := BitVec.ofNat 8 (popcount (← load l).pmap)  -- 201
    let src : Amt.Ptr := (← load l).ptr  -- 204
    if ((count % 4#8) == 0#8) && (d != 0#8) then  -- 205
      setPtr l (← newLinkArray count)  -- 206
      let mut before : BitVec 8 := 0#8  -- 207
      for _ in budget fuel do
        if !(decide (before < idx)) then break
        store (elem (← load l).ptr before.toNat) (← load (elem src before.toNat))  -- 208
        before := before + 1#8  -- 207
    let mut after : BitVec 8 := idx  -- 212
    for _ in budget fuel do
      if !(decide (after < count)) then break
      store (elem (← load l).ptr after.toNat) ((← load (elem src ((after + 1#8).toNat))))  -- 213
      after := after + 1#8  -- 212
    for _ in budget fuel do  -- 217
      if !((← andM (do pure (count == 1#8)) (do pure ((← load l).pmap == (← load l).tmap))) && (d != 0#8)) then break
      store l ((← load (elem (← load l).ptr 0)))  -- 218
      modRoot (← deref s) fun r => { r with dep := r.dep - 1#64 }  -- 219
      d := d - 1#8  -- 220
      l := (← path.linkAt d)  -- 221
      radix := (← path.radixAt d)
      path ← path.clearAt d  -- 222
      setTmap l ((← load l).tmap ||| (1#32 <<< radix))  -- 223
      count := BitVec.ofNat 8 (popcount (← load l).pmap)  -- 224
    for _ in budget fuel do  -- 227
      if !(d != 0#8) then break
      d := d - 1#8  -- 228
      path ← path.clearAt d  -- 229
    return path.arr  -- 231
  return path.arr  -- 233

/-- generic_set.go:242-259. -/
def setScan {K U : Type} (do_ : U → K → M K Unit (U × Bool)) : Nat → U → Ref → M K Unit (U × Bool)
  | 0, _, _ => M.fail .diverge
  | fuel + 1, u₀, l => do
    let mut u := u₀
    let mut pmap : BitVec 32 := (← load l).pmap  -- 243
    let tmap : BitVec 32 := (← load l).tmap
    let count : BitVec 8 := BitVec.ofNat 8 (popcount pmap)  -- 244
    let mut i : BitVec 8 := 0#8  -- 245
    for _ in budget fuel do
      if !(decide (i < count)) then break
      let bit : BitVec 32 := 1#32 <<< (BitVec.ofNat 8 (trailingZeros pmap))  -- 246
      let item : Ref := elem (← load l).ptr i.toNat  -- 247
      if (tmap &&& bit) != 0#32 then  -- 248
        let kv : Amt.Ptr := (← load item).ptr  -- 249
        let r ← do_ u (← kvKey kv)  -- 250
        u := r.1
        if !r.2 then
          return (u, false)  -- 251
      else  -- 253
        let r ← setScan do_ fuel u item
        u := r.1
        if !r.2 then
          return (u, false)  -- 254
      pmap := pmap &&& ~~~bit  -- 256
      i := i + 1#8  -- 245
    return (u, true)  -- 258

/-- generic_set.go:238-240. -/
def All {K : Type} {U : Type} (fuel : Nat) (s : Handle) (do_ : U → K → M K Unit (U × Bool)) (u : U) : M K Unit U := do
  let r ← setScan do_ fuel u (linkOf (← deref s))  -- 239
  return r.1

end Amt.Go.Set
