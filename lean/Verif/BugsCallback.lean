/-
Callbacks that add or remove keys of the container that called them: what goes wrong (C46, C47), and what is left in
memory by `Del` (C48).  Concrete runs of the model, computed by the kernel.
-/
import Verif.PropsCallback
import Verif.Bugs

set_option linter.unusedVariables false
set_option linter.unusedSectionVars false

namespace Amt
open Spec

/-! ### A larger loop budget does not change what happens -/

section
variable {K V U : Type}

theorem scanItems_ext₂ {visit visit' : U → Link → M K V (U × Bool)} (hv : ∀ u l, Ext (visit u l) (visit' u l))
    {rec rec' : U → Ref → M K V (U × Bool)} (hr : ∀ u l, Ext (rec u l) (rec' u l)) (l : Ref) (tm : BitVec 32) (n i : Nat)
    (pm : BitVec 32) (u : U) : Ext (scanItems visit rec l tm n i pm u) (scanItems visit' rec' l tm n i pm u) := by
  induction n generalizing i pm u with
  | zero => exact Ext.refl _
  | succ n ih =>
    unfold scanItems
    refine Ext.bind (Ext.refl _) fun lk => ?_
    split
    · refine Ext.bind (Ext.refl _) fun x => Ext.bind (hv _ _) fun y => ?_
      obtain ⟨u', go⟩ := y
      exact Ext.ite (ih _ _ _) (Ext.refl _)
    · refine Ext.bind (hr _ _) fun y => ?_
      obtain ⟨u', go⟩ := y
      exact Ext.ite (ih _ _ _) (Ext.refl _)

theorem scan_ext₂ {visit visit' : U → Link → M K V (U × Bool)} (hv : ∀ u l, Ext (visit u l) (visit' u l)) {f f' : Nat}
    (hf : f ≤ f') (u : U) (l : Ref) : Ext (scan visit f u l) (scan visit' f' u l) := by
  induction f generalizing f' u l with
  | zero => exact Ext.diverge _
  | succ f ih =>
    obtain ⟨g, rfl⟩ : ∃ g, f' = g + 1 := ⟨f' - 1, by omega⟩
    unfold scan
    exact Ext.bind (Ext.refl _) fun lk => scanItems_ext₂ hv (fun u l => ih (by omega) u l) _ _ _ _ _ _

theorem runBody_ext {Op Out X Y R : Type} {exec exec' : Op → M K V Out} {xexec : X → M K V Y}
    (he : ∀ op, Ext (exec op) (exec' op)) (b : Body Op Out X Y R) : Ext (runBody exec xexec b) (runBody exec' xexec b) := by
  induction b with
  | ret r => exact Ext.refl _
  | call op k ih => exact Ext.bind (he op) fun o => ih o
  | other x k ih => exact Ext.bind (Ext.refl _) fun y => ih y

variable [Inhabited V]

/-- The calls `ops` on a new map, then `All` with a callback, then the calls `next`: what the callback ended with,
and the answers to `next`. -/
def MapImpl.loopSession (I : MapImpl K V) (fuel : Nat) (sd : Seed) (ops : List (MOp K V))
    (body : U → K → V → OwnBody (MOp K V) (MOut K V) (U × Option V × Bool)) (u : U) (next : List (MOp K V)) :
    M K V (Handle × U × List (MOut K V)) := do
  let (m, _) ← I.session fuel sd ops
  let u' ← I.AllWith fuel m (I.callback fuel m (fun x : Empty => x.elim) body) u
  let os ← I.run fuel m next
  pure (m, u', os)

theorem MapImpl.loopSession_ext {I : MapImpl K V} (hI : I.Mono) {f f' : Nat} (hf : f ≤ f') (sd : Seed) (ops : List (MOp K V))
    (body : U → K → V → OwnBody (MOp K V) (MOut K V) (U × Option V × Bool)) (u : U) (next : List (MOp K V)) :
    Ext (I.loopSession f sd ops body u next) (I.loopSession f' sd ops body u next) := by
  refine Ext.bind (MapImpl.session_ext hI hf sd ops) fun x => ?_
  obtain ⟨m, os⟩ := x
  refine Ext.bind ?_ fun u' => Ext.bind (MapImpl.run_ext hI hf m next) fun _ => Ext.refl _
  refine Ext.bind (Ext.refl _) fun h => Ext.bind (scan_ext₂ (fun u x => ?_) hf _ _) fun _ => Ext.refl _
  refine Ext.bind (Ext.refl _) fun k => ?_
  unfold MapImpl.callback
  refine Ext.bind (Ext.refl _) fun kv => Ext.bind (runBody_ext (fun op => MapImpl.exec_ext hI hf m op) _) fun r => ?_
  exact Ext.refl _

/-- The callback of a `Mod` that runs the program `body` and assigns what it says. -/
def MapImpl.modBody {R : Type} (I : MapImpl K V) (fuel : Nat) (m : Handle)
    (body : V → Bool → OwnBody (MOp K V) (MOut K V) (R × V)) (p : Amt.Ptr) (b : Bool) : M K V R := do
  let kv ← loadKv p
  let r ← runBody (I.exec fuel m) (fun x : Empty => x.elim) (body kv.2 b)
  storeVal p r.2
  pure r.1

/-- The calls `ops` on a new map, then `Mod` with a callback, then the calls `next`. -/
def MapImpl.modSession {R : Type} (I : MapImpl K V) (fuel : Nat) (sd : Seed) (ops : List (MOp K V)) (key : K)
    (body : V → Bool → OwnBody (MOp K V) (MOut K V) (R × V)) (next : List (MOp K V)) :
    M K V (Handle × R × List (MOut K V)) := do
  let (m, _) ← I.session fuel sd ops
  let r ← I.ModWith fuel m key (I.modBody fuel m body)
  let os ← I.run fuel m next
  pure (m, r, os)

/-- The same, where what is done to cells also depends on the budget. -/
structure InsExt {R : Type} (ins ins' : Ins K V R) : Prop where
  mono : ins.Mono
  chash : ins'.chash = ins.chash
  guard : ins'.guard = ins.guard
  hit : ∀ p, Ext (ins.hit p) (ins'.hit p)
  newSplit : Ext ins.newSplit ins'.newSplit
  newSlot : Ext ins.newSlot ins'.newSlot

theorem split_ext₂ {R : Type} (c : Cfg K) (sd : Seed) (h : Nat) (key ckey : K) (cptr : Ptr) {ins ins' : Ins K V R} (hi : InsExt ins ins')
    {f f' : Nat} (hf : f ≤ f') (item : Ref) (d : Nat) (hd chd : BitVec 64) (w cw : Nat) :
    Ext (split c sd h key ckey cptr ins f item d hd chd w cw) (split c sd h key ckey cptr ins' f' item d hd chd w cw) := by
  induction f generalizing f' item d hd chd w cw with
  | zero => exact Ext.diverge _
  | succ f ih =>
    obtain ⟨g, rfl⟩ : ∃ g, f' = g + 1 := ⟨f' - 1, by omega⟩
    unfold split
    refine Ext.bind (Ext.refl _) fun _ => ?_
    split <;> refine Ext.ite (Ext.bind (Ext.refl _) fun _ => Ext.bind (Ext.refl _) fun _ => Ext.bind (Ext.refl _) fun _ =>
        Ext.bind hi.newSplit fun _ => Ext.refl _) ?_ <;>
      exact Ext.bind (Ext.refl _) fun _ => Ext.bind (Ext.refl _) fun _ => ih (by omega) _ _ _ _ _ _

theorem upsert_ext₂ {R : Type} (c : Cfg K) (h : Nat) {f f' : Nat} (hf : f ≤ f') (key : K) {ins ins' : Ins K V R}
    (hi : InsExt ins ins') : Ext (upsert c h f key ins) (upsert c h f' key ins') := by
  unfold upsert
  refine Ext.bind (Ext.refl _) fun r => Ext.bind (search_ext c _ key hf _) fun x => ?_
  split
  refine Ext.ite ?_ ?_
  · unfold conflict
    rw [hi.chash, hi.guard]
    refine Ext.bind (Ext.refl _) fun item => Ext.bind (Ext.refl _) fun x => Ext.bind (Ext.refl _) fun ckey =>
      Ext.ite (hi.hit _) ?_
    refine Ext.bind (Ext.liftE (hi.mono _ _ _ _ _ _ hf)) fun r => ?_
    refine Ext.ite (Ext.bind hi.newSlot fun _ => Ext.refl _) ?_
    exact Ext.bind (Ext.refl _) fun _ => Ext.bind (Ext.refl _) fun _ => split_ext₂ c _ _ _ _ _ hi hf _ _ _ _ _ _
  · unfold insertSlot
    exact Ext.bind (Ext.refl _) fun _ => Ext.bind hi.newSlot fun _ => Ext.refl _

theorem MapImpl.modSession_ext {R : Type} {I : MapImpl K V} (hI : I.Mono) {f f' : Nat} (hf : f ≤ f') (sd : Seed)
    (ops : List (MOp K V)) (key : K) (body : V → Bool → OwnBody (MOp K V) (MOut K V) (R × V)) (next : List (MOp K V)) :
    Ext (I.modSession f sd ops key body next) (I.modSession f' sd ops key body next) := by
  refine Ext.bind (MapImpl.session_ext hI hf sd ops) fun x => ?_
  obtain ⟨m, os⟩ := x
  have hb : ∀ p b, Ext (I.modBody f m body p b) (I.modBody f' m body p b) := fun p b =>
    Ext.bind (Ext.refl _) fun kv => Ext.bind (runBody_ext (fun op => MapImpl.exec_ext hI hf m op) _) fun r => Ext.refl _
  refine Ext.bind ?_ fun u' => Ext.bind (MapImpl.run_ext hI hf m next) fun _ => Ext.refl _
  refine Ext.bind (Ext.refl _) fun h => upsert_ext₂ _ _ hf _
    ⟨hI.mod key fun v _ => v, rfl, rfl, fun p => hb p true, ?_, ?_⟩
  · exact Ext.bind (Ext.refl _) fun p => Ext.bind (hb p false) fun _ => Ext.refl _
  · exact Ext.bind (Ext.refl _) fun p => Ext.bind (hb p false) fun _ => Ext.refl _

/-- What a run with one budget returns or the fault it ends in is the same for every larger one. -/
theorem Ext.outs {R : Type} {x y : M K V (Handle × R)} (h : Ext x y) {s : St K V} :
    (∀ r, outs (x s) = .ok r → ∃ m s', y s = .ok ((m, r), s')) ∧
    (∀ e, e ≠ .diverge → outs (x s) = .error e → y s = .error e) := by
  constructor
  · intro r hr
    obtain ⟨m, s', e⟩ := outs_ok hr
    exact ⟨m, s', h.ok e⟩
  · intro e he hr
    have hx : x s = .error e := by
      cases hs : x s with
      | ok r => rw [hs] at hr; cases hr
      | error e' => rw [hs] at hr; simp only [Amt.outs, Except.error.injEq] at hr; rw [hr]
    rcases h s with g | g
    · rw [hx] at g; exact absurd (Except.error.inj g) he
    · rw [g, hx]

end

/-! ### C46: a callback that deletes or inserts -/

/-- Collect the keys, and delete each. -/
def delBody {K : Type} (log : List K) (k : K) (_ : Nat) : OwnBody (MOp K Nat) (MOut K Nat) (List K × Option Nat × Bool) :=
  .call (.del k) fun _ => .ret (log ++ [k], none, true)

theorem delBody_log {K B : Type} [DecidableEq K] {step : FMap K Nat → MOp K Nat → MOut K Nat → FMap K Nat → Prop}
    {xstep : B → Empty → Empty → B → Prop} (ks : List K) :
    ∀ {u : List K} {m : FMap K Nat} {b : B} {u' : List K} {m' : FMap K Nat} {b' : B},
      RunLoop step xstep delBody ks u m b u' m' b' → u' = u ++ ks := by
  induction ks with
  | nil => rintro u m b u' m' b' ⟨rfl, _, _⟩; simp
  | cons k ks ih =>
    rintro u m b u' m' b' ⟨v, r, m₁, b₁, m₂, _, ⟨o, a, _, rfl, _, _⟩, _, hr⟩
    have := ih hr
    rw [this]; simp

/-- C46 is false for `Del`: with the three keys 1, 2 and 3, deleting each key that is visited visits 3 twice and 2
never, and leaves it in the map; no loop over the entries does that. -/
theorem C46_refuted_del :
    EachNew (fun _ => ByteFits (byteStream toyHash 0#64 id)) [] ([.set [1] 10, .set [2] 20, .set [3] 30] : List (MOp ByteStr Nat)) ∧
    ∀ fuel, 256 ≤ fuel → ∃ m s' log, (StringMap (V := Nat) toyHash).loopSession fuel 0#64 [.set [1] 10, .set [2] 20, .set [3] 30]
        delBody [] [.len, .get [2]] St.init = .ok ((m, log, [.num 1#64, .pair 20 true]), s') ∧
      log = [[1], [3], [3]] ∧
      ∀ order : FMap ByteStr Nat, order.Perm [([1], 10), ([2], 20), ([3], 30)] →
        ∀ m', ¬ OwnLoop (byteStream toyHash 0#64 id) True id delBody [] order log m' := by
  refine ⟨by decide +kernel, fun fuel hf => ?_⟩
  obtain ⟨m, s', h⟩ := (Ext.outs (MapImpl.loopSession_ext (StringMap_mono toyHash) hf 0#64
    [.set [1] 10, .set [2] 20, .set [3] 30] delBody [] [.len, .get [2]]) (s := St.init)).1
      ([[1], [3], [3]], [.num 1#64, .pair 20 true]) (by decide +kernel)
  refine ⟨m, s', _, h, rfl, fun order ho m' hl => ?_⟩
  have h1 := delBody_log _ hl
  have h2 : order.keys.Perm [[1], [2], [3]] := FMap.keys_perm ho
  rw [List.nil_append] at h1
  rw [← h1] at h2
  exact absurd (h2.nodup_iff.2 (by decide)) (by decide)

/-- C46 is false for `Del`: with five keys in one branch below the root, deleting the first that is visited moves the
other four into a smaller array, and visiting the fifth reads outside of it. -/
theorem C46_refuted_bounds :
    EachNew (fun _ => ByteFits (byteStream toyHash 0#64 id)) []
      ([.set [0x01] 1, .set [0x11] 2, .set [0x21] 3, .set [0x31] 4, .set [0x41] 5] : List (MOp ByteStr Nat)) ∧
    ∀ fuel, 256 ≤ fuel → (StringMap (V := Nat) toyHash).loopSession fuel 0#64
      [.set [0x01] 1, .set [0x11] 2, .set [0x21] 3, .set [0x31] 4, .set [0x41] 5] delBody [] [] St.init = .error .outOfBounds :=
  ⟨by decide +kernel, fun fuel hf => (Ext.outs (MapImpl.loopSession_ext (StringMap_mono toyHash) hf 0#64
    [.set [0x01] 1, .set [0x11] 2, .set [0x21] 3, .set [0x31] 4, .set [0x41] 5] delBody [] [])).2 _ (by decide) (by decide +kernel)⟩

/-- Collect the keys, and set the key 1 during each visit. -/
def insBody (log : List ByteStr) (k : ByteStr) (_ : Nat) : OwnBody (MOp ByteStr Nat) (MOut ByteStr Nat) (List ByteStr × Option Nat × Bool) :=
  .call (.set [1] 10) fun _ => .ret (log ++ [k], none, true)

/-- C46 is false for `Set`: with the keys 5 and 6, a callback that inserts the key 1 visits 5 twice and 6 never. -/
theorem C46_refuted_set :
    EachNew (fun _ => ByteFits (byteStream toyHash 0#64 id)) [] ([.set [5] 50, .set [6] 60, .set [1] 10] : List (MOp ByteStr Nat)) ∧
    ∀ fuel, 256 ≤ fuel → ∃ m s', (StringMap (V := Nat) toyHash).loopSession fuel 0#64 [.set [5] 50, .set [6] 60]
        insBody [] [.len, .get [6]] St.init = .ok ((m, [[5], [5]], [.num 3#64, .pair 60 true]), s') :=
  ⟨by decide +kernel, fun fuel hf => (Ext.outs (MapImpl.loopSession_ext (StringMap_mono toyHash) hf 0#64
    [.set [5] 50, .set [6] 60] insBody [] [.len, .get [6]])).1 ([[5], [5]], [.num 3#64, .pair 60 true]) (by decide +kernel)⟩

/-! ### C47: the callback of `Mod` -/

section
variable {K V : Type} [DecidableEq K] [Inhabited V] {I : MapImpl K V} {sd : Seed} {H : K → Nat → BitVec 64}
  {P : Bool → List K → K → Prop} {lossy : V → V} {ex : Prop} {fuel : Nat}

/-- C47 for a present key: after every covered history, `Mod` does exactly what its callback does when it is called with
the pointer that `Ptr` returns, and `true`, with the map as it is - whatever the callback does. -/
theorem C47_present {R : Type} (hc : MapContainer I sd H P lossy ex) {ops : List (MOp K V)} (h : EachNew P [] ops) {k : K}
    (hk : k ∈ keysAfter [] ops) (hf : 256 ≤ fuel) (s : St K V) :
    ∃ hd os s₁ p, I.session fuel sd ops s = .ok ((hd, os), s₁) ∧ I.Ptr fuel hd k s₁ = .ok (some p, s₁) ∧
      ∀ f : Amt.Ptr → Bool → M K V R, I.ModWith fuel hd k f s₁ = f p true s₁ := by
  obtain ⟨os, s₁, t, F, m, e1, hi, e3, e4⟩ := hc.session h hf s
  obtain ⟨okS, okM, ok⟩ := hc.ok
  have hm : k ∈ (absT t).keys := by
    rw [← (FMap.keys_perm e4).mem_iff]; exact (e3.keysAfter k).2 hk
  cases hg : T.find (nbOf H) k t 0 with
  | none =>
    rw [find_none_iff hi] at hg
    exact absurd hm hg
  | some e =>
    refine ⟨_, os, s₁, e.1, e1, ?_, fun f => ?_⟩
    · have := hi.lookup ok.laws (ok.laws.keep ok.store) hf k
      rw [hg] at this
      exact this
    · exact hi.upsert_hit ok.laws (ok.laws.keep ok.store) hf hg

end

/-- A callback that looks up the key 1, and assigns what it finds. -/
def peekBody (_ : Nat) (_ : Bool) : OwnBody (MOp ByteStr Nat) (MOut ByteStr Nat) (MOut ByteStr Nat × Nat) :=
  .call (.get [1]) fun o => .ret (o, match o with | .pair v _ => v | _ => 0)

/-- C47 is false for a new key that collides with a stored one: the callback runs while the branch for both is still
empty, and a lookup of the stored key in the callback dereferences a nil pointer. -/
theorem C47_refuted_collision :
    EachNew (fun _ => ByteFits (byteStream toyHash 0#64 id)) [] ([.set [1] 10, .mod [0x11] fun v _ => v] : List (MOp ByteStr Nat)) ∧
    ∀ fuel, 256 ≤ fuel → (StringMap (V := Nat) toyHash).modSession fuel 0#64 [.set [1] 10] [0x11] peekBody [] St.init =
      .error .nilDeref :=
  ⟨by decide +kernel, fun fuel hf => (Ext.outs (MapImpl.modSession_ext (StringMap_mono toyHash) hf 0#64 [.set [1] 10] [0x11]
    peekBody [])).2 _ (by decide) (by decide +kernel)⟩

/-- A callback that stores the key 1. -/
def pokeBody (_ : Nat) (_ : Bool) : OwnBody (MOp ByteStr Nat) (MOut ByteStr Nat) (Unit × Nat) :=
  .call (.set [1] 10) fun _ => .ret ((), 20)

/-- C47 is false for a new key in a free slot: its place was determined before the callback ran, and if the callback
inserts a key before it, both end up in the wrong place: `Len` counts two keys, but neither is found. -/
theorem C47_refuted_slot :
    EachNew (fun _ => ByteFits (byteStream toyHash 0#64 id)) [] ([.set [1] 10, .mod [2] fun v _ => 20] : List (MOp ByteStr Nat)) ∧
    ∀ fuel, 256 ≤ fuel → ∃ m s', (StringMap (V := Nat) toyHash).modSession fuel 0#64 [] [2] pokeBody
      [.len, .get [1], .get [2]] St.init = .ok ((m, (), [.num 2#64, .pair 0 false, .pair 0 false]), s') :=
  ⟨by decide +kernel, fun fuel hf => (Ext.outs (MapImpl.modSession_ext (StringMap_mono toyHash) hf 0#64 [] [2]
    pokeBody [.len, .get [1], .get [2]])).1 ((), [.num 2#64, .pair 0 false, .pair 0 false]) (by decide +kernel)⟩

/-- A callback that stores the keys 01 01 and 01 02. -/
def twoBody (_ : Nat) (_ : Bool) : OwnBody (MOp ByteStr Nat) (MOut ByteStr Nat) (Unit × Nat) :=
  .call (.set [1, 1] 1) fun _ => .call (.set [1, 2] 2) fun _ => .ret ((), 20)

/-- C47 is false in a worse way: `pair[0].ptr = ckv` assigns a part of the link only.  If the callback has put a branch
there, the link is then one to a branch whose pointer is the address of a key-value cell, and `Get` of a key that the callback stored reads
the cell as an array of links - in Go, the bytes of a key as pointers. -/
theorem C47_refuted_unsafe :
    EachNew (fun _ => ByteFits (byteStream toyHash 0#64 id)) []
      ([.set [0x21] 10, .set [1, 1] 1, .set [1, 2] 2, .mod [0x31] fun _ _ => 20] : List (MOp ByteStr Nat)) ∧
    ∀ fuel, 256 ≤ fuel →
      (∃ m s', (StringMap (V := Nat) toyHash).modSession fuel 0#64 [.set [0x21] 10] [0x31] twoBody [.len] St.init =
        .ok ((m, (), [.num 4#64]), s')) ∧
      (StringMap (V := Nat) toyHash).modSession fuel 0#64 [.set [0x21] 10] [0x31] twoBody [.get [1, 1]] St.init = .error .wrongType :=
  ⟨by decide +kernel, fun fuel hf => ⟨(Ext.outs (MapImpl.modSession_ext (StringMap_mono toyHash) hf 0#64 [.set [0x21] 10] [0x31]
    twoBody [.len])).1 ((), [.num 4#64]) (by decide +kernel), (Ext.outs (MapImpl.modSession_ext (StringMap_mono toyHash) hf 0#64
    [.set [0x21] 10] [0x31] twoBody [.get [1, 1]])).2 _ (by decide) (by decide +kernel)⟩⟩

example := C47_present (R := Unit) (MapContainer.string (V := Nat) toyHash 0#64) exOps_str (k := strKey 0x11) (by decide +kernel)
  (Nat.le_refl 256) St.init

end Amt
