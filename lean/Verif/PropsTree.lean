/-
C73: in every state that a container can get into, whatever the keys and hashes, no object has two places in it.  C22 for `IntMap` on every
history.  C74: in every such state, only insertions can hang.
-/
import Verif.TreeDel
import Verif.PropsEvery
import Verif.BugsMore

set_option linter.unusedVariables false
set_option linter.unusedSectionVars false

namespace Amt
open Spec

/-! ### The statement -/

/-- In the memory `s` there is the link `x` at the place `r`. -/
def Holds {K V : Type} (s : St K V) (r : Ref) (x : Link) : Prop := ∃ b xs, r.base = .blk b ∧ s.mem b = some (.links xs) ∧ xs[r.idx]? = some x

/-- `Placed s h r`: the place `r` belongs to the container with root `h`: the link of the root, and with a link also those of the array it points
to, as many as it has bits in `pmap`. -/
inductive Placed {K V : Type} (s : St K V) (h : Nat) : Ref → Prop where
  | root : Placed s h ⟨.blk h, 0⟩
  | item {r : Ref} {x : Link} {b i : Nat} {xs : List Link} : Placed s h r → Holds s r x → x.ptr = .blk b → s.mem b = some (.links xs) →
      i < bitsBelow x.pmap 32 → i < xs.length → Placed s h ⟨.blk b, i⟩

/-- No two links of the container point to the same object (array or cell), none points to the root, and all objects pointed to exist. -/
def Forked {K V : Type} (s : St K V) (h : Nat) : Prop :=
  (∀ r x, Placed s h r → Holds s r x → x.ptr ≠ .blk h) ∧
  (∀ r x b, Placed s h r → Holds s r x → x.ptr = .blk b → s.mem b ≠ none) ∧
  ∀ r r' x x' b, Placed s h r → Placed s h r' → Holds s r x → Holds s r' x' → x.ptr = .blk b → x'.ptr = .blk b → r = r'

/-! ### Places below a link -/

namespace Tree
open Go (ok_bind)

section
variable {K V : Type} {m : Nat → Option (Obj K V)} {x y : Link} {F G C : Nat → Prop} {s t : St K V} {h : Nat}

theorem bits_popcount (x : BitVec 32) : bitsBelow x 32 = popcount x := by
  rw [bitsBelow, popcount, List.countP_eq_length_filter]

/-- The places below a link. -/
inductive Below (m : Nat → Option (Obj K V)) : Link → Ref → Prop
  | here {x : Link} {b i : Nat} {xs : List Link} : x.ptr = .blk b → m b = some (.links xs) → i < popcount x.pmap → i < xs.length → Below m x ⟨.blk b, i⟩
  | there {x y : Link} {b i : Nat} {xs : List Link} {r : Ref} : x.ptr = .blk b → m b = some (.links xs) → i < popcount x.pmap → xs[i]? = some y →
      Below m y r → Below m x r

theorem Below.item {r : Ref} (hb : Below m x r) (hs : Slot m r y) {b i : Nat} {xs : List Link} (hp : y.ptr = .blk b) (hm : m b = some (.links xs))
    (hi : i < popcount y.pmap) (hl : i < xs.length) : Below m x ⟨.blk b, i⟩ := by
  induction hb with
  | @here x' b' i' xs' h1 h2 h3 h4 =>
    obtain ⟨b₂, ys, g1, g2, g3⟩ := hs
    cases g1
    rw [h2] at g2; cases g2
    exact .there h1 h2 h3 g3 (.here hp hm hi hl)
  | there h1 h2 h3 h4 h5 ih => exact .there h1 h2 h3 h4 (ih hs)

theorem Own.ptr {b : Nat} (ho : Own m x F) (hp : x.ptr = .blk b) : F b ∧ m b ≠ none := by
  cases ho with
  | nil h => rw [hp] at h; cases h
  | cell h1 h2 h3 => rw [hp] at h1; cases h1; exact ⟨h3, by rw [h2]; simp⟩
  | arr h1 h2 h3 => rw [hp] at h1; cases h1; exact ⟨h3, by rw [h2]; simp⟩

/-- What a link below points to is owned, and is not what the link itself points to. -/
theorem Below.inside {r : Ref} (hb : Below m x r) : ∀ {F : Nat → Prop} {y : Link} {b : Nat}, Own m x F → Slot m r y → y.ptr = .blk b →
    F b ∧ m b ≠ none ∧ x.ptr ≠ .blk b := by
  induction hb with
  | @here x b' i xs h1 h2 h3 h4 =>
    intro F y b ho hs hp
    obtain ⟨hF, E, k1, k2, k3⟩ := ho.kids h1 h2
    obtain ⟨b₂, ys, g1, g2, g3⟩ := hs
    cases g1
    rw [h2] at g2; cases g2
    obtain ⟨q1, q2⟩ := (k1 i y h3 g3).ptr hp
    obtain ⟨q3, q4⟩ := k2 i b q1
    exact ⟨q3, q2, fun he => by rw [h1] at he; cases he; exact q4 rfl⟩
  | @there x y' b' i xs r h1 h2 h3 h4 h5 ih =>
    intro F y b ho hs hp
    obtain ⟨hF, E, k1, k2, k3⟩ := ho.kids h1 h2
    obtain ⟨q1, q2, _⟩ := ih (k1 i y' h3 h4) hs hp
    obtain ⟨q3, q4⟩ := k2 i b q1
    exact ⟨q3, q2, fun he => by rw [h1] at he; cases he; exact q4 rfl⟩

/-- Different links below a link point to different objects. -/
theorem Below.inj {r : Ref} (hb : Below m x r) : ∀ {F : Nat → Prop} {r' : Ref} {y y' : Link} {b : Nat}, Own m x F → Below m x r' → Slot m r y → Slot m r' y' →
    y.ptr = .blk b → y'.ptr = .blk b → r = r' := by
  induction hb with
  | @here x c i xs h1 h2 h3 h4 =>
    intro F r' y y' b ho hb' hs hs' hp hp'
    obtain ⟨hF, E, k1, k2, k3⟩ := ho.kids h1 h2
    obtain ⟨b₂, ys, g1, g2, g3⟩ := hs
    cases g1
    rw [h2] at g2; cases g2
    dsimp only at g3
    have hE := ((k1 i y h3 g3).ptr hp).1
    cases hb' with
    | @here _ _ i' _ h1' h2' h3' h4' =>
      rw [h1] at h1'; cases h1'
      rw [h2] at h2'; cases h2'
      obtain ⟨b₂, ys, g1, g2, g3'⟩ := hs'
      cases g1
      rw [h2] at g2; cases g2
      have hE' := ((k1 i' y' h3' g3').ptr hp').1
      rw [k3 i i' b hE hE']
    | @there _ z _ i' _ _ h1' h2' h3' h4' h5' =>
      rw [h1] at h1'; cases h1'
      rw [h2] at h2'; cases h2'
      obtain ⟨q1, q2, q3⟩ := h5'.inside (k1 i' z h3' h4') hs' hp'
      obtain rfl := k3 i i' b hE q1
      rw [g3] at h4'; cases h4'
      exact absurd hp q3
  | @there x z c i xs r h1 h2 h3 h4 h5 ih =>
    intro F r' y y' b ho hb' hs hs' hp hp'
    obtain ⟨hF, E, k1, k2, k3⟩ := ho.kids h1 h2
    obtain ⟨q1, q2, q3⟩ := h5.inside (k1 i z h3 h4) hs hp
    cases hb' with
    | @here _ _ i' _ h1' h2' h3' h4' =>
      rw [h1] at h1'; cases h1'
      rw [h2] at h2'; cases h2'
      obtain ⟨b₂, ys, g1, g2, g3'⟩ := hs'
      cases g1
      rw [h2] at g2; cases g2
      dsimp only at g3'
      have hE' := ((k1 i' y' h3' g3').ptr hp').1
      obtain rfl := k3 i i' b q1 hE'
      rw [h4] at g3'; cases g3'
      exact absurd hp' q3
    | @there _ z' _ i' _ _ h1' h2' h3' h4' h5' =>
      rw [h1] at h1'; cases h1'
      rw [h2] at h2'; cases h2'
      obtain ⟨q1', q2', q3'⟩ := h5'.inside (k1 i' z' h3' h4') hs' hp'
      obtain rfl := k3 i i' b q1 q1'
      rw [h4] at h4'; cases h4'
      exact ih (k1 i z h3 h4) h5' hs hs' hp hp'

theorem live_below (hs : Slot s.mem ⟨.blk h, 0⟩ x) {r : Ref} (hl : Placed s h r) : r = ⟨.blk h, 0⟩ ∨ Below s.mem x r := by
  induction hl with
  | root => exact .inl rfl
  | @item r y b i xs _ h2 h3 h4 h5 h6 ih =>
    rw [bits_popcount] at h5
    rcases ih with rfl | ih
    · obtain rfl := Slot.unique h2 hs
      exact .inr (.here h3 h4 h5 h6)
    · exact .inr (ih.item h2 h3 h4 h5 h6)

/-- What the invariant says. -/
theorem Whole.forked (hw : Whole s h) : Forked s h := by
  obtain ⟨x, C, F, ha⟩ := hw
  obtain ⟨h', hh, hC⟩ := ha.zip.base
  cases hh
  have root : ∀ {y b}, Slot s.mem ⟨.blk h, 0⟩ y → y.ptr = .blk b → F b ∧ s.mem b ≠ none ∧ x.ptr = .blk b := fun hs hp => by
    obtain rfl := hs.unique ha.slot
    exact ⟨(ha.own.ptr hp).1, (ha.own.ptr hp).2, hp⟩
  refine ⟨fun r y hl hs hp => ?_, fun r y b hl hs hp => ?_, fun r r' y y' b hl hl' hs hs' hp hp' => ?_⟩
  · rcases live_below ha.slot hl with rfl | hb
    · exact ha.apart h hC (root hs hp).1
    · exact ha.apart h hC (hb.inside ha.own hs hp).1
  · rcases live_below ha.slot hl with rfl | hb
    · exact (root hs hp).2.1
    · exact (hb.inside ha.own hs hp).2.1
  · rcases live_below ha.slot hl with rfl | hb <;> rcases live_below ha.slot hl' with rfl | hb'
    · rfl
    · exact absurd (root hs hp).2.2 (hb'.inside ha.own hs' hp').2.2
    · exact absurd (root hs' hp').2.2 (hb.inside ha.own hs hp).2.2
    · exact hb.inj ha.own hb' hs hs' hp hp'

theorem Zip.live {p : List (Nat × Ref)} {r : Ref} (hz : Zip s.mem h p r C) : ∀ {y}, Slot s.mem r y → Placed s h r := by
  induction hz with
  | root _ => intro _ _; exact .root
  | @child p r C D x b n i xs G hz h1 h2 h3 h4 h5 h6 h7 h8 h9 h10 h11 h12 ih =>
    intro y hy
    obtain ⟨b', ys, g1, g2, g3⟩ := hy
    cases g1
    rw [h3] at g2; cases g2
    refine .item (ih h1) h1 h2 h3 ?_ (List.getElem?_eq_some_iff.1 g3).1
    rw [bits_popcount, h6]
    exact rank_lt h4 h5

/-- A key that is found has a place. -/
theorem lookup_live {c : Cfg K} {fuel : Nat} {key : K} {q : Ptr} (hw : Whole s h) (e : lookup c h fuel key s = .ok (some q, t)) :
    ∃ r y k, Placed s h r ∧ Holds s r y ∧ y.ptr = q ∧ readKey c y s = .ok (k, s) ∧ c.eq key k = true := by
  obtain ⟨x, C, F, ha⟩ := hw
  have e : Go.run (lookup c h fuel key) s = .ok (some q, t) := e
  unfold lookup at e
  obtain ⟨m, s1, e1, e2⟩ := ok_bind e
  cases e1
  clear e
  obtain ⟨⟨cur, hit⟩, s2, e3, e4⟩ := ok_bind e2
  clear e2
  obtain ⟨rfl, p', x', C', F', hat, hd, hif⟩ := search_at fuel (cur := start c (s.roots h).seed key h) ha rfl (Nat.le_refl _) e3
  dsimp only at e4
  cases hit with
  | false =>
    rw [if_neg (by simp)] at e4
    cases e4
  | true =>
    rw [if_pos rfl] at hif e4
    obtain ⟨item, s3, e5, e6⟩ := ok_bind e4
    obtain ⟨y, s4, e7, e8⟩ := ok_bind e6
    obtain ⟨k, s5, e9, e10⟩ := ok_bind e8
    clear e4 e6 e8
    obtain ⟨x'', s3', e11, e12⟩ := ok_bind e5
    obtain ⟨rfl, rfl⟩ := hat.hole.load e11
    cases e12
    obtain ⟨rfl, hsl⟩ := slot_load e7
    have hs5 : s5 = s4 := (Reader.readKey c y).ok (show (readKey c y : M K V K) s4 = .ok (k, s5) from e9) |>.1
    subst hs5
    obtain ⟨D, G, hdn, -⟩ := hat.down (radix_lt _) hif.1 hsl
    split at e10
    · next heq =>
      cases e10
      exact ⟨_, y, k, hdn.zip.live hsl, hsl, rfl, e9, heq⟩
    · cases e10

end

/-! ### The ten containers -/

section
variable {K V : Type} {s t : St K V} {h : Nat}

theorem newKv_or {R : Type} (c : Cfg K) (key : K) (v : V) (res : R) : ∀ (s : St K V) q res' t,
    Go.run (do let p ← newKv c key v; pure (p, res)) s = .ok ((q, res'), t) → (q = .nil ∧ t = s) ∨ ∃ k v, q = .blk s.next ∧ t = Go.grow s (.kv k v) := by
  intro s q res' t e
  obtain ⟨p, s1, e1, e2⟩ := ok_bind e
  cases e2
  unfold newKv at e1
  split at e1
  · cases e1; exact .inr ⟨_, _, rfl, rfl⟩
  · cases e1; exact .inr ⟨_, _, rfl, rfl⟩
  · cases e1; exact .inl ⟨rfl, rfl⟩

theorem CfgOk.boxed {c : Cfg K} (hs : c.store = .boxed) (hf : c.forget = false) : CfgOk c V := by
  intro s t y k e
  right
  refine ⟨by unfold Cfg.kept; rw [hf]; rfl, .inl ?_⟩
  have e : readKey c y s = .ok (k, t) := e
  simp only [readKey, hs] at e
  rcases loadKv_cases y.ptr s with ⟨a, ko, w, hx, hm⟩ | ⟨e', h5, _⟩
  · exact ⟨a, ko, w, hx, hm⟩
  · rw [bind_err h5] at e; cases e

theorem pack_p (p t : BitVec 32) : ((p.setWidth 64 ||| (t.setWidth 64 <<< 32)) : BitVec 64).setWidth 32 = p := by
  apply BitVec.eq_of_getLsbD_eq
  intro i hi
  simp [hi]

theorem CfgOk.int (sum : Maphash) : CfgOk (intCfg .inline sum) V := by
  intro s t y k e
  right
  refine ⟨rfl, .inr ?_⟩
  cases e
  exact pack_p _ _

theorem CfgOk.forget {c : Cfg K} (hf : c.forget = true) : CfgOk c V := by
  intro s t y k e
  left
  unfold Cfg.kept
  rw [hf]
  rfl

variable [Inhabited V] {I : MapImpl K V} {g : Bool}

theorem map_cfg (hI : IsMap I g) : CfgOk I.cfg V := by
  cases hI
  case int => exact CfgOk.int _
  all_goals exact CfgOk.boxed rfl rfl

theorem map_set (hI : IsMap I g) (k : K) (v : V) : InsOk (I.setI k v) := by
  refine ⟨fun q => ?_, ?_, ?_⟩
  · rw [hI.facts.setHit]; exact Mild.storeVal _ _
  · cases hI <;> exact newKv_or _ _ _ _
  · cases hI <;> exact newKv_or _ _ _ _

theorem map_mod (hI : IsMap I g) (k : K) (f : V → Bool → V) : InsOk (I.modI k f) := by
  refine ⟨fun q => ?_, ?_, ?_⟩
  · rw [hI.facts.modHit]
    exact Mild.bind (Mild.loadKv _) fun _ => Mild.bind (Mild.storeVal _ _) fun _ => Mild.pure _
  · cases hI <;> exact newKv_or _ _ _ _
  · cases hI <;> exact newKv_or _ _ _ _

/-- One call. -/
theorem map_exec (hI : IsMap I g) {fuel : Nat} {op : MOp K V} {o : MOut K V} (hw : Whole s h) (e : I.exec fuel (some h) op s = .ok (o, t)) : Whole t h := by
  have e : Go.run (I.exec fuel (some h) op) s = .ok (o, t) := e
  have mild : Mild (I.exec fuel (some h) op) → Whole t h := fun hm => hm.whole e hw
  cases op with
  | get k => exact mild (Mild.bind (Mild.bind (Mild.lookup _ _ _ _) fun p => by
      cases p
      · exact Mild.pure _
      · exact Mild.bind (Mild.loadKv _) fun _ => Mild.pure _) fun _ => Mild.pure _)
  | val k => exact mild (Mild.bind (Mild.bind (Mild.lookup _ _ _ _) fun p => by
      cases p
      · exact Mild.pure _
      · exact Mild.bind (Mild.loadKv _) fun _ => Mild.pure _) fun _ => Mild.pure _)
  | ptr k => exact mild (Mild.bind (Mild.lookup _ _ _ _) fun p => by
      cases p
      · exact Mild.pure _
      · exact Mild.bind (Mild.loadKv _) fun _ => Mild.pure _)
  | set k v =>
    obtain ⟨_, s1, e1, e2⟩ := ok_bind e
    cases e2
    exact upsert_whole (map_cfg hI) (map_set hI k v) hw e1
  | mod k f =>
    obtain ⟨_, s1, e1, e2⟩ := ok_bind e
    cases e2
    exact upsert_whole (map_cfg hI) (map_mod hI k f) hw e1
  | del k =>
    obtain ⟨_, s1, e1, e2⟩ := ok_bind e
    cases e2
    exact delete_whole hw e1
  | len => exact mild (Mild.bind (Mild.bind (Mild.getRoot _) fun _ => Mild.pure _) fun _ => Mild.pure _)
  | dep => exact mild (Mild.bind (Mild.bind (Mild.getRoot _) fun _ => Mild.ite (Mild.pure _) (Mild.pure _)) fun _ => Mild.pure _)
  | write k v => exact mild (Mild.bind (Mild.lookup _ _ _ _) fun p => by
      cases p
      · exact Mild.pure _
      · exact Mild.bind (Mild.storeVal _ _) fun _ => Mild.pure _)
  | all f => exact mild (Mild.bind (Mild.bind (show Mild (deref (some h)) from Mild.pure h) fun _ => Mild.bind (Mild.scan (Mild.visitMap _ _) _ _ _) fun _ => Mild.pure _) fun _ => Mild.pure _)

theorem map_run (hI : IsMap I g) {fuel : Nat} (ops : List (MOp K V)) : ∀ {s t : St K V} {os : List (MOut K V)}, Whole s h →
    I.run fuel (some h) ops s = .ok (os, t) → Whole t h := by
  induction ops with
  | nil => intro s t os hw e; cases e; exact hw
  | cons op ops ih =>
    intro s t os hw e
    rw [MapImpl.run] at e
    obtain ⟨o, s1, e1, e2⟩ := bind_ok_inv e
    obtain ⟨os', s2, e3, e4⟩ := bind_ok_inv e2
    cases e4
    exact ih (map_exec hI hw e1) e3

theorem map_session (hI : IsMap I g) {fuel : Nat} {sd : Seed} {ops : List (MOp K V)} {m : Handle} {os : List (MOut K V)}
    (e : I.session fuel sd ops s = .ok ((m, os), t)) : ∃ h, m = some h ∧ Whole t h := by
  rw [MapImpl.session] at e
  obtain ⟨m', s1, e1, e2⟩ := bind_ok_inv e
  obtain ⟨os', s2, e3, e4⟩ := bind_ok_inv e2
  cases e4
  obtain ⟨rfl, hw⟩ := new_whole e1
  exact ⟨_, rfl, map_run hI ops hw e3⟩

end

section
variable {K : Type} {s t : St K Unit} {h : Nat} {I : SetImpl K} {g : Bool}

theorem set_cfg (hI : IsSet I g) : CfgOk I.cfg Unit := by
  cases hI
  case int => exact CfgOk.forget rfl
  all_goals exact CfgOk.boxed rfl rfl

theorem set_add (hI : IsSet I g) (k : K) : InsOk (I.addI k) := by
  refine ⟨fun q => ?_, ?_, ?_⟩
  · rw [hI.facts.hit]; exact Mild.pure _
  · cases hI <;> exact newKv_or _ _ _ _
  · cases hI <;> exact newKv_or _ _ _ _

/-- One call. -/
theorem set_exec (hI : IsSet I g) {fuel : Nat} {op : SOp K} {o : SOut K} (hw : Whole s h) (e : I.exec fuel (some h) op s = .ok (o, t)) : Whole t h := by
  have e : Go.run (I.exec fuel (some h) op) s = .ok (o, t) := e
  have mild : Mild (I.exec fuel (some h) op) → Whole t h := fun hm => hm.whole e hw
  cases op with
  | has k => exact mild (Mild.bind (Mild.bind (show Mild (deref (some h)) from Mild.pure h) fun _ => Mild.bind (Mild.lookup _ _ _ _) fun p => Mild.pure _) fun _ => Mild.pure _)
  | add k =>
    obtain ⟨_, s1, e1, e2⟩ := ok_bind e
    cases e2
    exact upsert_whole (set_cfg hI) (set_add hI k) hw e1
  | del k =>
    obtain ⟨_, s1, e1, e2⟩ := ok_bind e
    cases e2
    exact delete_whole hw e1
  | len => exact mild (Mild.bind (Mild.bind (Mild.getRoot _) fun _ => Mild.pure _) fun _ => Mild.pure _)
  | dep => exact mild (Mild.bind (Mild.bind (Mild.getRoot _) fun _ => Mild.ite (Mild.pure _) (Mild.pure _)) fun _ => Mild.pure _)
  | all f => exact mild (Mild.bind (Mild.bind (show Mild (deref (some h)) from Mild.pure h) fun _ => Mild.bind (Mild.scan (Mild.visitSet _ _) _ _ _) fun _ => Mild.pure _) fun _ => Mild.pure _)

theorem set_run (hI : IsSet I g) {fuel : Nat} (ops : List (SOp K)) : ∀ {s t : St K Unit} {os : List (SOut K)}, Whole s h →
    I.run fuel (some h) ops s = .ok (os, t) → Whole t h := by
  induction ops with
  | nil => intro s t os hw e; cases e; exact hw
  | cons op ops ih =>
    intro s t os hw e
    rw [SetImpl.run] at e
    obtain ⟨o, s1, e1, e2⟩ := bind_ok_inv e
    obtain ⟨os', s2, e3, e4⟩ := bind_ok_inv e2
    cases e4
    exact ih (set_exec hI hw e1) e3

theorem set_session (hI : IsSet I g) {fuel : Nat} {sd : Seed} {ops : List (SOp K)} {m : Handle} {os : List (SOut K)}
    (e : I.session fuel sd ops s = .ok ((m, os), t)) : ∃ h, m = some h ∧ Whole t h := by
  rw [SetImpl.session] at e
  obtain ⟨m', s1, e1, e2⟩ := bind_ok_inv e
  obtain ⟨os', s2, e3, e4⟩ := bind_ok_inv e2
  cases e4
  obtain ⟨rfl, hw⟩ := new_whole e1
  exact ⟨_, rfl, set_run hI ops hw e3⟩

end

/-! ### Loops that end -/

section
variable {K V : Type} {s t : St K V} {h : Nat}

/-- From link `x` one can go down fewer than `n` times. -/
def Tall (m : Nat → Option (Obj K V)) : Nat → Link → Prop
  | 0, _ => False
  | n + 1, x => ∀ b xs i y, x.ptr = .blk b → m b = some (.links xs) → i < popcount x.pmap → xs[i]? = some y → Tall m n y

theorem Tall.mono {m : Nat → Option (Obj K V)} : ∀ {n n' : Nat} {x : Link}, Tall m n x → n ≤ n' → Tall m n' x := by
  intro n
  induction n with
  | zero => intro n' x h; exact h.elim
  | succ n ih =>
    intro n' x h hn
    obtain ⟨n', rfl⟩ : ∃ k, n' = k + 1 := ⟨n' - 1, by omega⟩
    exact fun b xs i y h1 h2 h3 h4 => ih (h b xs i y h1 h2 h3 h4) (by omega)

theorem bounded {P : Nat → Nat → Prop} (hm : ∀ i n n', P i n → n ≤ n' → P i n') : ∀ k, (∀ i, i < k → ∃ n, P i n) → ∃ n, ∀ i, i < k → P i n := by
  intro k
  induction k with
  | zero => exact fun _ => ⟨0, fun i hi => by omega⟩
  | succ k ih =>
    intro hk
    obtain ⟨n, hn⟩ := ih fun i hi => hk i (by omega)
    obtain ⟨n', hn'⟩ := hk k (by omega)
    refine ⟨max n n', fun i hi => ?_⟩
    by_cases h : i = k
    · subst h; exact hm _ _ _ hn' (Nat.le_max_right _ _)
    · exact hm _ _ _ (hn i (by omega)) (Nat.le_max_left _ _)

theorem Own.tall {m : Nat → Option (Obj K V)} {x : Link} {F : Nat → Prop} (ho : Own m x F) : ∃ n, Tall m n x := by
  induction ho with
  | nil h => exact ⟨1, fun b xs i y h1 => by rw [h] at h1; cases h1⟩
  | cell h h2 => exact ⟨1, fun b xs i y h1 h3 => by rw [h] at h1; cases h1; rw [h2] at h3; cases h3⟩
  | @arr x F b xs G h1 h2 h3 h4 h5 h6 ih =>
    obtain ⟨n, hn⟩ := bounded (P := fun i n => ∀ y, xs[i]? = some y → Tall m n y) (fun i n n' h hn y hy => (h y hy).mono hn) (popcount x.pmap) fun i hi => by
      cases hy : xs[i]? with
      | none => exact ⟨0, nofun⟩
      | some y =>
        obtain ⟨n, hn⟩ := ih i y hi hy
        exact ⟨n, fun y' h => by cases h; exact hn⟩
    refine ⟨n + 1, fun b' xs' i y g1 g2 g3 g4 => ?_⟩
    rw [h1] at g1; cases g1
    rw [h2] at g2; cases g2
    exact hn i g3 y g4

theorem links_shape (hs : SameShape s t) {b : Nat} {xs : List Link} : t.mem b = some (.links xs) ↔ s.mem b = some (.links xs) := by
  have := hs.1 b
  cases h1 : s.mem b with
  | none => cases h2 : t.mem b with
    | none => simp
    | some o => rw [h1, h2] at this; cases this
  | some o => cases h2 : t.mem b with
    | none => rw [h1, h2] at this; cases this
    | some o' =>
      rw [h1, h2] at this
      cases o <;> cases o' <;> simp [Obj.frame] at this <;> simp [this]

theorem Tall.shape (hs : SameShape s t) : ∀ {n : Nat} {x : Link}, Tall s.mem n x → Tall t.mem n x := by
  intro n
  induction n with
  | zero => exact fun h => h
  | succ n ih => exact fun h b xs i y h1 h2 h3 h4 => ih (h b xs i y h1 ((links_shape hs).1 h2) h3 h4)

theorem Slot.shape (hs : SameShape s t) {r : Ref} {x : Link} (h : Slot s.mem r x) : Slot t.mem r x := by
  obtain ⟨b, xs, h1, h2, h3⟩ := h
  exact ⟨b, xs, h1, (links_shape hs).2 h2, h3⟩

/-- A computation that does not use up its budget. -/
def Ends {α : Type} (x : M K V α) (s : St K V) : Prop := x s ≠ .error .diverge

theorem Ends.bind {α β : Type} {x : M K V α} {f : α → M K V β} (h1 : Ends x s) (h2 : ∀ a t, x s = .ok (a, t) → Ends (f a) t) : Ends (x >>= f) s := by
  cases h : x s with
  | error e =>
    unfold Ends; rw [bind_err h]
    exact fun he => h1 (by rw [h]; cases he; rfl)
  | ok r => unfold Ends; rw [bind_ok (a := r.1) (s' := r.2) h]; exact h2 _ _ h

/-- A computation that never uses up its budget. -/
def Short {α : Type} (x : M K V α) : Prop := ∀ s, Ends x s

theorem Short.pure {α : Type} (a : α) : Short (Pure.pure a : M K V α) := fun s h => by cases h
theorem Short.fail {α : Type} {e : Fault} (he : e ≠ .diverge) : Short (M.fail e : M K V α) := fun s h => he (by cases h; rfl)
theorem Short.bind {α β : Type} {x : M K V α} {f : α → M K V β} (h1 : Short x) (h2 : ∀ a, Short (f a)) : Short (x >>= f) := fun s => (h1 s).bind fun a t _ => h2 a t
theorem Short.ite {α : Type} {p : Prop} [Decidable p] {x y : M K V α} (h1 : Short x) (h2 : Short y) : Short (if p then x else y) := by
  split
  · exact h1
  · exact h2

theorem Short.load (r : Ref) : Short (load r : M K V Link) := by
  intro s h
  unfold Amt.load at h
  split at h
  · cases h
  · split at h
    · cases h
    · cases h
    · split at h <;> cases h

theorem Short.store (r : Ref) (x : Link) : Short (store r x : M K V Unit) := by
  intro s h
  unfold Amt.store at h
  split at h
  · cases h
  · split at h
    · cases h
    · cases h
    · split at h <;> cases h

theorem Short.loadKv (p : Ptr) : Short (loadKv p : M K V (Option K × V)) := by
  intro s h
  unfold Amt.loadKv at h
  split at h
  · cases h
  · split at h <;> cases h

theorem Short.storeVal (p : Ptr) (v : V) : Short (storeVal p v : M K V Unit) := by
  intro s h
  unfold Amt.storeVal at h
  split at h
  · cases h
  · split at h <;> cases h

theorem Short.getRoot (h : Nat) : Short (getRoot h : M K V Meta) := fun s h => by cases h
theorem Short.modRoot (h : Nat) (f : Meta → Meta) : Short (modRoot h f : M K V Unit) := fun s h => by cases h
theorem Short.modLink (r : Ref) (f : Link → Link) : Short (modLink r f : M K V Unit) := Short.bind (Short.load _) fun _ => Short.store _ _
theorem Short.alloc (o : Obj K V) : Short (alloc o) := fun s h => by cases h

theorem Short.newLinkArray (n : Nat) : Short (newLinkArray n : M K V Ptr) := by
  unfold Amt.newLinkArray
  exact Short.ite (Short.alloc _) (Short.ite (Short.alloc _) (Short.ite (Short.alloc _) (Short.alloc _)))

theorem Short.readKey (c : Cfg K) (x : Link) : Short (readKey c x : M K V K) := by
  unfold Amt.readKey
  split
  · refine Short.bind (Short.loadKv _) fun kv => ?_
    split
    · exact Short.fail nofun
    · exact Short.pure _
  all_goals
    split
    · exact Short.fail nofun
    · exact Short.pure _

theorem Short.itemRef (cur : Cur) : Short (itemRef cur : M K V Ref) := Short.bind (Short.load _) fun _ => Short.pure _

theorem Short.copyUp (dst src : Ptr) (doff soff n i : Nat) : Short (copyUp dst src doff soff n i : M K V Unit) := by
  induction n generalizing i with
  | zero => exact Short.pure _
  | succ n ih => exact Short.bind (Short.load _) fun _ => Short.bind (Short.store _ _) fun _ => ih _

theorem Short.pathAt (path : List (Nat × Option Ref)) (d : Nat) : Short (pathAt path d : M K V (Nat × Ref)) := by
  unfold Amt.pathAt
  split
  · exact Short.fail nofun
  · exact Short.fail nofun
  · exact Short.pure _

theorem Short.collapse (d : Nat) : ∀ (path : List (Nat × Option Ref)) (l : Ref) (count : Nat), Short (collapse h d path l count : M K V Unit) := by
  induction d with
  | zero => exact fun _ _ _ => Short.pure _
  | succ d ih =>
    exact fun path l count => Short.bind (Short.load _) fun lk => Short.ite (Short.bind (Short.load _) fun _ => Short.bind (Short.store _ _) fun _ =>
      Short.bind (Short.modRoot _ _) fun _ => Short.bind (Short.pathAt _ _) fun _ => Short.bind (Short.modLink _ _) fun _ => Short.bind (Short.load _) fun _ => ih _ _ _)
      (Short.pure _)

theorem Short.shiftBack (d : Nat) (l : Ref) (idx count : Nat) : Short (shiftBack d l idx count : M K V Unit) :=
  Short.bind (Short.load _) fun lk => Short.ite (Short.bind (Short.newLinkArray _) fun _ => Short.bind (Short.modLink _ _) fun _ =>
    Short.bind (Short.copyUp _ _ _ _ _ _) fun _ => Short.copyUp _ _ _ _ _ _) (Short.copyUp _ _ _ _ _ _)

theorem Short.unlink (d : Nat) : ∀ (path : List (Nat × Option Ref)) (l : Ref) (idx count : Nat), Short (unlink h d path l idx count : M K V Unit) := by
  induction d with
  | zero => exact fun _ _ _ _ => Short.bind (Short.shiftBack _ _ _ _) fun _ => Short.collapse _ _ _ _
  | succ d ih =>
    exact fun path l idx count => Short.ite (Short.bind (Short.modLink _ _) fun _ => Short.bind (Short.pathAt _ _) fun _ => Short.bind (Short.load _) fun _ =>
      Short.bind (Short.modLink _ _) fun _ => Short.bind (Short.load _) fun _ => ih _ _ _ _) (Short.bind (Short.shiftBack _ _ _ _) fun _ => Short.collapse _ _ _ _)

theorem Short.remove (c : Cfg K) (skip : Bool → Bool) (key : K) (cur : Cur) : Short (remove c h skip key cur : M K V Unit) :=
  Short.bind (Short.itemRef _) fun _ => Short.bind (Short.load _) fun _ => Short.bind (Short.readKey _ _) fun _ => Short.ite (Short.pure _)
    (Short.bind (Short.load _) fun _ => Short.bind (Short.modLink _ _) fun _ => Short.bind (Short.modRoot _ _) fun _ => Short.bind (Short.load _) fun _ => Short.unlink _ _ _ _ _)

theorem descend_l (c : Cfg K) (sd : Seed) (key : K) (cur : Cur) (item : Ref) : (descend c sd key cur item).l = item := by
  unfold descend; dsimp only; split <;> rfl

/-- A search needs no more steps than the structure is high. -/
theorem search_ends (c : Cfg K) (sd : Seed) (key : K) : ∀ (n : Nat) {x : Link} {cur : Cur} {fuel : Nat}, Tall s.mem n x → Slot s.mem cur.l x → n < fuel →
    Ends (search c sd key fuel cur) s := by
  intro n
  induction n with
  | zero => intro x cur fuel h; exact h.elim
  | succ n ih =>
    intro x cur fuel ht hs hf
    obtain ⟨fuel, rfl⟩ : ∃ k, fuel = k + 1 := ⟨fuel - 1, by omega⟩
    rw [search]
    refine (Short.load _ s).bind fun y s1 e => ?_
    obtain ⟨rfl, hy⟩ := slot_load e
    obtain rfl := hy.unique hs
    dsimp only
    split
    · next hb =>
      split
      · by_cases hz : ∃ z, Slot s1.mem ⟨y.ptr, rankOf y.pmap (radixOf cur.hd)⟩ z
        · obtain ⟨z, b, xs, h1, h2, h3⟩ := hz
          exact ih (ht b xs _ z h1 h2 (rank_lt (radix_lt _) hb) h3) (by rw [descend_l]; exact ⟨b, xs, h1, h2, h3⟩) (by omega)
        · obtain ⟨fuel, rfl⟩ : ∃ k, fuel = k + 1 := ⟨fuel - 1, by omega⟩
          rw [search, descend_l]
          refine (Short.load _ _).bind fun z s2 e => ?_
          obtain ⟨rfl, hz'⟩ := slot_load e
          exact absurd ⟨z, hz'⟩ hz
      · exact Short.pure _ _
    · exact Short.pure _ _

theorem start_l (c : Cfg K) (sd : Seed) (key : K) (h : Nat) : (start c sd key h).l = ⟨.blk h, 0⟩ := rfl

theorem lookup_ends (hw : Whole s h) (c : Cfg K) (key : K) : ∃ n, ∀ fuel, n ≤ fuel → Ends (lookup c h fuel key) s := by
  obtain ⟨x, C, F, ha⟩ := hw
  obtain ⟨n, hn⟩ := ha.own.tall
  refine ⟨n + 1, fun fuel hf => ?_⟩
  unfold lookup
  refine (Short.getRoot _ _).bind fun m s1 e => ?_
  cases e
  refine (search_ends c _ key n hn ha.slot hf).bind fun r s1 e => ?_
  dsimp only
  split
  · refine (Short.bind (Short.itemRef _) fun _ => Short.bind (Short.load _) fun _ => Short.bind (Short.readKey _ _) fun _ => ?_) _
    exact Short.ite (Short.pure _) (Short.pure _)
  · exact Short.pure _ _

theorem delete_ends (hw : Whole s h) (c : Cfg K) (skip : Bool → Bool) (key : K) : ∃ n, ∀ fuel, n ≤ fuel → Ends (delete c h fuel skip key) s := by
  obtain ⟨x, C, F, ha⟩ := hw
  obtain ⟨n, hn⟩ := ha.own.tall
  refine ⟨n + 1, fun fuel hf => ?_⟩
  unfold delete
  refine (Short.getRoot _ _).bind fun m s1 e => ?_
  cases e
  refine (search_ends c _ key n hn ha.slot hf).bind fun r s1 e => ?_
  exact Short.ite (Short.remove _ _ _ _) (Short.pure _) _

/-- The loop over the items of a branch. -/
theorem scanItems_ends {U : Type} {visit : U → Link → M K V (U × Bool)} {rec : U → Ref → M K V (U × Bool)} {l : Ref} {tm : BitVec 32}
    (hv : ∀ u x, Short (visit u x)) (hm : Amt.Mild visit) (hk : ∀ u r s' a t, rec u r s' = .ok (a, t) → SameShape s' t) {x : Link} (hx : Slot s.mem l x)
    {P : Nat → Prop} (hrec : ∀ u i s', SameShape s s' → P i → Ends (rec u ⟨x.ptr, i⟩) s') :
    ∀ (n i : Nat) (pm : BitVec 32) (u : U) (s' : St K V), SameShape s s' → (∀ j, i ≤ j → j < i + n → P j) → Ends (scanItems visit rec l tm n i pm u) s' := by
  intro n
  induction n with
  | zero => intro i pm u s' _ _; exact Short.pure _ _
  | succ n ih =>
    intro i pm u s' hs hP
    rw [scanItems]
    refine (Short.load _ _).bind fun y s1 e => ?_
    obtain ⟨rfl, hy⟩ := slot_load e
    obtain rfl := hy.unique (hx.shape hs)
    have hj : ∀ (r : U × Bool) s2, SameShape s s2 → Ends (if r.2 = true then scanItems visit rec l tm n (i + 1) (pm &&& ~~~bitOf (trailingZeros pm)) r.1
        else pure (r.1, false)) s2 := by
      intro r s2 h2
      split
      · exact ih _ _ _ _ h2 fun j h3 h4 => hP j (by omega) (by omega)
      · exact Short.pure _ _
    dsimp only
    split
    · refine (Short.load _ _).bind fun z s2 e1 => (hv _ _ _).bind fun r s3 e2 => hj _ _ ?_
      obtain ⟨rfl, -⟩ := slot_load e1
      exact hs.trans (hm _ _ _ _ _ e2)
    · exact Ends.bind (hrec _ _ _ hs (hP i (by omega) (by omega))) fun r s2 e => hj _ _ (hs.trans (hk _ _ _ _ _ e))

theorem scan_shape {U : Type} {visit : U → Link → M K V (U × Bool)} (hm : Amt.Mild visit) (fuel : Nat) {u : U} {l : Ref} {s' t : St K V} {a : U × Bool}
    (e : scan visit fuel u l s' = .ok (a, t)) : SameShape s' t := by
  obtain ⟨xs, h1, -⟩ := scan_ok hm fuel u l _ _ _ e
  exact h1.shape hm

theorem scan_ends {U : Type} {visit : U → Link → M K V (U × Bool)} (hv : ∀ u x, Short (visit u x)) (hm : Amt.Mild visit) :
    ∀ (n : Nat) {x : Link} {l : Ref} {fuel : Nat} {u : U} {s : St K V}, Tall s.mem n x → Slot s.mem l x → n < fuel → Ends (scan visit fuel u l) s := by
  intro n
  induction n with
  | zero => intro x l fuel u s h; exact h.elim
  | succ n ih =>
    intro x l fuel u s ht hs hf
    obtain ⟨fuel, rfl⟩ : ∃ k, fuel = k + 1 := ⟨fuel - 1, by omega⟩
    rw [scan]
    refine (Short.load _ s).bind fun y s1 e => ?_
    obtain ⟨rfl, hy⟩ := slot_load e
    obtain rfl := hy.unique hs
    refine scanItems_ends hv hm (fun u r s' a t e => scan_shape hm fuel e) hs (P := fun i => i < popcount y.pmap) (fun u i s' h1 hi => ?_) _ _ _ _ _ (.refl _)
      (fun j _ h => by omega)
    by_cases hz : ∃ z, Slot s'.mem ⟨y.ptr, i⟩ z
    · obtain ⟨z, b, xs, g1, g2, g3⟩ := hz
      exact ih (Tall.shape h1 (ht b xs _ z g1 ((links_shape h1).1 g2) hi g3)) ⟨b, xs, g1, g2, g3⟩ (by omega)
    · obtain ⟨fuel, rfl⟩ : ∃ k, fuel = k + 1 := ⟨fuel - 1, by omega⟩
      rw [scan]
      refine (Short.load _ _).bind fun z s2 e => ?_
      obtain ⟨rfl, hz'⟩ := slot_load e
      exact absurd ⟨z, hz'⟩ hz

theorem root_scan_ends (hw : Whole s h) {U : Type} {visit : U → Link → M K V (U × Bool)} (hv : ∀ u x, Short (visit u x)) (hm : Amt.Mild visit) (u : U) :
    ∃ n, ∀ fuel, n ≤ fuel → Ends (scan visit fuel u ⟨.blk h, 0⟩) s := by
  obtain ⟨x, C, F, ha⟩ := hw
  obtain ⟨n, hn⟩ := ha.own.tall
  exact ⟨n + 1, fun fuel hf => scan_ends hv hm n hn ha.slot hf⟩

/-- An insertion that does not end is one of a key that is not found. -/
theorem upsert_hangs (hw : Whole s h) (c : Cfg K) (key : K) : ∃ n, ∀ fuel, n ≤ fuel → ∀ {R : Type} {ins : Ins K V R}, (∀ p, Short (ins.hit p)) →
    upsert c h fuel key ins s = .error .diverge → lookup c h fuel key s = .ok (none, s) := by
  obtain ⟨n, hn⟩ := lookup_ends hw c key
  refine ⟨n, fun fuel hf R ins hi he => ?_⟩
  cases hl : lookup c h fuel key s with
  | error e =>
    rw [upsert_fault hl] at he; cases he
    exact absurd hl (hn fuel hf)
  | ok r =>
    obtain ⟨p, t⟩ := r
    obtain rfl := (Reader.lookup _ _ _ _).ok hl |>.1
    cases p with
    | none => rfl
    | some p =>
      rw [upsert_found hl] at he
      exact absurd he (hi p t)

end

end Tree

/-! ### The theorems -/

section
variable {K V : Type} [Inhabited V] {I : MapImpl K V} {g : Bool} {s s₁ : St K V} {m : Handle}

/-- C73, maps.  After any calls that returned, with any keys and hash functions, no object has two places in the container. -/
theorem C73_map (hI : IsMap I g) {fuel : Nat} {sd : Seed} {ops : List (MOp K V)} {os : List (MOut K V)} (e : I.session fuel sd ops s = .ok ((m, os), s₁)) :
    ∃ h, m = some h ∧ Forked s₁ h := by
  obtain ⟨h, rfl, hw⟩ := Tree.map_session hI e
  exact ⟨h, rfl, hw.forked⟩

/-- C74, maps.  After any calls that returned, with any keys and hash functions: a call that hangs is a `Set` or `Mod` of a key that `Get` does not find.
(All other calls return or panic.) -/
theorem C74_map (hI : IsMap I g) {fuel : Nat} {sd : Seed} {ops : List (MOp K V)} {os : List (MOut K V)} (e : I.session fuel sd ops s = .ok ((m, os), s₁))
    (op : MOp K V) : ∃ n, ∀ fuel, n ≤ fuel → I.exec fuel m op s₁ = .error .diverge →
      ∃ k, k ∈ op.stores ∧ I.exec fuel m (.get k) s₁ = .ok (.pair default false, s₁) := by
  obtain ⟨h, rfl, hw⟩ := Tree.map_session hI e
  have look : ∀ k, ∃ n, ∀ fuel, n ≤ fuel → ∀ {α : Type} {f : Option Ptr → M K V α}, (∀ p, Tree.Short (f p)) → Tree.Ends (lookup I.cfg h fuel k >>= f) s₁ := by
    intro k
    obtain ⟨n, hn⟩ := Tree.lookup_ends hw I.cfg k
    exact ⟨n, fun fuel hf α f hs => (hn fuel hf).bind fun p t _ => hs p t⟩
  have never : (∃ n, ∀ fuel, n ≤ fuel → Tree.Ends (I.exec fuel (some h) op) s₁) → ∃ n, ∀ fuel, n ≤ fuel → I.exec fuel (some h) op s₁ = .error .diverge →
      ∃ k, k ∈ op.stores ∧ I.exec fuel (some h) (.get k) s₁ = .ok (.pair default false, s₁) := by
    rintro ⟨n, hn⟩
    exact ⟨n, fun fuel hf he => absurd he (hn fuel hf)⟩
  have ins : ∀ {R : Type} (k : K) (o : R → MOut K V) (i : Ins K V R), (∀ p, Tree.Short (i.hit p)) → k ∈ op.stores →
      (∀ fuel, I.exec fuel (some h) op = (upsert I.cfg h fuel k i >>= fun r => pure (o r))) → ∃ n, ∀ fuel, n ≤ fuel → I.exec fuel (some h) op s₁ = .error .diverge →
      ∃ k, k ∈ op.stores ∧ I.exec fuel (some h) (.get k) s₁ = .ok (.pair default false, s₁) := by
    intro R k o i hs hk hop
    obtain ⟨n, hn⟩ := Tree.upsert_hangs hw I.cfg k
    refine ⟨n, fun fuel hf he => ⟨k, hk, get_missing (hn fuel hf hs ?_)⟩⟩
    rw [hop] at he
    cases hu : upsert I.cfg h fuel k i s₁ with
    | error e => rw [bind_err hu] at he; cases he; rfl
    | ok r => rw [bind_ok (a := r.1) (s' := r.2) hu] at he; cases he
  cases op with
  | get k =>
    obtain ⟨n, hn⟩ := look k
    refine never ⟨n, fun fuel hf => ?_⟩
    simp only [MapImpl.exec, MapImpl.Get, Ptr_some, bind_assoc_M]
    refine hn fuel hf fun p => ?_
    cases p with
    | none => exact Tree.Short.bind (Tree.Short.pure _) fun _ => Tree.Short.pure _
    | some p => exact Tree.Short.bind (Tree.Short.bind (Tree.Short.loadKv _) fun _ => Tree.Short.pure _) fun _ => Tree.Short.pure _
  | val k =>
    obtain ⟨n, hn⟩ := look k
    refine never ⟨n, fun fuel hf => ?_⟩
    simp only [MapImpl.exec, MapImpl.Val, Ptr_some, bind_assoc_M]
    refine hn fuel hf fun p => ?_
    cases p with
    | none => exact Tree.Short.bind (Tree.Short.pure _) fun _ => Tree.Short.pure _
    | some p => exact Tree.Short.bind (Tree.Short.bind (Tree.Short.loadKv _) fun _ => Tree.Short.pure _) fun _ => Tree.Short.pure _
  | ptr k =>
    obtain ⟨n, hn⟩ := look k
    refine never ⟨n, fun fuel hf => ?_⟩
    simp only [MapImpl.exec, Ptr_some]
    refine hn fuel hf fun p => ?_
    cases p with
    | none => exact Tree.Short.pure _
    | some p => exact Tree.Short.bind (Tree.Short.loadKv _) fun _ => Tree.Short.pure _
  | write k v =>
    obtain ⟨n, hn⟩ := look k
    refine never ⟨n, fun fuel hf => ?_⟩
    simp only [MapImpl.exec, Ptr_some]
    refine hn fuel hf fun p => ?_
    cases p with
    | none => exact Tree.Short.pure _
    | some p => exact Tree.Short.bind (Tree.Short.storeVal _ _) fun _ => Tree.Short.pure _
  | set k v =>
    exact ins k (fun _ => .unit) (I.setI k v) (fun p => by rw [hI.facts.setHit]; exact Tree.Short.storeVal _ _) (List.mem_singleton.2 rfl) fun _ => rfl
  | mod k f =>
    exact ins k (fun l => .calls l) (I.modI k f) (fun p => by
      rw [hI.facts.modHit]
      exact Tree.Short.bind (Tree.Short.loadKv _) fun _ => Tree.Short.bind (Tree.Short.storeVal _ _) fun _ => Tree.Short.pure _) (List.mem_singleton.2 rfl) fun _ => rfl
  | del k =>
    obtain ⟨n, hn⟩ := Tree.delete_ends hw I.cfg I.delSkip k
    exact never ⟨n, fun fuel hf => (show Tree.Ends (delete I.cfg h fuel I.delSkip k >>= fun _ => pure MOut.unit) s₁ from (hn fuel hf).bind fun _ _ _ => Tree.Short.pure _ _)⟩
  | len => exact never ⟨0, fun fuel _ => Tree.Short.bind (Tree.Short.bind (Tree.Short.getRoot _) fun _ => Tree.Short.pure _) (fun _ => Tree.Short.pure _) _⟩
  | dep => exact never ⟨0, fun fuel _ => Tree.Short.bind (Tree.Short.bind (Tree.Short.getRoot _) fun _ => Tree.Short.ite (Tree.Short.pure _) (Tree.Short.pure _))
      (fun _ => Tree.Short.pure _) _⟩
  | all f =>
    obtain ⟨n, hn⟩ := Tree.root_scan_ends hw (visit := visitMap I.cfg fun log k v => (log ++ [(k, v)], f log k v)) (fun u x => Tree.Short.bind (Tree.Short.readKey _ _) fun _ =>
      Tree.Short.bind (Tree.Short.loadKv _) fun _ => Tree.Short.bind (Tree.Short.storeVal _ _) fun _ => Tree.Short.pure _) (Mild.visitMap _) []
    exact never ⟨n, fun fuel hf => (show Tree.Ends ((scan (visitMap I.cfg fun log k v => (log ++ [(k, v)], f log k v)) fuel [] ⟨.blk h, 0⟩ >>= fun r => pure r.1) >>=
      fun l => pure (MOut.log l)) s₁ from ((hn fuel hf).bind fun _ _ _ => Tree.Short.pure _ _).bind fun _ _ _ => Tree.Short.pure _ _)⟩

/-- In every state: a write through `Ptr(k)`, or `Set(k, v)` of a stored key, does not change what `Get` does with a key that is not equal to `k`. -/
theorem write_local (hE : ∀ a b z, I.cfg.eq a z = true → I.cfg.eq b z = true → a = b) {h : Nat} (hw : Tree.Whole s h) {fuel : Nat} {a : Nat} {k x : K} {ko : Option K} {v w : V}
    (hl : lookup I.cfg h fuel k s = .ok (some (.blk a), s)) (hm : s.mem a = some (.kv ko w)) (hx : x ≠ k) :
    outcome (I.exec fuel (some h) (.get x) (s.put a (.kv ko v))) = outcome (I.exec fuel (some h) (.get x) s) := by
  obtain ⟨r, e1, e2⟩ := Reader.lookup I.cfg h fuel x _ _ (SameShape.put hm v)
  simp only [MapImpl.exec, MapImpl.Get, Ptr_some, bind_assoc_M]
  cases r with
  | error e => rw [bind_err e1, bind_err e2]
  | ok p =>
    rw [bind_ok e1, bind_ok e2]
    cases p with
    | none => rfl
    | some p =>
      simp only [bind_assoc_M]
      have hp : p ≠ .blk a := by
        rintro rfl
        obtain ⟨r1, y1, k1, l1, h1, p1, q1, t1⟩ := Tree.lookup_live hw hl
        obtain ⟨r2, y2, k2, l2, h2, p2, q2, t2⟩ := Tree.lookup_live hw e1
        obtain rfl := hw.forked.2.2 _ _ _ _ a l1 l2 h1 h2 p1 p2
        obtain rfl := Tree.Slot.unique h1 h2
        rw [q1] at q2; cases q2
        exact hx (hE _ _ _ t2 t1)
      have hload : loadKv p (s.put a (.kv ko v)) = (loadKv p s).map fun r => (r.1, s.put a (.kv ko v)) := by
        rcases loadKv_cases p s with ⟨b, ko', w', rfl, hm'⟩ | ⟨e', h5, h6⟩
        · rw [loadKv_ok hm', loadKv_ok (v := w') (k := ko') (by rw [put_mem, if_neg (fun h => hp (by rw [h]))]; exact hm')]
          rfl
        · rw [h5, loadKv_err h5 (SameShape.put hm v)]; rfl
      cases hv : loadKv p s with
      | error e => rw [hv] at hload; rw [bind_err hv, bind_err hload]
      | ok r =>
        obtain ⟨kv, s'⟩ := r
        rw [hv] at hload
        rw [bind_ok hv, bind_ok hload]; rfl

/-- C22 for `IntMap`, after every history that returns, whatever the keys and the hash function: if the write through `Ptr(k)` returns, then `Get(k)`
returns the value written, if it found one before, and `Get` of any other key does what it did before. -/
theorem C22_IntMap {sum : Maphash} {sd : Seed} {fuel : Nat} {ops : List (MOp IntKey V)}
    {s s₁ s₂ : St IntKey V} {m : Handle} {os : List (MOut IntKey V)} {o : MOut IntKey V} {k : IntKey} {v : V}
    (e : (IntMap sum).session fuel sd ops s = .ok ((m, os), s₁)) (e' : (IntMap sum).exec fuel m (.write k v) s₁ = .ok (o, s₂)) :
    (∀ w, outcome ((IntMap sum).exec fuel m (.get k) s₁) = .ok (.pair w true) →
      outcome ((IntMap sum).exec fuel m (.get k) s₂) = .ok (.pair v true)) ∧
    ∀ x, x ≠ k → outcome ((IntMap sum).exec fuel m (.get x) s₂) = outcome ((IntMap sum).exec fuel m (.get x) s₁) := by
  obtain ⟨h, rfl, hw⟩ := Tree.map_session (.int sum) e
  have hE : ∀ a b z, (IntMap (V := V) sum).cfg.eq a z = true → (IntMap (V := V) sum).cfg.eq b z = true → a = b := fun a b z h1 h2 =>
    (of_decide_eq_true h1).trans (of_decide_eq_true h2).symm
  simp only [MapImpl.exec, Ptr_some] at e'
  obtain ⟨p, s', e1, e2⟩ := bind_ok_inv e'
  obtain rfl := (Reader.lookup _ _ _ _).ok e1 |>.1
  cases p with
  | none =>
    cases e2
    refine ⟨fun w hw => ?_, fun _ _ => rfl⟩
    rw [get_missing e1] at hw
    cases hw
  | some p =>
    obtain ⟨u, s3, e3, e4⟩ := bind_ok_inv e2
    cases e4
    rcases loadKv_cases p s' with ⟨a, ko, w, rfl, hm⟩ | ⟨e5, _, h6⟩
    · rw [storeVal_ok hm] at e3
      cases e3
      refine ⟨fun _ _ => ?_, fun x hx => write_local hE hw e1 hm hx⟩
      obtain ⟨r, g1, g2⟩ := Reader.lookup (IntMap (V := V) sum).cfg h fuel k _ _ (SameShape.put hm v)
      rw [e1] at g1
      cases r with
      | error e => cases g1
      | ok r =>
        cases g1
        rw [(exec_found g2 (ko := ko) (v := v) (by rw [put_mem, if_pos rfl])).1]; rfl
    · rw [h6] at e3; cases e3

/-- C55, other keys, for `IntMap`, after every history that returns, whatever the keys and the hash function: `Set` of a stored key does not change what `Get` does
with any other key. -/
theorem C55_IntMap {sum : Maphash} {sd : Seed} {fuel : Nat} {ops : List (MOp IntKey V)}
    {s s₁ s₂ : St IntKey V} {m : Handle} {os : List (MOut IntKey V)} {o : MOut IntKey V} {k : IntKey} {v w : V}
    (e : (IntMap sum).session fuel sd ops s = .ok ((m, os), s₁)) (hg : outcome ((IntMap sum).exec fuel m (.get k) s₁) = .ok (.pair w true))
    (e' : (IntMap sum).exec fuel m (.set k v) s₁ = .ok (o, s₂)) {x : IntKey} (hx : x ≠ k) :
    outcome ((IntMap sum).exec fuel m (.get x) s₂) = outcome ((IntMap sum).exec fuel m (.get x) s₁) := by
  have hm := C73_map (.int sum) e
  obtain ⟨h, rfl, -⟩ := hm
  cases hg' : (IntMap sum).exec fuel (some h) (.get k) s₁ with
  | error e => rw [hg'] at hg; cases hg
  | ok r =>
    obtain ⟨o', s'⟩ := r
    rw [hg'] at hg; cases hg
    obtain ⟨-, -, -, h4⟩ := C55_stored (.int sum) hg'
    obtain ⟨s3, h5, h6, -⟩ := h4 v
    rw [h5] at e'; cases e'
    exact (C22_IntMap e h6).2 x hx

end

section
variable {K : Type} {I : SetImpl K} {g : Bool} {s s₁ : St K Unit} {m : Handle}

/-- C73, sets. -/
theorem C73_set (hI : IsSet I g) {fuel : Nat} {sd : Seed} {ops : List (SOp K)} {os : List (SOut K)} (e : I.session fuel sd ops s = .ok ((m, os), s₁)) :
    ∃ h, m = some h ∧ Forked s₁ h := by
  obtain ⟨h, rfl, hw⟩ := Tree.set_session hI e
  exact ⟨h, rfl, hw.forked⟩

/-- C74, sets.  A call that hangs is an `Add` of a key of which `Has` says that it is missing. -/
theorem C74_set (hI : IsSet I g) {fuel : Nat} {sd : Seed} {ops : List (SOp K)} {os : List (SOut K)} (e : I.session fuel sd ops s = .ok ((m, os), s₁))
    (op : SOp K) : ∃ n, ∀ fuel, n ≤ fuel → I.exec fuel m op s₁ = .error .diverge →
      ∃ k, k ∈ op.stores ∧ I.exec fuel m (.has k) s₁ = .ok (.bool false, s₁) := by
  obtain ⟨h, rfl, hw⟩ := Tree.set_session hI e
  have never : (∃ n, ∀ fuel, n ≤ fuel → Tree.Ends (I.exec fuel (some h) op) s₁) → ∃ n, ∀ fuel, n ≤ fuel → I.exec fuel (some h) op s₁ = .error .diverge →
      ∃ k, k ∈ op.stores ∧ I.exec fuel (some h) (.has k) s₁ = .ok (.bool false, s₁) := by
    rintro ⟨n, hn⟩
    exact ⟨n, fun fuel hf he => absurd he (hn fuel hf)⟩
  cases op with
  | has k =>
    obtain ⟨n, hn⟩ := Tree.lookup_ends hw I.cfg k
    exact never ⟨n, fun fuel hf => (show Tree.Ends ((lookup I.cfg h fuel k >>= fun p => pure p.isSome) >>= fun b => pure (SOut.bool b)) s₁ from
      ((hn fuel hf).bind fun _ _ _ => Tree.Short.pure _ _).bind fun _ _ _ => Tree.Short.pure _ _)⟩
  | add k =>
    obtain ⟨n, hn⟩ := Tree.upsert_hangs hw I.cfg k
    refine ⟨n, fun fuel hf he => ⟨k, List.mem_singleton.2 rfl, ?_⟩⟩
    have he : (upsert I.cfg h fuel k (I.addI k) >>= fun _ => pure SOut.unit) s₁ = .error .diverge := he
    have hl := hn fuel hf (ins := I.addI k) (fun p => by rw [hI.facts.hit]; exact Tree.Short.pure _) (by
      cases hu : upsert I.cfg h fuel k (I.addI k) s₁ with
      | error e => rw [bind_err hu] at he; cases he; rfl
      | ok r => rw [bind_ok (a := r.1) (s' := r.2) hu] at he; cases he)
    show ((lookup I.cfg h fuel k >>= fun p => pure p.isSome) >>= fun b => pure (SOut.bool b)) s₁ = _
    rw [bind_assoc_M, bind_ok hl]; rfl
  | del k =>
    obtain ⟨n, hn⟩ := Tree.delete_ends hw I.cfg I.delSkip k
    exact never ⟨n, fun fuel hf => (show Tree.Ends (delete I.cfg h fuel I.delSkip k >>= fun _ => pure SOut.unit) s₁ from (hn fuel hf).bind fun _ _ _ => Tree.Short.pure _ _)⟩
  | len => exact never ⟨0, fun fuel _ => Tree.Short.bind (Tree.Short.bind (Tree.Short.getRoot _) fun _ => Tree.Short.pure _) (fun _ => Tree.Short.pure _) _⟩
  | dep => exact never ⟨0, fun fuel _ => Tree.Short.bind (Tree.Short.bind (Tree.Short.getRoot _) fun _ => Tree.Short.ite (Tree.Short.pure _) (Tree.Short.pure _))
      (fun _ => Tree.Short.pure _) _⟩
  | all f =>
    obtain ⟨n, hn⟩ := Tree.root_scan_ends hw (visit := visitSet I.cfg fun log k => (log ++ [k], f log k)) (fun u x => Tree.Short.bind (Tree.Short.readKey _ _) fun _ =>
      Tree.Short.pure _) (Mild.visitSet _) []
    exact never ⟨n, fun fuel hf => (show Tree.Ends ((scan (visitSet I.cfg fun log k => (log ++ [k], f log k)) fuel [] ⟨.blk h, 0⟩ >>= fun r => pure r.1) >>=
      fun l => pure (SOut.log l)) s₁ from ((hn fuel hf).bind fun _ _ _ => Tree.Short.pure _ _).bind fun _ _ _ => Tree.Short.pure _ _)⟩

end

/-! ### Where C22 and C27 are false -/

/-- A lookup finds an array of links. -/
def confuses {K V : Type} (c : Cfg K) (fuel : Nat) (s : St K V) (m : Handle) (k : K) : Bool :=
  match m with
  | none => false
  | some h =>
    match lookup c h fuel k s with
    | .ok (some (.blk b), _) =>
      match s.mem b with
      | some (.links _) => true
      | _ => false
    | _ => false

theorem confuses_ok {K V : Type} {c : Cfg K} {fuel : Nat} {s : St K V} {m : Handle} {k : K} (hc : confuses c fuel s m k = true) :
    ∃ h b xs t, m = some h ∧ lookup c h fuel k s = .ok (some (.blk b), t) ∧ s.mem b = some (.links xs) := by
  unfold confuses at hc
  split at hc
  · cases hc
  · next h =>
    split at hc
    · next b t hl =>
      split at hc
      · next xs hm => exact ⟨h, b, xs, t, rfl, hl, hm⟩
      · cases hc
    · cases hc

/-- C22 is false for `IntMap` in general: the keys are separated, but after two calls of `Set`, `Ptr` of a third key returns a pointer, which points to an array of links.
A write through it is not a write to a value. -/
theorem C22_IntMap_refuted :
    ∃ (sum : Maphash) (sd : Seed) (k : IntKey) (ops : List (MOp IntKey Nat)),
      Separated (byteStream sum sd intbytes) (fun x => Stores ops x ∨ x = k) ∧ ¬ Stores ops k ∧
      ∀ fuel, 256 ≤ fuel → ∃ m os s', (IntMap sum).session fuel sd ops St.init = .ok ((m, os), s') ∧
        (∃ p, (IntMap sum).Ptr fuel m k s' = .ok (some p, s')) ∧ ∀ v, (IntMap sum).exec fuel m (.write k v) s' = .error .wrongType := by
  refine ⟨phantomHash, 0#64, phantomKey, [.set (-1#64) 7, .set 255#64 8], ?_, ?_, fun fuel hf => ?_⟩
  · intro a b ha hb hab
    simp [Stores, MOp.stores] at ha hb
    rcases ha with (rfl | rfl) | rfl <;> rcases hb with (rfl | rfl) | rfl <;>
      first | exact absurd rfl hab | exact ⟨2, by decide, by decide +kernel⟩
  · simp [Stores, MOp.stores, phantomKey]
  · have hc : (match (IntMap (V := Nat) phantomHash).session 256 0#64 [.set (-1#64) 7, .set 255#64 8] St.init with
        | .ok r => confuses (IntMap (V := Nat) phantomHash).cfg 256 r.2 r.1.1 phantomKey
        | .error _ => false) = true := by decide +kernel
    split at hc
    · next r hr =>
      obtain ⟨⟨m, os⟩, s'⟩ := r
      have e := (MapImpl.session_ext (IntMap_mono (V := Nat) phantomHash) hf 0#64 [.set (-1#64) 7, .set 255#64 8]).ok hr
      dsimp only at hc
      obtain ⟨h, b, xs, t, rfl, e1, hm⟩ := confuses_ok hc
      obtain rfl := (Reader.lookup _ _ _ _).ok e1 |>.1
      have e2 := (lookup_ext (V := Nat) (c := (IntMap (V := Nat) phantomHash).cfg) h hf phantomKey).ok e1
      refine ⟨_, os, t, e, ⟨_, e2⟩, fun v => ?_⟩
      simp only [MapImpl.exec, Ptr_some]
      rw [bind_ok e2]
      show (storeVal (.blk b) v >>= _) t = _
      rw [bind_err (e := .wrongType)]
      simp only [storeVal, hm]
    · cases hc

/-- The link of the branch at a path. -/
def linkAt {K V : Type} (s : St K V) (lk : Link) : List Nat → Option Link
  | [] => some lk
  | r :: p =>
    match lk.ptr with
    | .nil => none
    | .blk b =>
      match s.mem b with
      | some (.links xs) =>
        if r < 16 ∧ lk.pmap.getLsbD r = true ∧ lk.tmap.getLsbD r = false then
          match xs[bitsBelow lk.pmap r]? with
          | some x => linkAt s x p
          | none => none
        else none
      | _ => none

theorem BranchAt.linkAt {K V : Type} {s : St K V} {h : Nat} : ∀ {q p : List Nat} {lk x : Link}, BranchAt s h p lk → linkAt s lk q = some x → BranchAt s h (p ++ q) x := by
  intro q
  induction q with
  | nil => intro p lk x hb e; cases e; rw [List.append_nil]; exact hb
  | cons r q ih =>
    intro p lk x hb e
    unfold Amt.linkAt at e
    split at e
    · cases e
    · next b hp =>
      split at e
      · next xs hm =>
        split at e
        · next hc =>
          split at e
          · next y hy =>
            have := ih (.child hb hp hm hc.1 hc.2.1 hc.2.2 hy) e
            rwa [List.append_assoc] at this
          · cases e
        · cases e
      · cases e

/-- The container at `m` has a branch without entries, at the path `p`, that owns an array of four slots. -/
def wastes {K V : Type} (s : St K V) (m : Handle) (p : List Nat) : Bool :=
  match m with
  | none => false
  | some h =>
    match s.mem h with
    | some (.links [lk]) =>
      match linkAt s lk p with
      | some x =>
        match x.ptr with
        | .nil => false
        | .blk b =>
          match s.mem b with
          | some (.links xs) => decide (x.pmap = 0#32 ∧ xs.length = 4)
          | _ => false
      | none => false
    | _ => false

theorem wastes_ok {K V : Type} {s : St K V} {m : Handle} {p : List Nat} (hc : wastes s m p = true) :
    ∃ h lk x b xs, m = some h ∧ s.mem h = some (.links [lk]) ∧ linkAt s lk p = some x ∧ x.ptr = .blk b ∧ s.mem b = some (.links xs) ∧ x.pmap = 0#32 ∧ xs.length = 4 := by
  unfold wastes at hc
  split at hc
  · cases hc
  · next h =>
    split at hc
    · next lk hm =>
      split at hc
      · next x hx =>
        split at hc
        · cases hc
        · next b hb =>
          split at hc
          · next xs hxs =>
            obtain ⟨h1, h2⟩ := of_decide_eq_true hc
            exact ⟨h, lk, x, b, xs, rfl, hm, hx, hb, hxs, h1, h2⟩
          · cases hc
      · cases hc
    · cases hc

/-- C27 is false for `StringMap` if keys agree on 256 nibbles and differ later: the depth counter has wrapped to 0 when they are told apart, their branch is taken
for the root, and when both are deleted it stays, without entries, with an array of four slots. -/
theorem C27_deep_refuted : ∃ (sum : Maphash) (sd : Seed) (ops : List (MOp ByteStr Nat)),
    (∀ a b, Stores ops a → Stores ops b → a ≠ b → ∃ j, nibble (byteStream sum sd id) a j ≠ nibble (byteStream sum sd id) b j) ∧
    ∀ fuel, 600 ≤ fuel → ∃ h os s', (StringMap sum).session fuel sd ops St.init = .ok ((some h, os), s') ∧
      ∃ p lk, p ≠ [] ∧ BranchAt s' h p lk ∧ lk.pmap = 0#32 ∧ ∃ b xs, lk.ptr = .blk b ∧ s'.mem b = some (.links xs) ∧ xs.length = 4 := by
  refine ⟨deepHash, 0#64, [.set [1] 1, .set [2] 2, .del [1], .del [2]], ?_, fun fuel hf => ?_⟩
  · have h : ∀ a, Stores (V := Nat) [.set [1] 1, .set [2] 2, .del [1], .del [2]] a → a ∈ ([[1], [2]] : List ByteStr) := by
      rintro a ⟨op, h1, h2⟩
      simp only [List.mem_cons, List.not_mem_nil, or_false] at h1
      rcases h1 with rfl | rfl | rfl | rfl <;> simp [MOp.stores] at h2 <;> simp [h2]
    have h2 : ∀ a ∈ ([[1], [2]] : List ByteStr), ∀ b ∈ ([[1], [2]] : List ByteStr), a ≠ b →
        nibble (byteStream deepHash 0#64 id) a 256 ≠ nibble (byteStream deepHash 0#64 id) b 256 := by decide +kernel
    exact fun a b ha hb hab => ⟨256, h2 a (h a ha) b (h b hb) hab⟩
  · have hc : (match (StringMap (V := Nat) deepHash).session 600 0#64 [.set [1] 1, .set [2] 2, .del [1], .del [2]] St.init with
        | .ok r => wastes r.2 r.1.1 (List.replicate 256 0)
        | .error _ => false) = true := by decide +kernel
    split at hc
    · next r hr =>
      obtain ⟨⟨m, os⟩, s'⟩ := r
      have e := (MapImpl.session_ext (StringMap_mono (V := Nat) deepHash) hf 0#64 [.set [1] 1, .set [2] 2, .del [1], .del [2]]).ok hr
      dsimp only at hc
      obtain ⟨h, lk, x, b, xs, rfl, hm, hx, hb, hxs, h1, h2⟩ := wastes_ok hc
      exact ⟨h, os, s', e, _, x, List.cons_ne_nil _ _, (BranchAt.root hm).linkAt hx, h1, b, xs, hb, hxs, h2⟩
    · cases hc

/-! ### Examples -/

/-- Two keys become a phantom, and a third one stays. -/
example : ∃ os m s', (IntMap (V := Nat) toyHash).session 256 0#64 [.set (-1#64) 7, .set 255#64 8, .set 1#64 9] St.init = .ok ((m, os), s') ∧
    (∃ h, m = some h ∧ Forked s' h) ∧ ∀ x, x ≠ 1#64 → ∀ o s'', (IntMap (V := Nat) toyHash).exec 256 m (.write 1#64 10) s' = .ok (o, s'') →
      outcome ((IntMap toyHash).exec 256 m (.get x) s'') = outcome ((IntMap toyHash).exec 256 m (.get x) s') := by
  obtain ⟨m, s', e⟩ := MapImpl.outs_of (V := Nat) (IntMap_mono toyHash) (f := 256) (sd := 0#64)
    (ops := [.set (-1#64) 7, .set 255#64 8, .set 1#64 9]) (s := St.init) (os := [.unit, .unit, .unit]) (by decide +kernel) (Nat.le_refl 256)
  exact ⟨_, m, s', e, C73_map (.int _) e, fun x hx o s'' e' => (C22_IntMap e e').2 x hx⟩

/-- A memory in which two links of the container with root 0 share a cell. -/
def shared : St Nat Nat where
  mem a := if a = 0 then some (.links [⟨.blk 1, 3#32, 3#32⟩]) else if a = 1 then some (.links [⟨.blk 2, 0#32, 0#32⟩, ⟨.blk 2, 0#32, 0#32⟩]) else some (.kv (some 5) 6)
  next := 3
  roots _ := {}

example : ¬ Forked shared 0 := by
  rintro ⟨-, -, h⟩
  have item : ∀ i, i < 2 → Placed shared 0 ⟨.blk 1, i⟩ := fun i hi => .item (x := ⟨.blk 1, 3#32, 3#32⟩) .root ⟨0, _, rfl, rfl, rfl⟩ rfl rfl
    (show i < bitsBelow 3#32 32 from hi) hi
  have := h ⟨.blk 1, 0⟩ ⟨.blk 1, 1⟩ _ _ 2 (item 0 (by decide)) (item 1 (by decide)) ⟨1, _, rfl, rfl, rfl⟩ ⟨1, _, rfl, rfl, rfl⟩ rfl rfl
  cases this

/-- With a hash function that is constant, `Set` of a second key hangs, and the other calls do not. -/
example : ∃ m os s', (StringMap (fun _ _ => 0#64)).session 256 0#64 [.set [1] 7] St.init = .ok ((m, os), s') ∧
    ∀ op, op = .get [2] ∨ op = .del [1] ∨ op = .all (fun _ _ v => (v + 1, true)) → ∃ n, ∀ fuel, n ≤ fuel → (StringMap (V := Nat) (fun _ _ => 0#64)).exec fuel m op s' ≠ .error .diverge := by
  obtain ⟨m, s', e⟩ := MapImpl.outs_of (V := Nat) (StringMap_mono fun _ _ => 0#64) (f := 256) (sd := 0#64)
    (ops := [.set [1] 7]) (s := St.init) (os := [.unit]) (by decide +kernel) (Nat.le_refl 256)
  refine ⟨m, _, s', e, fun op hop => ?_⟩
  obtain ⟨n, hn⟩ := C74_map (.string _) e op
  refine ⟨n, fun fuel hf he => ?_⟩
  obtain ⟨k, hk, -⟩ := hn fuel hf he
  rcases hop with rfl | rfl | rfl <;> cases hk

end Amt
