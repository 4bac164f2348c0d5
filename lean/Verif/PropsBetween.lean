/-
C44 on all histories, and cases for C67: iterating over a container is a loop over its entries, as they are in the beginning, as long as the callback
leaves the structure of the container alone; it may do anything with other containers.
-/
import Verif.PropsApart
import Verif.Examples

set_option linter.unusedVariables false
set_option linter.unusedSectionVars false

namespace Amt
open Spec

section
variable {K V U : Type}

/-- Call the visitor on the items in order until it returns false. -/
def visitAll (visit : U → Link → M K V (U × Bool)) : List Link → U → M K V (U × Bool)
  | [], u => pure (u, true)
  | x :: xs, u => visit u x >>= fun r => if r.2 = true then visitAll visit xs r.1 else pure (r.1, false)

theorem visitAll_append (visit : U → Link → M K V (U × Bool)) (xs ys : List Link) (u : U) :
    visitAll visit (xs ++ ys) u = (visitAll visit xs u >>= fun r => if r.2 = true then visitAll visit ys r.1 else pure (r.1, false)) := by
  induction xs generalizing u with
  | nil => rfl
  | cons x xs ih =>
    rw [List.cons_append, visitAll, visitAll, bind_assoc_M]
    congr 1
    funext r
    split
    · exact ih _
    · rfl

/-- Every call, in the loop over the items, changes only values. -/
def MildOn (visit : U → Link → M K V (U × Bool)) : List Link → U → St K V → Prop
  | [], _, _ => True
  | x :: xs, u, s => ∀ r s', visit u x s = .ok (r, s') → SameShape s s' ∧ (r.2 = true → MildOn visit xs r.1 s')

theorem MildOn.shape {visit : U → Link → M K V (U × Bool)} {xs : List Link} :
    ∀ {u : U} {s : St K V} {r : U × Bool} {s' : St K V}, MildOn visit xs u s → visitAll visit xs u s = .ok (r, s') → SameShape s s' := by
  induction xs with
  | nil => intro u s r s' hp e; cases e; exact SameShape.refl _
  | cons x xs ih =>
    intro u s r s' hp e
    rw [visitAll, bind_run] at e
    cases hx : visit u x s with
    | error y => rw [hx] at e; cases e
    | ok q =>
      obtain ⟨q, s1⟩ := q
      rw [hx] at e
      obtain ⟨h1, h2⟩ := hp _ _ hx
      by_cases hq : q.2 = true
      · simp only [hq, if_true] at e
        exact h1.trans (ih (h2 hq) e)
      · simp only [hq] at e
        cases e
        exact h1

theorem MildOn.append {visit : U → Link → M K V (U × Bool)} {xs ys : List Link} : ∀ {u : U} {s : St K V}, MildOn visit (xs ++ ys) u s →
    MildOn visit xs u s ∧ ∀ r s', visitAll visit xs u s = .ok (r, s') → r.2 = true → MildOn visit ys r.1 s' := by
  induction xs with
  | nil => intro u s ha; exact ⟨trivial, fun r s₁ hr _ => by cases hr; exact ha⟩
  | cons e es ih =>
    intro u s ha
    refine ⟨fun r s₁ hr => ⟨(ha r s₁ hr).1, fun h2 => (ih ((ha r s₁ hr).2 h2)).1⟩, fun r s₂ hr h2 => ?_⟩
    rw [visitAll, bind_run] at hr
    cases hx : visit u e s with
    | error e => rw [hx] at hr; cases hr
    | ok q =>
      obtain ⟨q, sq⟩ := q
      rw [hx] at hr
      by_cases hq : q.2 = true
      · simp only [hq, if_true] at hr
        exact (ih ((ha q sq hx).2 hq)).2 r s₂ hr h2
      · simp only [hq] at hr
        cases hr
        cases h2

theorem listItems_succ (lrec : Ref → M K V (List Link)) (l : Ref) (tm : BitVec 32) (n i : Nat) (pm : BitVec 32) :
    listItems lrec l tm (n + 1) i pm = (load l >>= fun lk =>
      (if tm &&& bitOf (trailingZeros pm) ≠ 0#32 then load ⟨lk.ptr, i⟩ >>= fun x => pure [x] else lrec ⟨lk.ptr, i⟩) >>= fun xs =>
        listItems lrec l tm n (i + 1) (pm &&& ~~~bitOf (trailingZeros pm)) >>= fun ys => pure (xs ++ ys)) := by
  rw [listItems]
  congr 1
  funext lk
  split
  · simp only [bind_assoc_M]
  · rfl

theorem bind_ok_some {α β : Type} {x : M K V α} {f : α → M K V β} {s : St K V} {b : β} {s' : St K V} (h : (x >>= f) s = .ok (b, s')) :
    ∃ a s1, x s = .ok (a, s1) ∧ f a s1 = .ok (b, s') := by
  rw [bind_run] at h
  cases hx : x s with
  | error e => rw [hx] at h; cases h
  | ok q => rw [hx] at h; exact ⟨q.1, q.2, rfl, h⟩

theorem scanItems_between {visit : U → Link → M K V (U × Bool)} {rec : U → Ref → M K V (U × Bool)}
    {lrec : Ref → M K V (List Link)} (hl : ∀ r, Reader (lrec r))
    (hr : ∀ u r s xs, MildOn visit xs u s → lrec r s = .ok (xs, s) → rec u r s = visitAll visit xs u s) (l : Ref) (tm : BitVec 32) (n i : Nat) (pm : BitVec 32) (u : U) (s : St K V)
    (xs : List Link) (hp : MildOn visit xs u s) (hx : listItems lrec l tm n i pm s = .ok (xs, s)) : scanItems visit rec l tm n i pm u s = visitAll visit xs u s := by
  induction n generalizing i pm u s xs with
  | zero => cases hx; rfl
  | succ n ih =>
    rw [listItems_succ] at hx
    obtain ⟨lk, s1, e1, hx⟩ := bind_ok_some hx
    have h1 := ((Reader.load _).ok e1).1
    rw [h1] at e1 hx
    obtain ⟨zs, s2, e2, hx⟩ := bind_ok_some hx
    have hR : Reader (if tm &&& bitOf (trailingZeros pm) ≠ 0#32 then load ⟨lk.ptr, i⟩ >>= fun x => pure [x] else lrec ⟨lk.ptr, i⟩ : M K V (List Link)) :=
      Reader.ite (Reader.bind (Reader.load _) fun x => Reader.pure _) (hl _)
    have h2 := (hR.ok e2).1
    rw [h2] at e2 hx
    obtain ⟨ys, s3, e3, hx⟩ := bind_ok_some hx
    have hR' := Reader.listItems hl l tm n (i + 1) (pm &&& ~~~bitOf (trailingZeros pm))
    have h3 := (hR'.ok e3).1
    rw [h3] at e3 hx
    cases hx
    obtain ⟨hp1, hp2⟩ := hp.append
    have hitem : (if tm &&& bitOf (trailingZeros pm) ≠ 0#32 then load ⟨lk.ptr, i⟩ >>= fun x => visit u x else rec u ⟨lk.ptr, i⟩) s = visitAll visit zs u s := by
      split
      · rename_i ht
        rw [if_pos ht] at e2
        obtain ⟨x, s4, e4, e2⟩ := bind_ok_some e2
        have h4 := ((Reader.load _).ok e4).1
        rw [h4] at e4 e2
        cases e2
        rw [bind_ok e4]
        show visit u x s = (visit u x >>= fun r => if r.2 = true then pure (r.1, true) else pure (r.1, false)) s
        rw [bind_run]
        cases visit u x s with
        | error y => rfl
        | ok r =>
          obtain ⟨⟨u', g⟩, s'⟩ := r
          cases g <;> rfl
      · rename_i ht
        rw [if_neg ht] at e2
        exact hr _ _ _ _ hp1 e2
    rw [scanItems_succ, bind_ok e1, visitAll_append]
    refine bind_congr_at hitem fun r s4 e4 => ?_
    by_cases hq : r.2 = true
    · rw [if_pos hq, if_pos hq]
      exact ih _ _ _ _ _ (hp2 _ _ e4 hq) ((hR'.ok e3).2 _ (hp1.shape e4))
    · rw [if_neg hq, if_neg hq]

/-- A scan is a loop over the items, as they are in the beginning. -/
theorem scan_between {visit : U → Link → M K V (U × Bool)} (fuel : Nat) (u : U) (l : Ref) (s : St K V) (xs : List Link)
    (hp : MildOn visit xs u s) (hx : listScan fuel l s = .ok (xs, s)) : scan visit fuel u l s = visitAll visit xs u s := by
  induction fuel generalizing u l s xs with
  | zero => cases hx
  | succ fuel ih =>
    rw [listScan] at hx
    obtain ⟨lk, s1, e1, hx⟩ := bind_ok_some hx
    have h1 := ((Reader.load _).ok e1).1
    rw [h1] at e1 hx
    rw [scan, bind_ok e1]
    exact scanItems_between (Reader.listScan fuel) (fun u r s xs => ih u r s xs) _ _ _ _ _ _ _ _ hp hx

/-- Call a program on keys and addresses in order until it returns false. -/
def callOn (f : U → K → Ptr → M K V (U × Bool)) : List (K × Ptr) → U → M K V (U × Bool)
  | [], u => pure (u, true)
  | e :: es, u => f u e.1 e.2 >>= fun r => if r.2 = true then callOn f es r.1 else pure (r.1, false)

/-- Every call, in the loop over the entries, changes only values. -/
def MildCalls (f : U → K → Ptr → M K V (U × Bool)) : List (K × Ptr) → U → St K V → Prop
  | [], _, _ => True
  | e :: es, u, s => ∀ r s', f u e.1 e.2 s = .ok (r, s') → SameShape s s' ∧ (r.2 = true → MildCalls f es r.1 s')

/-- The keys of the items, and the addresses given to the callback (`g` of the addresses: none for the sets). -/
def Keys (c : Cfg K) (g : Ptr → Ptr) (s : St K V) : List Link → List (K × Ptr) → Prop
  | [], es => es = []
  | x :: xs, es => ∃ k es', es = (k, g x.ptr) :: es' ∧ readKey c x s = .ok (k, s) ∧ Keys c g s xs es'

theorem Keys.shape {c : Cfg K} {g : Ptr → Ptr} {s s' : St K V} (h : SameShape s s') {xs : List Link} {es : List (K × Ptr)} (hk : Keys c g s xs es) : Keys c g s' xs es := by
  induction xs generalizing es with
  | nil => exact hk
  | cons x xs ih =>
    obtain ⟨k, es', h1, h2, h3⟩ := hk
    exact ⟨k, es', h1, ((Reader.readKey c x).ok h2).2 _ h, ih h3⟩

/-- Keep the keys and the addresses. -/
def keepKeys (L : List (K × Ptr)) (k : K) (p : Ptr) : M K V (List (K × Ptr) × Bool) := pure (L ++ [(k, p)], true)

theorem visitAll_keys {c : Cfg K} {g : Ptr → Ptr} {s : St K V} {xs : List Link} : ∀ {L : List (K × Ptr)} {r : List (K × Ptr) × Bool} {s' : St K V},
    visitAll (visitMapM c fun L k p => keepKeys L k (g p)) xs L s = .ok (r, s') → s' = s ∧ ∃ es, r = (L ++ es, true) ∧ Keys c g s xs es := by
  induction xs with
  | nil => intro L r s' e; cases e; exact ⟨rfl, [], by simp, rfl⟩
  | cons x xs ih =>
    intro L r s' e
    rw [visitAll, visitMapM, bind_assoc_M] at e
    obtain ⟨k, s1, e1, e⟩ := bind_ok_some e
    have h1 := ((Reader.readKey c x).ok e1).1
    rw [h1] at e1 e
    obtain ⟨h2, es, h3, h4⟩ := ih (L := L ++ [(k, g x.ptr)]) e
    exact ⟨h2, (k, g x.ptr) :: es, by rw [h3]; simp, k, es, rfl, e1, h4⟩

theorem visitAll_callOn {c : Cfg K} {g : Ptr → Ptr} {f : U → K → Ptr → M K V (U × Bool)}
    {xs : List Link} : ∀ {es : List (K × Ptr)} {u : U} {s : St K V}, MildCalls f es u s → Keys c g s xs es →
      visitAll (visitMapM c fun u k p => f u k (g p)) xs u s = callOn f es u s := by
  induction xs with
  | nil => intro es u s hp hk; cases hk; rfl
  | cons x xs ih =>
    intro es u s hp hk
    obtain ⟨k, es', h1, h2, h3⟩ := hk
    rw [h1] at hp
    rw [h1, visitAll, callOn, visitMapM, bind_assoc_M, bind_ok h2]
    refine bind_congr_at rfl fun r s1 e => ?_
    obtain ⟨g1, g2⟩ := hp _ _ e
    by_cases hq : r.2 = true
    · rw [if_pos hq, if_pos hq]
      exact ih (g2 hq) (h3.shape g1)
    · rw [if_neg hq, if_neg hq]

theorem MildCalls.on {c : Cfg K} {g : Ptr → Ptr} {f : U → K → Ptr → M K V (U × Bool)} {xs : List Link} :
    ∀ {es : List (K × Ptr)} {u : U} {s : St K V}, MildCalls f es u s → Keys c g s xs es → MildOn (visitMapM c fun u k p => f u k (g p)) xs u s := by
  induction xs with
  | nil => intro es u s hp hk; trivial
  | cons x xs ih =>
    intro es u s hp hk r s' e
    obtain ⟨k, es', h1, h2, h3⟩ := hk
    rw [h1] at hp
    rw [visitMapM, bind_ok h2] at e
    obtain ⟨g1, g2⟩ := hp _ _ e
    exact ⟨g1, fun hq => ih (g2 hq) (h3.shape g1)⟩

theorem keepKeys_mild {c : Cfg K} {g : Ptr → Ptr} {xs : List Link} : ∀ {L : List (K × Ptr)} {s : St K V}, MildOn (visitMapM c fun L k p => keepKeys L k (g p)) xs L s := by
  induction xs with
  | nil => intro L s; trivial
  | cons x xs ih =>
    intro L s r s' e
    obtain ⟨k, s1, e1, e⟩ := bind_ok_some e
    have h1 := ((Reader.readKey c x).ok e1).1
    rw [h1] at e
    cases e
    exact ⟨SameShape.refl _, fun _ => ih⟩

/-- If a scan that collects the keys and addresses ends, any scan whose callback changes only values is the loop over what was collected. -/
theorem scan_loop (c : Cfg K) (g : Ptr → Ptr) {f : U → K → Ptr → M K V (U × Bool)} (fuel : Nat) (l : Ref) {s s' : St K V} {r : List (K × Ptr) × Bool}
    (hs : scan (visitMapM c fun L k p => keepKeys L k (g p)) fuel [] l s = .ok (r, s')) {u : U} (hf : MildCalls f r.1 u s) :
    scan (visitMapM c fun u k p => f u k (g p)) fuel u l s = callOn f r.1 u s := by
  have hv : Mild (visitMapM c fun L k p => (keepKeys L k (g p) : M K V _)) := by
    intro u x s r s' e
    exact (keepKeys_mild (xs := [x]) (L := u) (s := s) r s' e).1
  obtain ⟨xs, h1, _, h3⟩ := scan_ok hv fuel [] l s r s' hs
  have hgo : ∀ {xs : List Link} {L : List (K × Ptr)} {s s' : St K V} {r}, Visits (visitMapM c fun L k p => keepKeys L k (g p)) xs L s r s' → r.2 = true := by
    intro xs
    induction xs with
    | nil => intro L s s' r h; rw [h.1]
    | cons x xs ih =>
      intro L s s' r h
      obtain ⟨u1, go, s1, e1, e2⟩ := h
      obtain ⟨k, s2, e3, e1⟩ := bind_ok_some e1
      cases e1
      exact ih e2
  have hl := h3 (hgo h1)
  rw [scan_between fuel [] l s xs keepKeys_mild hl] at hs
  obtain ⟨_, es, h5, h6⟩ := visitAll_keys hs
  rw [h5] at hf ⊢
  rw [scan_between fuel u l s xs (MildCalls.on hf h6) hl, visitAll_callOn hf h6]

/-- What holds of the state of the callback holds of the result, and if the callback changes only values, so does the scan. -/
theorem scanItems_keeps {P : U → Prop} {Q : St K V → St K V → Prop} (hq : ∀ s, Q s s) (ht : ∀ {s s' s''}, Q s s' → Q s' s'' → Q s s'')
    {visit : U → Link → M K V (U × Bool)} {rec : U → Ref → M K V (U × Bool)}
    (hv : ∀ u x s r s', P u → visit u x s = .ok (r, s') → P r.1 ∧ Q s s') (hr : ∀ u x s r s', P u → rec u x s = .ok (r, s') → P r.1 ∧ Q s s')
    (l : Ref) (tm : BitVec 32) (n i : Nat) (pm : BitVec 32) (u : U) (s : St K V) (r : U × Bool) (s' : St K V) (hp : P u)
    (e : scanItems visit rec l tm n i pm u s = .ok (r, s')) : P r.1 ∧ Q s s' := by
  induction n generalizing i pm u s with
  | zero => cases e; exact ⟨hp, hq _⟩
  | succ n ih =>
    rw [scanItems_succ] at e
    obtain ⟨lk, s1, e1, e⟩ := bind_ok_some e
    have h1 := ((Reader.load _).ok e1).1
    rw [h1] at e
    obtain ⟨q, s2, e2, e⟩ := bind_ok_some e
    have h2 : P q.1 ∧ Q s s2 := by
      split at e2
      · obtain ⟨x, s3, e3, e2⟩ := bind_ok_some e2
        have h3 := ((Reader.load _).ok e3).1
        rw [h3] at e2
        exact hv _ _ _ _ _ hp e2
      · exact hr _ _ _ _ _ hp e2
    split at e
    · obtain ⟨h4, h5⟩ := ih _ _ _ _ h2.1 e
      exact ⟨h4, ht h2.2 h5⟩
    · cases e; exact h2

theorem scan_keeps {P : U → Prop} {Q : St K V → St K V → Prop} (hq : ∀ s, Q s s) (ht : ∀ {s s' s''}, Q s s' → Q s' s'' → Q s s'')
    {visit : U → Link → M K V (U × Bool)} (hv : ∀ u x s r s', P u → visit u x s = .ok (r, s') → P r.1 ∧ Q s s') (fuel : Nat) :
    ∀ (u : U) (l : Ref) (s : St K V) (r : U × Bool) (s' : St K V), P u → scan visit fuel u l s = .ok (r, s') → P r.1 ∧ Q s s' := by
  induction fuel with
  | zero => intro u l s r s' hp e; cases e
  | succ fuel ih =>
    intro u l s r s' hp e
    rw [scan] at e
    obtain ⟨lk, s1, e1, e⟩ := bind_ok_some e
    have h1 := ((Reader.load _).ok e1).1
    rw [h1] at e
    exact scanItems_keeps hq ht hv ih _ _ _ _ _ _ _ _ _ hp e

end

/-! ### What a callback returns is what `Mod` returns -/

section
variable {K V R α β : Type} {P : α → Prop}

/-- Every result satisfies `P`. -/
def Yields (P : α → Prop) (x : M K V α) : Prop := ∀ s a s', x s = .ok (a, s') → P a

theorem Yields.pure {a : α} (h : P a) : Yields P (Pure.pure a : M K V α) := by
  intro s b s' e; cases e; exact h

theorem Yields.bind {Q : β → Prop} {x : M K V β} {f : β → M K V α} (h : Yields Q x) (hf : ∀ b, Q b → Yields P (f b)) : Yields P (x >>= f) := by
  intro s a s' e
  obtain ⟨b, s1, e1, e2⟩ := bind_ok_some e
  exact hf b (h _ _ _ e1) _ _ _ e2

theorem Yields.seq {x : M K V β} {f : β → M K V α} (hf : ∀ b, Yields P (f b)) : Yields P (x >>= f) :=
  Yields.bind (Q := fun _ => True) (fun _ _ _ _ => trivial) fun b _ => hf b

theorem Yields.ite {p : Prop} [Decidable p] {x y : M K V α} (hx : Yields P x) (hy : Yields P y) : Yields P (if p then x else y) := by
  split
  · exact hx
  · exact hy

variable {ins : Ins K V α}

theorem Yields.split (c : Cfg K) (sd : Seed) (h : Nat) (key ckey : K) (cptr : Ptr) (hn : Yields (fun r : Ptr × α => P r.2) ins.newSplit) (fuel : Nat) :
    ∀ (item : Ref) (d : Nat) (hd chd : BitVec 64) (w cw : Nat), Yields P (split c sd h key ckey cptr ins fuel item d hd chd w cw) := by
  induction fuel with
  | zero => intro item d hd chd w cw s a s' e; cases e
  | succ fuel ih =>
    intro item d hd chd w cw
    rw [Amt.split]
    refine Yields.seq fun _ => Yields.ite ?_ ?_
    · refine Yields.seq fun _ => Yields.seq fun _ => Yields.seq fun _ => Yields.bind hn fun r hr => ?_
      refine Yields.seq fun _ => Yields.ite ?_ ?_ <;> exact Yields.seq fun _ => Yields.seq fun _ => Yields.seq fun _ => Yields.pure hr
    · exact Yields.seq fun _ => Yields.seq fun _ => ih _ _ _ _ _ _

theorem Yields.upsert (c : Cfg K) (h fuel : Nat) (key : K) (hn : Yields (fun r : Ptr × α => P r.2) ins.newSplit)
    (hs : Yields (fun r : Ptr × α => P r.2) ins.newSlot) (hh : ∀ p, Yields P (ins.hit p)) : Yields P (upsert c h fuel key ins) := by
  unfold Amt.upsert
  refine Yields.seq fun r => Yields.seq fun cur => Yields.ite ?_ ?_
  · unfold conflict
    refine Yields.seq fun item => Yields.seq fun x => Yields.seq fun ckey => Yields.ite (hh _) (Yields.seq fun q => Yields.ite ?_ ?_)
    · exact Yields.bind hs fun r hr => Yields.seq fun _ => Yields.pure hr
    · exact Yields.seq fun _ => Yields.seq fun _ => Yields.split c _ h key ckey _ hn fuel _ _ _ _ _ _
  · unfold insertSlot
    refine Yields.seq fun lk => Yields.bind hs fun r hr => Yields.seq fun lk' => Yields.ite ?_ ?_
    · exact Yields.seq fun _ => Yields.seq fun _ => Yields.seq fun _ => Yields.seq fun _ => Yields.pure hr
    · exact Yields.seq fun _ => Yields.seq fun _ => Yields.seq fun _ => Yields.seq fun _ => Yields.seq fun _ => Yields.seq fun _ => Yields.seq fun _ => Yields.pure hr

end

/-! ### Calls that change only values -/

section
variable {K V α β : Type}

/-- The program changes only values. -/
def SoftP (x : M K V α) : Prop := ∀ s a s', x s = .ok (a, s') → SameShape s s'

theorem SoftP.bind {x : M K V α} {f : α → M K V β} (h1 : SoftP x) (h2 : ∀ a, SoftP (f a)) : SoftP (x >>= f) := by
  intro s b s' e
  obtain ⟨a, s1, e1, e2⟩ := bind_ok_some e
  exact (h1 _ _ _ e1).trans (h2 _ _ _ _ e2)

theorem SoftP.pure (a : α) : SoftP (Pure.pure a : M K V α) := by
  intro s b s' e; cases e; exact SameShape.refl _

theorem SoftP.reader {x : M K V α} (h : Reader x) : SoftP x := by
  intro s a s' e
  rw [(h.ok e).1]; exact SameShape.refl _

theorem SoftP.loadKv (p : Ptr) : SoftP (loadKv p : M K V (Option K × V)) := by
  intro s a s' e
  rcases loadKv_cases p s with ⟨b, k, v, rfl, hm⟩ | ⟨x, h1, _⟩
  · rw [loadKv_ok hm] at e; cases e; exact SameShape.refl _
  · rw [h1] at e; cases e

theorem SoftP.storeVal (p : Ptr) (w : V) : SoftP (storeVal p w : M K V Unit) := by
  intro s a s' e
  rcases loadKv_cases p s with ⟨b, k, v, rfl, hm⟩ | ⟨x, _, h1⟩
  · rw [storeVal_ok hm] at e; cases e; exact SameShape.put hm w
  · rw [h1] at e; cases e

theorem SoftP.scan {U : Type} {visit : U → Link → M K V (U × Bool)} (hv : ∀ u x, SoftP (visit u x)) (fuel : Nat) (u : U) (l : Ref) : SoftP (scan visit fuel u l) := by
  intro s a s' e
  exact (scan_keeps (P := fun _ => True) (Q := SameShape) SameShape.refl SameShape.trans (fun u x s r s' _ e => ⟨trivial, hv u x s r s' e⟩) fuel u l s a s' trivial e).2

theorem SoftP.Len (m : Handle) : SoftP (MapImpl.Len m : M K V (BitVec 64)) := by
  cases m with
  | none => exact SoftP.pure _
  | some h => exact SoftP.bind (SoftP.reader (Reader.getRoot h)) fun _ => SoftP.pure _

theorem SoftP.Dep (m : Handle) : SoftP (MapImpl.Dep m : M K V Rat) := by
  cases m with
  | none => exact SoftP.pure _
  | some h =>
    refine SoftP.bind (SoftP.reader (Reader.getRoot h)) fun r => ?_
    split <;> exact SoftP.pure _

/-- Calls of a map that neither add nor remove a key, whatever is stored. -/
def MOp.Calm : MOp K V → Prop
  | .set _ _ | .mod _ _ | .del _ => False
  | _ => True

def SOp.Calm : SOp K → Prop
  | .add _ | .del _ => False
  | _ => True

theorem MOp.Calm.soft [Inhabited V] (I : MapImpl K V) (fuel : Nat) (m : Handle) {op : MOp K V} (hop : MOp.Calm op) : SoftP (I.exec fuel m op) := by
  have hp : ∀ k, SoftP (I.Ptr fuel m k) := fun k => SoftP.reader (Reader.Ptr I fuel m k)
  cases op with
  | set k v => exact hop.elim
  | mod k f => exact hop.elim
  | del k => exact hop.elim
  | get k =>
    refine SoftP.bind (SoftP.bind (hp k) fun p => ?_) fun _ => SoftP.pure _
    cases p with
    | none => exact SoftP.pure _
    | some p => exact SoftP.bind (SoftP.loadKv p) fun _ => SoftP.pure _
  | val k =>
    refine SoftP.bind ?_ fun _ => SoftP.pure _
    cases m with
    | none => exact SoftP.pure _
    | some h =>
    refine SoftP.bind (hp k) fun p => ?_
    cases p with
    | none => exact SoftP.pure _
    | some p => exact SoftP.bind (SoftP.loadKv p) fun _ => SoftP.pure _
  | ptr k =>
    refine SoftP.bind (hp k) fun p => ?_
    cases p with
    | none => exact SoftP.pure _
    | some p => exact SoftP.bind (SoftP.loadKv p) fun _ => SoftP.pure _
  | write k v =>
    refine SoftP.bind (hp k) fun p => ?_
    cases p with
    | none => exact SoftP.pure _
    | some p => exact SoftP.bind (SoftP.storeVal p v) fun _ => SoftP.pure _
  | len => exact SoftP.bind (SoftP.Len m) fun _ => SoftP.pure _
  | dep => exact SoftP.bind (SoftP.Dep m) fun _ => SoftP.pure _
  | all f =>
    refine SoftP.bind (SoftP.bind (SoftP.reader (Reader.deref m)) fun h => SoftP.bind (SoftP.scan (fun u x => ?_) _ _ _) fun _ => SoftP.pure _) fun _ => SoftP.pure _
    exact SoftP.bind (SoftP.reader (Reader.readKey _ x)) fun k => SoftP.bind (SoftP.loadKv _) fun kv => SoftP.bind (SoftP.storeVal _ _) fun _ => SoftP.pure _

theorem SOp.Calm.soft (I : SetImpl K) (fuel : Nat) (m : Handle) {op : SOp K} (hop : SOp.Calm op) : SoftP (I.exec fuel m op) := by
  cases op with
  | add k => exact hop.elim
  | del k => exact hop.elim
  | has k => exact SoftP.bind (SoftP.bind (SoftP.reader (Reader.deref m)) fun h => SoftP.bind (SoftP.reader (Reader.lookup _ h fuel k)) fun _ => SoftP.pure _) fun _ => SoftP.pure _
  | len => exact SoftP.bind (SoftP.Len m) fun _ => SoftP.pure _
  | dep => exact SoftP.bind (SoftP.Dep m) fun _ => SoftP.pure _
  | all f =>
    refine SoftP.bind (SoftP.bind (SoftP.reader (Reader.deref m)) fun h => SoftP.bind (SoftP.scan (fun u x => ?_) _ _ _) fun _ => SoftP.pure _) fun _ => SoftP.pure _
    exact SoftP.bind (SoftP.reader (Reader.readKey _ x)) fun k => SoftP.pure _

end

/-! ### Programs -/

section
variable {ι K V Op Out X U : Type}

/-- What is used of the kinds of containers. -/
structure KindLoop (κ : Kind K V Op Out X) (calm : Op → Prop) : Prop where
  /-- `All` is a loop over what a collecting callback gets, as long as only values change. -/
  loop : ∀ {U : Type} {h : Nat} {f : U → K → Ptr → M K V (U × Bool)} {u : U} {s s' : St K V} {L : List (K × Ptr)},
    κ.all (some h) keepKeys [] s = .ok (L, s') → MildCalls f L u s → κ.all (some h) f u s = (callOn f L u >>= fun r => pure r.1) s
  keeps : ∀ {U : Type} {h : Nat} {P : U → Prop} {Q : St K V → St K V → Prop} {f : U → K → Ptr → M K V (U × Bool)} {u u' : U} {s s' : St K V},
    (∀ s, Q s s) → (∀ {s s' s''}, Q s s' → Q s' s'' → Q s s'') →
    (∀ u k p s r s', P u → f u k p s = .ok (r, s') → P r.1 ∧ Q s s') → P u → κ.all (some h) f u s = .ok (u', s') → P u' ∧ Q s s'
  yields : ∀ {R : Type} {h : Nat} {P : R → Prop} {x : X} {f : Ptr → Bool → M K V R}, (∀ p b, Yields P (f p b)) → Yields P (κ.mod (some h) x f)
  ptr : ∀ {h : Nat} {x : X}, SoftP (κ.ptr (some h) x)
  calm : ∀ {h : Nat} {op : Op}, calm op → SoftP (κ.exec (some h) op)

theorem all_loop (c : Cfg K) (g : Ptr → Ptr) (fuel h : Nat) {f : U → K → Ptr → M K V (U × Bool)} {u : U} {s s' : St K V} {L : List (K × Ptr)}
    (hs : (scan (visitMapM c fun L k p => keepKeys L k (g p)) fuel [] ⟨.blk h, 0⟩ >>= fun r => pure r.1) s = .ok (L, s')) (hf : MildCalls f L u s) :
    (scan (visitMapM c fun u k p => f u k (g p)) fuel u ⟨.blk h, 0⟩ >>= fun r => pure r.1) s = (callOn f L u >>= fun r => pure r.1) s := by
  obtain ⟨r, s1, e1, e2⟩ := bind_ok_some hs
  cases e2
  exact bind_congr_at (scan_loop c g fuel _ e1 hf) fun a s1 _ => rfl

theorem all_keeps (c : Cfg K) (fuel h : Nat) {P : U → Prop} {Q : St K V → St K V → Prop} (hq : ∀ s, Q s s) (ht : ∀ {s s' s''}, Q s s' → Q s' s'' → Q s s'')
    (hr : ∀ s s', SameShape s s' → s = s' → Q s s') {f : U → K → Ptr → M K V (U × Bool)} {u u' : U} {s s' : St K V}
    (hf : ∀ u k p s r s', P u → f u k p s = .ok (r, s') → P r.1 ∧ Q s s') (hp : P u)
    (e : (scan (visitMapM c f) fuel u ⟨.blk h, 0⟩ >>= fun r => pure r.1) s = .ok (u', s')) : P u' ∧ Q s s' := by
  obtain ⟨r, s1, e1, e2⟩ := bind_ok_some e
  cases e2
  refine scan_keeps hq ht ?_ fuel u _ s r _ hp e1
  intro u x s r s' hp e
  obtain ⟨k, s1, e1, e⟩ := bind_ok_some e
  rw [((Reader.readKey c x).ok e1).1] at e
  exact hf _ _ _ _ _ _ hp e

theorem MapImpl.kind_loop [Inhabited V] (I : MapImpl K V) (fuel : Nat) : KindLoop (I.kind fuel) MOp.Calm where
  loop := by
    intro U h f u s s' L hs hf
    exact all_loop I.cfg id fuel h hs hf
  keeps := by
    intro U h P Q f u u' s s' hq ht hf hp e
    exact all_keeps I.cfg fuel h hq ht (fun s s' _ h => h ▸ hq s) hf hp e
  yields := by
    intro R h P x f hf
    have hn : Yields (fun r : Amt.Ptr × R => P r.2) (newKv I.cfg x default >>= fun p => f p false >>= fun r => Pure.pure (p, r)) :=
      Yields.seq fun p => Yields.bind (hf p false) fun r hr => Yields.pure hr
    exact Yields.upsert I.cfg h fuel x hn hn fun p => hf p true
  ptr := SoftP.reader (Reader.Ptr I fuel _ _)
  calm := fun h => h.soft I fuel _

theorem SetImpl.kind_loop (I : SetImpl K) (fuel : Nat) : KindLoop (I.kind fuel) SOp.Calm where
  loop := by
    intro U h f u s s' L hs hf
    exact all_loop I.cfg (fun _ => .nil) fuel h hs hf
  keeps := by
    intro U h P Q f u u' s s' hq ht hf hp e
    exact all_keeps (f := fun u k _ => f u k .nil) I.cfg fuel h hq ht (fun s s' _ h => h ▸ hq s) (fun u k p => hf u k .nil) hp e
  yields := by
    intro R h P x
    exact x.elim
  ptr := by
    intro h x
    exact x.elim
  calm := fun h => h.soft I fuel _

/-- Run the callback on entries, given by their keys and addresses, one after the other. -/
def loopOver (κ : ι → Kind K V Op Out X) (c : Nat) (f : U → K → Nat → Prog ι K V Op Out X (U × Bool)) : List (K × Ptr) → U → Worlds ι K V → Except Fault (U × Worlds ι K V)
  | [], u, w => .ok (u, w)
  | e :: es, u, w => andThen (runApart κ (f u e.1 w.ptrs.length) (w.hold c e.2)) fun r w' => if r.2 = true then loopOver κ c f es r.1 w' else .ok (r.1, w')

/-- The structure of the container `c` is left alone between the visits: only values change. -/
def Steady (κ : ι → Kind K V Op Out X) (c : Nat) (f : U → K → Nat → Prog ι K V Op Out X (U × Bool)) : List (K × Ptr) → U → Worlds ι K V → Prop
  | [], _, _ => True
  | e :: es, u, w => ∀ r w', runApart κ (f u e.1 w.ptrs.length) (w.hold c e.2) = .ok (r, w') →
    SameShape (w.mem c) (w'.mem c) ∧ (r.2 = true → Steady κ c f es r.1 w')

/-- What `runApart` gives to `All`. -/
def liftCall (κ : ι → Kind K V Op Out X) (c : Nat) (f : U → K → Nat → Prog ι K V Op Out X (U × Bool)) (uw : U × Worlds ι K V) (key : K) (p : Ptr) :
    M K V ((U × Worlds ι K V) × Bool) := fun t =>
  andThen (runApart κ (f uw.1 key uw.2.ptrs.length) ((uw.2.put c t).hold c p)) fun r w' => .ok (((r.1, w'), r.2), w'.mem c)

theorem liftCall_ok {κ : ι → Kind K V Op Out X} {c : Nat} {f : U → K → Nat → Prog ι K V Op Out X (U × Bool)} {uw : U × Worlds ι K V} {key : K} {p : Ptr} {t : St K V}
    {r : (U × Worlds ι K V) × Bool} {t' : St K V} (e : liftCall κ c f uw key p t = .ok (r, t')) :
    runApart κ (f uw.1 key (uw.2.put c t).ptrs.length) ((uw.2.put c t).hold c p) = .ok ((r.1.1, r.2), r.1.2) ∧ t' = r.1.2.mem c := by
  unfold liftCall at e
  rw [show (uw.2.put c t).ptrs.length = uw.2.ptrs.length from rfl]
  cases hx : runApart κ (f uw.1 key uw.2.ptrs.length) ((uw.2.put c t).hold c p) with
  | error x => rw [hx] at e; cases e
  | ok q => rw [hx] at e; cases e; exact ⟨rfl, rfl⟩

theorem Steady.mild {κ : ι → Kind K V Op Out X} {c : Nat} {f : U → K → Nat → Prog ι K V Op Out X (U × Bool)} {L : List (K × Ptr)} :
    ∀ {u : U} {w : Worlds ι K V} {t : St K V}, Steady κ c f L u (w.put c t) → MildCalls (liftCall κ c f) L (u, w) t := by
  induction L with
  | nil => intro u w t _; trivial
  | cons e es ih =>
    intro u w t hs r s' he
    obtain ⟨h1, h2⟩ := liftCall_ok he
    obtain ⟨h3, h4⟩ := hs _ _ h1
    rw [Worlds.put_mem] at h3
    rw [h2]
    refine ⟨h3, fun hq => ih ?_⟩
    rw [Worlds.put_self]
    exact h4 hq

theorem callOn_between {β : Type} {κ : ι → Kind K V Op Out X} {c : Nat} {f : U → K → Nat → Prog ι K V Op Out X (U × Bool)} (G : U → Worlds ι K V → Except Fault β)
    {L : List (K × Ptr)} : ∀ {u : U} {w : Worlds ι K V} {t : St K V},
      andThen ((callOn (liftCall κ c f) L (u, w) >>= fun r => pure r.1) t) (fun r t' => G r.1 (r.2.put c t')) = andThen (loopOver κ c f L u (w.put c t)) G := by
  induction L with
  | nil => intro u w t; rfl
  | cons e es ih =>
    intro u w t
    rw [callOn, loopOver, bind_assoc_M, bind_run]
    show _ = andThen (andThen (runApart κ (f u e.1 w.ptrs.length) ((w.put c t).hold c e.2)) _) _
    unfold liftCall
    cases hx : runApart κ (f u e.1 w.ptrs.length) ((w.put c t).hold c e.2) with
    | error x => rfl
    | ok q =>
      obtain ⟨⟨u', b⟩, w'⟩ := q
      cases b with
      | false => show G u' (w'.put c (w'.mem c)) = G u' w'; rw [Worlds.put_self]
      | true =>
        have h1 := ih (u := u') (w := w') (t := w'.mem c)
        rw [Worlds.put_self] at h1
        exact h1

/-- If the collecting iteration ends, any iteration that leaves the structure of the container alone is the loop. -/
theorem all_between {κ : ι → Kind K V Op Out X} {calm : Op → Prop} {c : Nat} {i : ι} (hκ : KindLoop (κ i) calm) {R : Type} {f : U → K → Nat → Prog ι K V Op Out X (U × Bool)} {u : U}
    (k : U → Prog ι K V Op Out X R) {w : Worlds ι K V} {h : Nat} (hw : w.objs[c]? = some (i, h)) {L : List (K × Ptr)} {t : St K V}
    (hL : (κ i).all (some h) keepKeys [] (w.mem c) = .ok (L, t)) (hs : Steady κ c f L u w) :
    runApart κ (.all c f u k) w = andThen (loopOver κ c f L u w) fun u' w' => runApart κ (k u') w' := by
  rw [runApart, hw]
  dsimp only
  have hm : MildCalls (liftCall κ c f) L (u, w) (w.mem c) := Steady.mild (by rw [Worlds.put_self]; exact hs)
  have h1 := hκ.loop (f := liftCall κ c f) hL hm
  have h2 := callOn_between (κ := κ) (c := c) (f := f) (fun u' w' => runApart κ (k u') w') (L := L) (u := u) (w := w) (t := w.mem c)
  rw [Worlds.put_self, ← h1] at h2
  exact h2

/-- A program that neither adds nor removes keys in the container `c`: of the calls of `c` only those that cannot.  Everything is allowed with other containers,
and assigning to values. -/
def Avoids (calm : Op → Prop) (c : Nat) : {R : Type} → Prog ι K V Op Out X R → Prop
  | _, .ret _ => True
  | _, .stop _ => True
  | _, .new _ _ k => ∀ n, Avoids calm c (k n)
  | _, .call c' op k => (c' = c → calm op) ∧ ∀ o, Avoids calm c (k o)
  | _, .ptr _ _ k => ∀ p, Avoids calm c (k p)
  | _, .read _ k => ∀ v, Avoids calm c (k v)
  | _, .write _ _ k => Avoids calm c k
  | _, .all _ f _ k => (∀ u key n, Avoids calm c (f u key n)) ∧ ∀ u, Avoids calm c (k u)
  | _, .mod c' _ f k => c' ≠ c ∧ (∀ n b, Avoids calm c (f n b)) ∧ ∀ a, Avoids calm c (k a)

/-- From `w` to `w'` the structure of `c`, which exists, has been left alone. -/
def Calmly (c : Nat) (w w' : Worlds ι K V) : Prop := c < w'.objs.length ∧ SameShape (w.mem c) (w'.mem c)

theorem Calmly.trans {c : Nat} {w w' w'' : Worlds ι K V} (h1 : Calmly c w w') (h2 : Calmly c w' w'') : Calmly c w w'' := ⟨h2.1, h1.2.trans h2.2⟩

theorem Calmly.put {c : Nat} {w : Worlds ι K V} (hc : c < w.objs.length) (c' : Nat) {t : St K V} (h : c' = c → SameShape (w.mem c) t) : Calmly c w (w.put c' t) := by
  refine ⟨hc, ?_⟩
  show SameShape (w.mem c) (if c = c' then t else w.mem c)
  split
  · exact h (Eq.symm ‹_›)
  · exact SameShape.refl _

theorem andThen_ok {α β σ : Type} {x : Except Fault (α × σ)} {g : α → σ → Except Fault β} {b : β} (h : andThen x g = .ok b) : ∃ a s, x = .ok (a, s) ∧ g a s = .ok b := by
  cases x with
  | error e => cases h
  | ok q => exact ⟨q.1, q.2, rfl, h⟩

/-- Such a program leaves the structure of `c` alone. -/
theorem Avoids.calmly {κ : ι → Kind K V Op Out X} {calm : Op → Prop} (hκ : ∀ i, KindLoop (κ i) calm) {c : Nat} {R : Type} (p : Prog ι K V Op Out X R) :
    ∀ {w : Worlds ι K V} {r : R} {w' : Worlds ι K V}, Avoids calm c p → c < w.objs.length → runApart κ p w = .ok (r, w') → Calmly c w w' := by
  induction p with
  | ret r => intro w r w' _ hc e; cases e; exact ⟨hc, SameShape.refl _⟩
  | stop x => intro w r w' _ hc e; cases e
  | new i sd k ih =>
    intro w r w' ha hc e
    rw [runApart] at e
    obtain ⟨m, t, e1, e2⟩ := andThen_ok e
    cases m with
    | none => cases e2
    | some h =>
      have h1 : c < (w.create i h t).objs.length := by simp only [Worlds.create, List.length_append]; omega
      refine Calmly.trans ⟨h1, ?_⟩ (ih _ (ha _) h1 e2)
      show SameShape (w.mem c) (if c = w.objs.length then t else w.mem c)
      rw [if_neg (Nat.ne_of_lt hc)]
      exact SameShape.refl _
  | call c' op k ih =>
    intro w r w' ha hc e
    rw [runApart] at e
    cases hx : w.objs[c']? with
    | none => rw [hx] at e; cases e
    | some ih' =>
      rw [hx] at e
      obtain ⟨o, t, e1, e2⟩ := andThen_ok e
      have h1 : Calmly c w (w.put c' t) := Calmly.put hc c' fun h => by
        rw [← h]
        exact (hκ ih'.1).calm (ha.1 h) _ _ _ e1
      exact h1.trans (ih _ (ha.2 _) h1.1 e2)
  | ptr c' x k ih =>
    intro w r w' ha hc e
    rw [runApart] at e
    cases hx : w.objs[c']? with
    | none => rw [hx] at e; cases e
    | some ih' =>
      rw [hx] at e
      obtain ⟨o, t, e1, e2⟩ := andThen_ok e
      have h1 : Calmly c w (w.put c' t) := Calmly.put hc c' fun h => by
        rw [← h]
        exact (hκ ih'.1).ptr _ _ _ e1
      cases o with
      | none => exact h1.trans (ih _ (ha _) h1.1 e2)
      | some p => exact h1.trans (ih (some w.ptrs.length) (w := (w.put c' t).hold c' p) (ha _) h1.1 e2)
  | read j k ih =>
    intro w r w' ha hc e
    rw [runApart] at e
    cases hx : w.ptrs[j]? with
    | none => rw [hx] at e; cases e
    | some q =>
      rw [hx] at e
      obtain ⟨o, t, e1, e2⟩ := andThen_ok e
      have h1 : Calmly c w (w.put q.1 t) := Calmly.put hc q.1 fun h => by
        rw [← h]
        exact SoftP.loadKv _ _ _ _ e1
      exact h1.trans (ih _ (ha _) h1.1 e2)
  | write j v k ih =>
    intro w r w' ha hc e
    rw [runApart] at e
    cases hx : w.ptrs[j]? with
    | none => rw [hx] at e; cases e
    | some q =>
      rw [hx] at e
      obtain ⟨o, t, e1, e2⟩ := andThen_ok e
      have h1 : Calmly c w (w.put q.1 t) := Calmly.put hc q.1 fun h => by
        rw [← h]
        exact SoftP.storeVal _ _ _ _ _ e1
      exact h1.trans (ih ha h1.1 e2)
  | @all U R c' f u k ihf ihk =>
    intro w r w' ha hc e
    rw [runApart] at e
    cases hx : w.objs[c']? with
    | none => rw [hx] at e; cases e
    | some q =>
      obtain ⟨i, h⟩ := q
      rw [hx] at e
      obtain ⟨⟨u1, w1⟩, t, e1, e2⟩ := andThen_ok e
      have e1 : (κ i).all (some h) (liftCall κ c' f) (u, w) (w.mem c') = .ok ((u1, w1), t) := e1
      have hstep : ∀ (uw : U × Worlds ι K V) key p s r s', c < uw.2.objs.length → liftCall κ c' f uw key p s = .ok (r, s') → Calmly c (uw.2.put c' s) r.1.2 := by
        intro uw key p s r s' hc' he
        obtain ⟨h1, h2⟩ := liftCall_ok he
        exact ihf _ _ _ (w := (uw.2.put c' s).hold c' p) (ha.1 _ _ _) hc' h1
      have h1 : Calmly c w (w1.put c' t) := by
        by_cases hcc : c' = c
        · obtain ⟨g1, g2⟩ := (hκ i).keeps (P := fun uw => c < uw.2.objs.length) (Q := SameShape) SameShape.refl SameShape.trans (fun uw key p s r s' hp he => by
            have g := hstep uw key p s r s' hp he
            refine ⟨g.1, ?_⟩
            have g2 := g.2
            rw [hcc, Worlds.put_mem] at g2
            rw [(liftCall_ok he).2, hcc]
            exact g2) hc e1
          refine ⟨g1, ?_⟩
          rw [hcc, Worlds.put_mem, ← hcc]
          exact g2
        · obtain ⟨g1, _⟩ := (hκ i).keeps (P := fun uw => Calmly c w uw.2) (Q := fun _ _ => True) (fun _ => trivial) (fun _ _ => trivial) (fun uw key p s r s' hp he => by
            have g := hstep uw key p s r s' hp.1 he
            exact ⟨hp.trans ((Calmly.put hp.1 c' fun h => absurd h hcc).trans g), trivial⟩) ⟨hc, SameShape.refl _⟩ e1
          exact g1.trans (Calmly.put g1.1 c' fun h => absurd h hcc)
      exact h1.trans (ihk _ (ha.2 _) h1.1 e2)
  | @mod A R c' x f k ihf ihk =>
    intro w r w' ha hc e
    rw [runApart] at e
    cases hx : w.objs[c']? with
    | none => rw [hx] at e; cases e
    | some q =>
      obtain ⟨i, h⟩ := q
      rw [hx] at e
      obtain ⟨⟨a1, w1⟩, t, e1, e2⟩ := andThen_ok e
      have g1 := (hκ i).yields (P := fun rw' : A × Worlds ι K V => Calmly c w rw'.2) (fun p b s r s' he => by
        obtain ⟨r1, w2, e3, e4⟩ := andThen_ok he
        cases e4
        have h1 : Calmly c w (w.put c' s) := Calmly.put hc c' fun h => absurd h ha.1
        exact h1.trans (ihf _ _ (w := (w.put c' s).hold c' p) (ha.2.1 _ _) h1.1 e3)) _ _ _ e1
      have h1 : Calmly c w (w1.put c' t) := g1.trans (Calmly.put g1.1 c' fun h => absurd h ha.1)
      exact h1.trans (ihk _ (ha.2.2 _) h1.1 e2)

theorem Avoids.steady {κ : ι → Kind K V Op Out X} {calm : Op → Prop} (hκ : ∀ i, KindLoop (κ i) calm) {c : Nat} {f : U → K → Nat → Prog ι K V Op Out X (U × Bool)}
    (hf : ∀ u key n, Avoids calm c (f u key n)) {L : List (K × Ptr)} : ∀ {u : U} {w : Worlds ι K V}, c < w.objs.length → Steady κ c f L u w := by
  induction L with
  | nil => intro u w _; trivial
  | cons e es ih =>
    intro u w hc r w' he
    have h1 := Avoids.calmly hκ _ (w := w.hold c e.2) (hf _ _ _) hc he
    exact ⟨h1.2, fun _ => ih h1.1⟩

/-- C44 on all histories (and C43 but for calls that could add or remove keys): the callback of `All` on the map `c` does anything with other maps, and reads and assigns values of `c`.
If a plain iteration over `c` would end at that moment, with the entries `L`, then the iteration is the loop over `L`: the callback runs once for each entry in order, between
the visits, until it returns false, and the program goes on with the result. -/
theorem C44_any_map [Inhabited V] (I : ι → MapImpl K V) (fuel : Nat) {c : Nat} {i : ι} {h : Nat} {w : Worlds ι K V} (hw : w.objs[c]? = some (i, h))
    {L : List (K × Ptr)} {t : St K V} (hL : (I i).AllWith fuel (some h) (fun L k p => pure (L ++ [(k, p)], true)) [] (w.mem c) = .ok (L, t))
    {R : Type} {f : U → K → Nat → Prog ι K V (MOp K V) (MOut K V) K (U × Bool)} (hf : ∀ u key n, Avoids MOp.Calm c (f u key n)) (u : U)
    (k : U → Prog ι K V (MOp K V) (MOut K V) K R) :
    runApart (fun i => (I i).kind fuel) (.all c f u k) w =
      andThen (loopOver (fun i => (I i).kind fuel) c f L u w) fun u' w' => runApart (fun i => (I i).kind fuel) (k u') w' :=
  all_between (κ := fun i => (I i).kind fuel) (MapImpl.kind_loop (I i) fuel) k hw hL (Avoids.steady (fun i => MapImpl.kind_loop (I i) fuel) hf (List.getElem?_eq_some_iff.1 hw).1)

/-- C44 on all histories, for the sets. -/
theorem C44_any_set (I : ι → SetImpl K) (fuel : Nat) {c : Nat} {i : ι} {h : Nat} {w : Worlds ι K Unit} (hw : w.objs[c]? = some (i, h))
    {L : List (K × Ptr)} {t : St K Unit} (hL : (I i).AllWith fuel (some h) (fun L k => pure (L ++ [(k, .nil)], true)) [] (w.mem c) = .ok (L, t))
    {R : Type} {f : U → K → Nat → Prog ι K Unit (SOp K) (SOut K) Empty (U × Bool)} (hf : ∀ u key n, Avoids SOp.Calm c (f u key n)) (u : U)
    (k : U → Prog ι K Unit (SOp K) (SOut K) Empty R) :
    runApart (fun i => (I i).kind fuel) (.all c f u k) w =
      andThen (loopOver (fun i => (I i).kind fuel) c f L u w) fun u' w' => runApart (fun i => (I i).kind fuel) (k u') w' :=
  all_between (κ := fun i => (I i).kind fuel) (SetImpl.kind_loop (I i) fuel) k hw hL (Avoids.steady (fun i => SetImpl.kind_loop (I i) fuel) hf (List.getElem?_eq_some_iff.1 hw).1)

end

/-! ### A case -/

/-- A `StringMap` and a `BytesMap`. -/
def exKinds (b : Bool) : MapImpl ByteStr Nat := if b then BytesMap toyHash else StringMap toyHash

theorem exKinds_ok (b : Bool) : ∃ g, IsMap (exKinds b) g := by
  cases b
  · exact ⟨_, .string toyHash⟩
  · exact ⟨_, .bytes toyHash⟩

/-- Move what is in container 0 to container 1: the callback looks the key up in the other container and assigns through the pointer that it gets and through the one it has
got from there; missing keys are added there, and one key is deleted. -/
def exMove (u : List Nat) (key : ByteStr) (p : Nat) : Prog Bool ByteStr Nat (MOp ByteStr Nat) (MOut ByteStr Nat) ByteStr (List Nat × Bool) :=
  .read p fun v => .ptr 1 key fun
    | some q => .read q fun x => .write p (v + x) (.write q 0 (.call 1 (.del key) fun _ => .ret (u ++ [v, x], true)))
    | none => .call 1 (.set key v) fun _ => .ret (u ++ [v], true)

def exFillBoth (k : Prog Bool ByteStr Nat (MOp ByteStr Nat) (MOut ByteStr Nat) ByteStr (List Nat)) : Prog Bool ByteStr Nat (MOp ByteStr Nat) (MOut ByteStr Nat) ByteStr (List Nat) :=
  .new false 0#64 fun a => .new true 1#64 fun b => .call a (.set [1] 10) fun _ => .call a (.set [0x11] 20) fun _ => .call a (.set [2] 30) fun _ => .call b (.set [1] 5) fun _ => k

def exMoveProg : Prog Bool ByteStr Nat (MOp ByteStr Nat) (MOut ByteStr Nat) ByteStr (List Nat) :=
  exFillBoth (.all 0 exMove [] fun u => .ptr 0 [1] fun
    | some q => .read q fun x => .mod 1 [7] (fun p _ => .write p x (.all 0 (fun n _ p => .read p fun v => .ret (n + v, true)) 0 fun n => .ret n)) fun n => .ret (u ++ [x, n])
    | none => .ret u)


-- C67: the program sees the same in one memory as in two.
example : outcome (outcome (run (fun i => (exKinds i).kind 256) exMoveProg EnvW.none St.init)) = outcome (runApart (fun i => (exKinds i).kind 256) exMoveProg Worlds.none) :=
  C67_map exKinds exKinds_ok 256 exMoveProg St.init
example : (outcome (runApart (fun i => (exKinds i).kind 256) exMoveProg Worlds.none)).toOption = some [10, 5, 20, 30, 15, 65] := by decide +kernel

-- C44: what the iteration gets there.
example : ((runApart (fun i => (exKinds i).kind 256) (exFillBoth (.ret [])) Worlds.none).toOption.bind fun r =>
    (((exKinds false).AllWith 256 (some 0) (fun L k p => pure (L ++ [(k, p)], true)) [] (r.2.mem 0)).toOption.map fun q => (r.2.objs, q.1.map Prod.fst))) =
      some ([(false, 0), (true, 0)], [[0x01], [0x11], [0x02]]) := by decide +kernel
example (u : List Nat) (key : ByteStr) (n : Nat) : Avoids MOp.Calm 0 (exMove u key n) := by
  intro v q
  cases q with
  | none => exact ⟨nofun, fun _ => trivial⟩
  | some q => exact fun x => ⟨nofun, fun _ => trivial⟩

end Amt
