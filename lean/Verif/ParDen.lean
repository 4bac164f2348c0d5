/-
The trees of `ParStringMap`, ... denote the translated programs of `GoStringMap`, ...
-/
import Verif.ParStringMap
import Verif.GoStringMap
import Verif.ParBytesMap
import Verif.GoBytesMap
import Verif.ParArrMap
import Verif.GoArrMap
import Verif.ParIntMap
import Verif.GoIntMap
import Verif.ParMap
import Verif.GoMap
import Verif.ParStringSet
import Verif.GoStringSet
import Verif.ParBytesSet
import Verif.GoBytesSet
import Verif.ParArrSet
import Verif.GoArrSet
import Verif.ParIntSet
import Verif.GoIntSet
import Verif.ParSet
import Verif.GoSet

set_option linter.unusedVariables false

namespace Amt.Par
open Amt

section
variable {K V α β : Type}

/-- What a program does when it runs alone. -/
def T.denote : T K V α → M K V α
  | .ret a => pure a
  | .fail e => M.fail e
  | .load r k => do (k (← Amt.load r)).denote
  | .store r x k => do Amt.store r x; k.denote
  | .put r w k => do modLink r w.put; k.denote
  | .alloc o k => do (k (← Amt.alloc o)).denote
  | .loadKv p k => do (k (← Amt.loadKv p)).denote
  | .storeVal p v k => do Amt.storeVal p v; k.denote
  | .getRoot h k => do (k (← Amt.getRoot h)).denote
  | .modRoot h f k => do Amt.modRoot h f; k.denote

/-- `t` is the tree of `p`. -/
structure Den (t : T K V α) (p : M K V α) : Prop where
  eq : t.denote = p

theorem M.bind_assoc' {γ : Type} (x : M K V α) (f : α → M K V β) (g : β → M K V γ) : ((x >>= f) >>= g) = (x >>= fun a => f a >>= g) := by
  funext s
  rw [bind_run, bind_run, bind_run]
  cases x s with
  | error e => rfl
  | ok r => rfl

theorem T.denote_bind (t : T K V α) (f : α → T K V β) : (t >>= f).denote = (t.denote >>= fun a => (f a).denote) := by
  show (T.bind t f).denote = _
  induction t with
  | ret a => rfl
  | fail e => rfl
  | load r k ih => simp only [T.bind, T.denote, M.bind_assoc', ih]
  | store r x k ih => simp only [T.bind, T.denote, M.bind_assoc', ih]
  | put r x k ih => simp only [T.bind, T.denote, M.bind_assoc', ih]
  | alloc r k ih => simp only [T.bind, T.denote, M.bind_assoc', ih]
  | loadKv r k ih => simp only [T.bind, T.denote, M.bind_assoc', ih]
  | storeVal r x k ih => simp only [T.bind, T.denote, M.bind_assoc', ih]
  | getRoot r k ih => simp only [T.bind, T.denote, M.bind_assoc', ih]
  | modRoot r x k ih => simp only [T.bind, T.denote, M.bind_assoc', ih]

/-- Writing the three words of a link writes the link. -/
theorem put_all (r : Ref) (x : Link) : (modLink r (Word.ptr x.ptr).put >>= fun _ => modLink r (Word.pmap x.pmap).put >>= fun _ =>
    modLink r (Word.tmap x.tmap).put >>= fun _ => pure () : M K V Unit) = Amt.store r x := by
  funext s
  obtain ⟨b, i⟩ := r
  cases b with
  | nil => rfl
  | blk b =>
    rcases e : s.mem b with _ | ⟨xs⟩ | ⟨k, v⟩
    · simp [modLink, Amt.load, Amt.store, bind, M.bind, e]
    · by_cases hi : i < xs.length
      · simp [modLink, Amt.load, Amt.store, bind, M.bind, pure, M.pure, e, hi, Word.put]
        funext a
        split <;> rfl
      · simp [modLink, Amt.load, Amt.store, bind, M.bind, e, hi]
    · simp [modLink, Amt.load, Amt.store, bind, M.bind, e]

namespace Den

theorem bind {t : T K V α} {p : M K V α} {f : α → T K V β} {g : α → M K V β} (h : Den t p) (hf : ∀ a, Den (f a) (g a)) : Den (t >>= f) (p >>= g) :=
  ⟨by rw [T.denote_bind, h.eq]; exact congrArg (p >>= ·) (funext fun a => (hf a).eq)⟩

theorem pure (a : α) : Den (K := K) (V := V) (Pure.pure a) (Pure.pure a) := ⟨rfl⟩
theorem fail (e : Fault) : Den (K := K) (V := V) (α := α) (T.fail e) (M.fail e) := ⟨rfl⟩

theorem bind_pure (p : M K V α) : (p >>= fun a => Pure.pure a) = p := by
  funext s
  show (match p s with | .error e => .error e | .ok (a, s') => .ok (a, s')) = p s
  cases p s with
  | error e => rfl
  | ok r => rfl

theorem load (r : Ref) : Den (K := K) (V := V) (Par.load r) (Amt.load r) := ⟨by
  funext s
  show (Amt.load r >>= fun x => Amt.load r >>= fun y => Amt.load r >>= fun z => Pure.pure { ptr := x.ptr, pmap := y.pmap, tmap := z.tmap }) s = Amt.load r s
  have h : ∀ x s', Amt.load r s = .ok (x, s') → s' = s := by
    intro x s' e
    unfold Amt.load at e
    split at e
    · cases e
    · split at e
      · cases e
      · cases e
      · split at e
        · cases e
        · cases e; rfl
  rw [bind_run]
  cases e : Amt.load r s with
  | error e => rfl
  | ok a =>
    obtain ⟨x, s'⟩ := a
    cases h _ _ e
    show (Amt.load r >>= fun y => _) s = _
    rw [bind_run, e]
    show (Amt.load r >>= fun y => _) s = _
    rw [bind_run, e]
    rfl⟩
theorem store (r : Ref) (x : Link) : Den (K := K) (V := V) (Par.store r x) (Amt.store r x) := ⟨put_all r x⟩
theorem setPtr (r : Ref) (x : Ptr) : Den (K := K) (V := V) (Par.setPtr r x) (Go.setPtr r x) := ⟨bind_pure _⟩
theorem setPmap (r : Ref) (x : BitVec 32) : Den (K := K) (V := V) (Par.setPmap r x) (Go.setPmap r x) := ⟨bind_pure _⟩
theorem setTmap (r : Ref) (x : BitVec 32) : Den (K := K) (V := V) (Par.setTmap r x) (Go.setTmap r x) := ⟨bind_pure _⟩
theorem alloc (o : Obj K V) : Den (Par.alloc o) (Amt.alloc o) := ⟨bind_pure _⟩
theorem loadKv (p : Ptr) : Den (K := K) (V := V) (Par.loadKv p) (Amt.loadKv p) := ⟨bind_pure _⟩
theorem storeVal (p : Ptr) (v : V) : Den (K := K) (Par.storeVal p v) (Amt.storeVal p v) := ⟨bind_pure _⟩
theorem getRoot (h : Nat) : Den (K := K) (V := V) (Par.getRoot h) (Amt.getRoot h) := ⟨bind_pure _⟩
theorem modRoot (h : Nat) (f : Meta → Meta) : Den (K := K) (V := V) (Par.modRoot h f) (Amt.modRoot h f) := ⟨bind_pure _⟩
theorem modLen (h : Nat) (f : BitVec 64 → BitVec 64) : Den (K := K) (V := V) (Par.modLen h f) (Amt.modRoot h fun r => { r with len := f r.len }) := ⟨by
  funext s
  refine congrArg (fun g => Except.ok ((), { s with roots := g })) (funext fun a => ?_)
  by_cases e : a = h
  · subst e; rw [if_pos rfl]
  · rw [if_neg e, if_neg e]⟩
theorem modDep (h : Nat) (f : BitVec 64 → BitVec 64) : Den (K := K) (V := V) (Par.modDep h f) (Amt.modRoot h fun r => { r with dep := f r.dep }) := ⟨by
  funext s
  refine congrArg (fun g => Except.ok ((), { s with roots := g })) (funext fun a => ?_)
  by_cases e : a = h
  · subst e; rw [if_pos rfl]
  · rw [if_neg e, if_neg e]⟩
theorem deref (m : Handle) : Den (K := K) (V := V) (Par.deref m) (Amt.deref m) := by
  cases m <;> exact ⟨rfl⟩

theorem ite {c : Prop} [Decidable c] {t t' : T K V α} {p p' : M K V α} (h : Den t p) (h' : Den t' p') : Den (if c then t else t') (if c then p else p') := by
  split <;> assumption

theorem loop {σ : Type} {f : σ → T K V (ForInStep σ)} {g : σ → M K V (ForInStep σ)} (h : ∀ s, Den (f s) (g s)) : ∀ n s, Den (Par.loop f n s) (Go.loop g n s)
  | 0, _ => ⟨rfl⟩
  | n + 1, s => bind (h s) fun r => by
    cases r with
    | done s => exact pure s
    | yield s => exact loop h n s

theorem forIn {σ : Type} {f : Unit → σ → T K V (ForInStep σ)} {g : Unit → σ → M K V (ForInStep σ)} (h : ∀ u s, Den (f u s) (g u s)) (b : Go.Budget) (s : σ) :
    Den (ForIn.forIn b s f) (ForIn.forIn b s g) := loop (h ()) b.n s

theorem newLinkArray (c : BitVec 8) : Den (K := K) (V := V) (Par.newLinkArray c) (Go.newLinkArray c) :=
  ite (bind (alloc _) pure) (ite (bind (alloc _) pure) (ite (bind (alloc _) pure) (bind (alloc _) pure)))

theorem kvKey (p : Ptr) : Den (K := K) (V := V) (Par.kvKey p) (Go.kvKey p) := bind (loadKv p) fun r => by
  cases r.1 with
  | none => exact fail _
  | some k => exact pure k

theorem kvVal (p : Ptr) : Den (K := K) (V := V) (Par.kvVal p) (Go.kvVal p) := bind (loadKv p) fun r => pure _

theorem fieldAddr (p : Ptr) : Den (K := K) (V := V) (Par.fieldAddr p) (Go.fieldAddr p) := by
  cases p with
  | nil => exact fail _
  | blk b => exact pure _

theorem andM {x y : T K V Bool} {x' y' : M K V Bool} (h : Den x x') (h' : Den y y') : Den (Par.andM x y) (Go.andM x' y') :=
  bind h fun _ => ite h' (pure _)

theorem ofRoot (h : Nat) (l : List PathLink) : Den (K := K) (V := V) (Slice.ofRootT h l) (Slice.ofRoot h l) := pure _

theorem linkAt (p : Slice) (d : BitVec 8) : Den (K := K) (V := V) (p.linkAtT d) (p.linkAt d) := by
  unfold Slice.linkAtT Slice.linkAt
  rcases p.view[d.toNat]? with _ | ⟨_, _ | _⟩
  · exact fail _
  · exact pure _
  · exact pure _

theorem radixAt (p : Slice) (d : BitVec 8) : Den (K := K) (V := V) (p.radixAtT d) (p.radixAt d) := by
  unfold Slice.radixAtT Slice.radixAt
  rcases p.view[d.toNat]? with _ | ⟨_, _⟩
  · exact fail _
  · exact pure _

theorem clearAt (p : Slice) (d : BitVec 8) : Den (K := K) (V := V) (p.clearAtT d) (p.clearAt d) := by
  unfold Slice.clearAtT Slice.clearAt Slice.clear
  refine ite ?_ (fail _)
  cases p.big <;> exact pure _

end Den
end

/-- Go through both programs. -/
macro "den_step" : tactic => `(tactic| first
  | with_reducible exact Den.pure _ | with_reducible exact Den.fail _ | with_reducible exact Den.load _ | with_reducible exact Den.store _ _
  | with_reducible exact Den.setPtr _ _ | with_reducible exact Den.setPmap _ _ | with_reducible exact Den.setTmap _ _ | with_reducible exact Den.alloc _
  | with_reducible exact Den.storeVal _ _ | with_reducible exact Den.getRoot _ | with_reducible exact Den.modLen _ _ | with_reducible exact Den.modDep _ _ | with_reducible exact Den.deref _
  | with_reducible exact Den.newLinkArray _ | with_reducible exact Den.kvKey _ | with_reducible exact Den.kvVal _ | with_reducible exact Den.fieldAddr _
  | with_reducible exact Den.ofRoot _ _ | with_reducible exact Den.linkAt _ _ | with_reducible exact Den.radixAt _ _ | with_reducible exact Den.clearAt _ _
  | assumption
  | with_reducible refine Den.bind ?_ fun _ => ?_
  | with_reducible refine Den.ite ?_ ?_
  | with_reducible refine Den.forIn (fun _ _ => ?_) _ _
  | with_reducible refine Den.andM ?_ ?_
  | split)

/-! ### The ten files -/

theorem StringMap.Ptr_den {V : Type} [Inhabited V] (sum : Maphash) (fuel : Nat) (m : Handle) (key : ByteStr) : Den (StringMap.Ptr sum fuel m key : T ByteStr V Amt.Ptr) (Go.StringMap.Ptr sum fuel m key) := by
  unfold StringMap.Ptr Go.StringMap.Ptr
  dsimp only
  repeat' den_step

theorem StringMap.Get_den {V : Type} [Inhabited V] (sum : Maphash) (fuel : Nat) (m : Handle) (key : ByteStr) : Den (StringMap.Get sum fuel m key : T ByteStr V (V × Bool)) (Go.StringMap.Get sum fuel m key) := by
  unfold StringMap.Get Go.StringMap.Get
  dsimp only
  repeat' (first | exact StringMap.Ptr_den _ _ _ _ | den_step)

theorem StringMap.Val_den {V : Type} [Inhabited V] (sum : Maphash) (fuel : Nat) (m : Handle) (key : ByteStr) : Den (StringMap.Val sum fuel m key : T ByteStr V V) (Go.StringMap.Val sum fuel m key) := by
  unfold StringMap.Val Go.StringMap.Val
  dsimp only
  repeat' (first | exact StringMap.Ptr_den _ _ _ _ | den_step)

theorem StringMap.Set_den {V : Type} [Inhabited V] (sum : Maphash) (fuel : Nat) (m : Handle) (key : ByteStr) (value : V) : Den (StringMap.Set sum fuel m key value : T ByteStr V Unit) (Go.StringMap.Set sum fuel m key value) := by
  unfold StringMap.Set Go.StringMap.Set
  dsimp only
  repeat' den_step

theorem StringMap.Mod_den {V : Type} [Inhabited V] (sum : Maphash) {U : Type} (fuel : Nat) (m : Handle) (key : ByteStr) {cb : U → Amt.Ptr → Bool → T ByteStr V U} {cb' : U → Amt.Ptr → Bool → M ByteStr V U} (hcb : ∀ a b c, Den (cb a b c) (cb' a b c)) (u₀ : U) : Den (StringMap.Mod sum fuel m key cb u₀ : T ByteStr V U) (Go.StringMap.Mod sum fuel m key cb' u₀) := by
  unfold StringMap.Mod Go.StringMap.Mod
  dsimp only
  repeat' (first | exact hcb _ _ _ | den_step)

theorem StringMap.Del_den {V : Type} [Inhabited V] (sum : Maphash) (fuel : Nat) (m : Handle) (key : ByteStr) (scratch : List PathLink) : Den (StringMap.Del sum fuel m key scratch : T ByteStr V (List PathLink)) (Go.StringMap.Del sum fuel m key scratch) := by
  unfold StringMap.Del Go.StringMap.Del
  dsimp only
  repeat' den_step

theorem StringMap.stringScan_den {V U : Type} [Inhabited V] {cb : U → ByteStr → Amt.Ptr → T ByteStr V (U × Bool)} {cb' : U → ByteStr → Amt.Ptr → M ByteStr V (U × Bool)} (hcb : ∀ a b c, Den (cb a b c) (cb' a b c)) :
    ∀ n u l, Den (StringMap.stringScan cb n u l) (Go.StringMap.stringScan cb' n u l)
  | 0, _, _ => ⟨rfl⟩
  | n + 1, u, l => by
    have ih := StringMap.stringScan_den hcb n
    unfold StringMap.stringScan Go.StringMap.stringScan
    dsimp only
    repeat' (first | exact ih _ _ | exact hcb _ _ _ | den_step)

theorem StringMap.All_den {V : Type} [Inhabited V] {U : Type} (fuel : Nat) (m : Handle) {cb : U → ByteStr → Amt.Ptr → T ByteStr V (U × Bool)} {cb' : U → ByteStr → Amt.Ptr → M ByteStr V (U × Bool)} (hcb : ∀ a b c, Den (cb a b c) (cb' a b c)) (u : U) : Den (StringMap.All fuel m cb u : T ByteStr V U) (Go.StringMap.All fuel m cb' u) := by
  unfold StringMap.All Go.StringMap.All
  repeat' (first | exact StringMap.stringScan_den hcb _ _ _ | den_step)

theorem BytesMap.Ptr_den {V : Type} [Inhabited V] (sum : Maphash) (fuel : Nat) (m : Handle) (key : ByteStr) : Den (BytesMap.Ptr sum fuel m key : T ByteStr V Amt.Ptr) (Go.BytesMap.Ptr sum fuel m key) := by
  unfold BytesMap.Ptr Go.BytesMap.Ptr
  dsimp only
  repeat' den_step

theorem BytesMap.Get_den {V : Type} [Inhabited V] (sum : Maphash) (fuel : Nat) (m : Handle) (key : ByteStr) : Den (BytesMap.Get sum fuel m key : T ByteStr V (V × Bool)) (Go.BytesMap.Get sum fuel m key) := by
  unfold BytesMap.Get Go.BytesMap.Get
  dsimp only
  repeat' (first | exact BytesMap.Ptr_den _ _ _ _ | den_step)

theorem BytesMap.Val_den {V : Type} [Inhabited V] (sum : Maphash) (fuel : Nat) (m : Handle) (key : ByteStr) : Den (BytesMap.Val sum fuel m key : T ByteStr V V) (Go.BytesMap.Val sum fuel m key) := by
  unfold BytesMap.Val Go.BytesMap.Val
  dsimp only
  repeat' (first | exact BytesMap.Ptr_den _ _ _ _ | den_step)

theorem BytesMap.Set_den {V : Type} [Inhabited V] (sum : Maphash) (fuel : Nat) (m : Handle) (key : ByteStr) (value : V) : Den (BytesMap.Set sum fuel m key value : T ByteStr V Unit) (Go.BytesMap.Set sum fuel m key value) := by
  unfold BytesMap.Set Go.BytesMap.Set
  dsimp only
  repeat' den_step

theorem BytesMap.Mod_den {V : Type} [Inhabited V] (sum : Maphash) {U : Type} (fuel : Nat) (m : Handle) (key : ByteStr) {cb : U → Amt.Ptr → Bool → T ByteStr V U} {cb' : U → Amt.Ptr → Bool → M ByteStr V U} (hcb : ∀ a b c, Den (cb a b c) (cb' a b c)) (u₀ : U) : Den (BytesMap.Mod sum fuel m key cb u₀ : T ByteStr V U) (Go.BytesMap.Mod sum fuel m key cb' u₀) := by
  unfold BytesMap.Mod Go.BytesMap.Mod
  dsimp only
  repeat' (first | exact hcb _ _ _ | den_step)

theorem BytesMap.Del_den {V : Type} [Inhabited V] (sum : Maphash) (fuel : Nat) (m : Handle) (key : ByteStr) (scratch : List PathLink) : Den (BytesMap.Del sum fuel m key scratch : T ByteStr V (List PathLink)) (Go.BytesMap.Del sum fuel m key scratch) := by
  unfold BytesMap.Del Go.BytesMap.Del
  dsimp only
  repeat' den_step

theorem BytesMap.bytesScan_den {V U : Type} [Inhabited V] {cb : U → ByteStr → Amt.Ptr → T ByteStr V (U × Bool)} {cb' : U → ByteStr → Amt.Ptr → M ByteStr V (U × Bool)} (hcb : ∀ a b c, Den (cb a b c) (cb' a b c)) :
    ∀ n u l, Den (BytesMap.bytesScan cb n u l) (Go.BytesMap.bytesScan cb' n u l)
  | 0, _, _ => ⟨rfl⟩
  | n + 1, u, l => by
    have ih := BytesMap.bytesScan_den hcb n
    unfold BytesMap.bytesScan Go.BytesMap.bytesScan
    dsimp only
    repeat' (first | exact ih _ _ | exact hcb _ _ _ | den_step)

theorem BytesMap.All_den {V : Type} [Inhabited V] {U : Type} (fuel : Nat) (m : Handle) {cb : U → ByteStr → Amt.Ptr → T ByteStr V (U × Bool)} {cb' : U → ByteStr → Amt.Ptr → M ByteStr V (U × Bool)} (hcb : ∀ a b c, Den (cb a b c) (cb' a b c)) (u : U) : Den (BytesMap.All fuel m cb u : T ByteStr V U) (Go.BytesMap.All fuel m cb' u) := by
  unfold BytesMap.All Go.BytesMap.All
  repeat' (first | exact BytesMap.bytesScan_den hcb _ _ _ | den_step)

theorem ArrMap.Ptr_den {K V : Type} [DecidableEq K] [Inhabited V] (sum : Maphash) (keyBytes : K → List UInt8) (fuel : Nat) (m : Handle) (key : K) : Den (ArrMap.Ptr sum keyBytes fuel m key : T K V Amt.Ptr) (Go.ArrMap.Ptr sum keyBytes fuel m key) := by
  unfold ArrMap.Ptr Go.ArrMap.Ptr
  dsimp only
  repeat' den_step

theorem ArrMap.Get_den {K V : Type} [DecidableEq K] [Inhabited V] (sum : Maphash) (keyBytes : K → List UInt8) (fuel : Nat) (m : Handle) (key : K) : Den (ArrMap.Get sum keyBytes fuel m key : T K V (V × Bool)) (Go.ArrMap.Get sum keyBytes fuel m key) := by
  unfold ArrMap.Get Go.ArrMap.Get
  dsimp only
  repeat' (first | exact ArrMap.Ptr_den _ _ _ _ _ | den_step)

theorem ArrMap.Val_den {K V : Type} [DecidableEq K] [Inhabited V] (sum : Maphash) (keyBytes : K → List UInt8) (fuel : Nat) (m : Handle) (key : K) : Den (ArrMap.Val sum keyBytes fuel m key : T K V V) (Go.ArrMap.Val sum keyBytes fuel m key) := by
  unfold ArrMap.Val Go.ArrMap.Val
  dsimp only
  repeat' (first | exact ArrMap.Ptr_den _ _ _ _ _ | den_step)

theorem ArrMap.Set_den {K V : Type} [DecidableEq K] [Inhabited V] (sum : Maphash) (keyBytes : K → List UInt8) (fuel : Nat) (m : Handle) (key : K) (value : V) : Den (ArrMap.Set sum keyBytes fuel m key value : T K V Unit) (Go.ArrMap.Set sum keyBytes fuel m key value) := by
  unfold ArrMap.Set Go.ArrMap.Set
  dsimp only
  repeat' den_step

theorem ArrMap.Mod_den {K V : Type} [DecidableEq K] [Inhabited V] (sum : Maphash) (keyBytes : K → List UInt8) {U : Type} (fuel : Nat) (m : Handle) (key : K) {cb : U → Amt.Ptr → Bool → T K V U} {cb' : U → Amt.Ptr → Bool → M K V U} (hcb : ∀ a b c, Den (cb a b c) (cb' a b c)) (u₀ : U) : Den (ArrMap.Mod sum keyBytes fuel m key cb u₀ : T K V U) (Go.ArrMap.Mod sum keyBytes fuel m key cb' u₀) := by
  unfold ArrMap.Mod Go.ArrMap.Mod
  dsimp only
  repeat' (first | exact hcb _ _ _ | den_step)

theorem ArrMap.Del_den {K V : Type} [DecidableEq K] [Inhabited V] (sum : Maphash) (keyBytes : K → List UInt8) (fuel : Nat) (m : Handle) (key : K) (scratch : List PathLink) : Den (ArrMap.Del sum keyBytes fuel m key scratch : T K V (List PathLink)) (Go.ArrMap.Del sum keyBytes fuel m key scratch) := by
  unfold ArrMap.Del Go.ArrMap.Del
  dsimp only
  repeat' den_step

theorem ArrMap.arrScan_den {K V U : Type} [Inhabited V] {cb : U → K → Amt.Ptr → T K V (U × Bool)} {cb' : U → K → Amt.Ptr → M K V (U × Bool)} (hcb : ∀ a b c, Den (cb a b c) (cb' a b c)) :
    ∀ n u l, Den (ArrMap.arrScan cb n u l) (Go.ArrMap.arrScan cb' n u l)
  | 0, _, _ => ⟨rfl⟩
  | n + 1, u, l => by
    have ih := ArrMap.arrScan_den hcb n
    unfold ArrMap.arrScan Go.ArrMap.arrScan
    dsimp only
    repeat' (first | exact ih _ _ | exact hcb _ _ _ | den_step)

theorem ArrMap.All_den {K V : Type} [DecidableEq K] [Inhabited V] {U : Type} (fuel : Nat) (m : Handle) {cb : U → K → Amt.Ptr → T K V (U × Bool)} {cb' : U → K → Amt.Ptr → M K V (U × Bool)} (hcb : ∀ a b c, Den (cb a b c) (cb' a b c)) (u : U) : Den (ArrMap.All fuel m cb u : T K V U) (Go.ArrMap.All fuel m cb' u) := by
  unfold ArrMap.All Go.ArrMap.All
  repeat' (first | exact ArrMap.arrScan_den hcb _ _ _ | den_step)

theorem IntMap.Ptr_den {V : Type} [Inhabited V] (sum : Maphash) (fuel : Nat) (m : Handle) (key : IntKey) : Den (IntMap.Ptr sum fuel m key : T IntKey V Amt.Ptr) (Go.IntMap.Ptr sum fuel m key) := by
  unfold IntMap.Ptr Go.IntMap.Ptr
  dsimp only
  repeat' den_step

theorem IntMap.Get_den {V : Type} [Inhabited V] (sum : Maphash) (fuel : Nat) (m : Handle) (key : IntKey) : Den (IntMap.Get sum fuel m key : T IntKey V (V × Bool)) (Go.IntMap.Get sum fuel m key) := by
  unfold IntMap.Get Go.IntMap.Get
  dsimp only
  repeat' (first | exact IntMap.Ptr_den _ _ _ _ | den_step)

theorem IntMap.Val_den {V : Type} [Inhabited V] (sum : Maphash) (fuel : Nat) (m : Handle) (key : IntKey) : Den (IntMap.Val sum fuel m key : T IntKey V V) (Go.IntMap.Val sum fuel m key) := by
  unfold IntMap.Val Go.IntMap.Val
  dsimp only
  repeat' (first | exact IntMap.Ptr_den _ _ _ _ | den_step)

theorem IntMap.Set_den {V : Type} [Inhabited V] (sum : Maphash) (fuel : Nat) (m : Handle) (key : IntKey) (value : V) : Den (IntMap.Set sum fuel m key value : T IntKey V Unit) (Go.IntMap.Set sum fuel m key value) := by
  unfold IntMap.Set Go.IntMap.Set
  dsimp only
  repeat' den_step

theorem IntMap.Mod_den {V : Type} [Inhabited V] (sum : Maphash) {U : Type} (fuel : Nat) (m : Handle) (key : IntKey) {cb : U → Amt.Ptr → Bool → T IntKey V U} {cb' : U → Amt.Ptr → Bool → M IntKey V U} (hcb : ∀ a b c, Den (cb a b c) (cb' a b c)) (u₀ : U) : Den (IntMap.Mod sum fuel m key cb u₀ : T IntKey V U) (Go.IntMap.Mod sum fuel m key cb' u₀) := by
  unfold IntMap.Mod Go.IntMap.Mod
  dsimp only
  repeat' (first | exact hcb _ _ _ | den_step)

theorem IntMap.Del_den {V : Type} [Inhabited V] (sum : Maphash) (fuel : Nat) (m : Handle) (key : IntKey) (scratch : List PathLink) : Den (IntMap.Del sum fuel m key scratch : T IntKey V (List PathLink)) (Go.IntMap.Del sum fuel m key scratch) := by
  unfold IntMap.Del Go.IntMap.Del
  dsimp only
  repeat' den_step

theorem IntMap.intScan_den {V U : Type} [Inhabited V] {cb : U → IntKey → Amt.Ptr → T IntKey V (U × Bool)} {cb' : U → IntKey → Amt.Ptr → M IntKey V (U × Bool)} (hcb : ∀ a b c, Den (cb a b c) (cb' a b c)) :
    ∀ n u l, Den (IntMap.intScan cb n u l) (Go.IntMap.intScan cb' n u l)
  | 0, _, _ => ⟨rfl⟩
  | n + 1, u, l => by
    have ih := IntMap.intScan_den hcb n
    unfold IntMap.intScan Go.IntMap.intScan
    dsimp only
    repeat' (first | exact ih _ _ | exact hcb _ _ _ | den_step)

theorem IntMap.All_den {V : Type} [Inhabited V] {U : Type} (fuel : Nat) (m : Handle) {cb : U → IntKey → Amt.Ptr → T IntKey V (U × Bool)} {cb' : U → IntKey → Amt.Ptr → M IntKey V (U × Bool)} (hcb : ∀ a b c, Den (cb a b c) (cb' a b c)) (u : U) : Den (IntMap.All fuel m cb u : T IntKey V U) (Go.IntMap.All fuel m cb' u) := by
  unfold IntMap.All Go.IntMap.All
  repeat' (first | exact IntMap.intScan_den hcb _ _ _ | den_step)

theorem Map.Ptr_den {K V : Type} [Inhabited V] (I : KeyImpl K) (fuel : Nat) (m : Handle) (key : K) : Den (Map.Ptr I fuel m key : T K V Amt.Ptr) (Go.Map.Ptr I fuel m key) := by
  unfold Map.Ptr Go.Map.Ptr
  dsimp only
  repeat' den_step

theorem Map.Get_den {K V : Type} [Inhabited V] (I : KeyImpl K) (fuel : Nat) (m : Handle) (key : K) : Den (Map.Get I fuel m key : T K V (V × Bool)) (Go.Map.Get I fuel m key) := by
  unfold Map.Get Go.Map.Get
  dsimp only
  repeat' (first | exact Map.Ptr_den _ _ _ _ | den_step)

theorem Map.Val_den {K V : Type} [Inhabited V] (I : KeyImpl K) (fuel : Nat) (m : Handle) (key : K) : Den (Map.Val I fuel m key : T K V V) (Go.Map.Val I fuel m key) := by
  unfold Map.Val Go.Map.Val
  dsimp only
  repeat' (first | exact Map.Ptr_den _ _ _ _ | den_step)

theorem Map.Set_den {K V : Type} [Inhabited V] (I : KeyImpl K) (fuel : Nat) (m : Handle) (key : K) (value : V) : Den (Map.Set I fuel m key value : T K V Unit) (Go.Map.Set I fuel m key value) := by
  unfold Map.Set Go.Map.Set
  dsimp only
  repeat' den_step

theorem Map.Mod_den {K V : Type} [Inhabited V] (I : KeyImpl K) {U : Type} (fuel : Nat) (m : Handle) (key : K) {cb : U → Amt.Ptr → Bool → T K V U} {cb' : U → Amt.Ptr → Bool → M K V U} (hcb : ∀ a b c, Den (cb a b c) (cb' a b c)) (u₀ : U) : Den (Map.Mod I fuel m key cb u₀ : T K V U) (Go.Map.Mod I fuel m key cb' u₀) := by
  unfold Map.Mod Go.Map.Mod
  dsimp only
  repeat' (first | exact hcb _ _ _ | den_step)

theorem Map.Del_den {K V : Type} [Inhabited V] (I : KeyImpl K) (fuel : Nat) (m : Handle) (key : K) (scratch : List PathLink) : Den (Map.Del I fuel m key scratch : T K V (List PathLink)) (Go.Map.Del I fuel m key scratch) := by
  unfold Map.Del Go.Map.Del
  dsimp only
  repeat' den_step

theorem Map.mapScan_den {K V U : Type} [Inhabited V] {cb : U → K → Amt.Ptr → T K V (U × Bool)} {cb' : U → K → Amt.Ptr → M K V (U × Bool)} (hcb : ∀ a b c, Den (cb a b c) (cb' a b c)) :
    ∀ n u l, Den (Map.mapScan cb n u l) (Go.Map.mapScan cb' n u l)
  | 0, _, _ => ⟨rfl⟩
  | n + 1, u, l => by
    have ih := Map.mapScan_den hcb n
    unfold Map.mapScan Go.Map.mapScan
    dsimp only
    repeat' (first | exact ih _ _ | exact hcb _ _ _ | den_step)

theorem Map.All_den {K V : Type} [Inhabited V] {U : Type} (fuel : Nat) (m : Handle) {cb : U → K → Amt.Ptr → T K V (U × Bool)} {cb' : U → K → Amt.Ptr → M K V (U × Bool)} (hcb : ∀ a b c, Den (cb a b c) (cb' a b c)) (u : U) : Den (Map.All fuel m cb u : T K V U) (Go.Map.All fuel m cb' u) := by
  unfold Map.All Go.Map.All
  repeat' (first | exact Map.mapScan_den hcb _ _ _ | den_step)

theorem StringSet.Has_den (sum : Maphash) (fuel : Nat) (s : Handle) (key : ByteStr) : Den (StringSet.Has sum fuel s key : T ByteStr Unit Bool) (Go.StringSet.Has sum fuel s key) := by
  unfold StringSet.Has Go.StringSet.Has
  dsimp only
  repeat' den_step

theorem StringSet.Add_den (sum : Maphash) (fuel : Nat) (s : Handle) (key : ByteStr) : Den (StringSet.Add sum fuel s key : T ByteStr Unit Unit) (Go.StringSet.Add sum fuel s key) := by
  unfold StringSet.Add Go.StringSet.Add
  dsimp only
  repeat' den_step

theorem StringSet.Del_den (sum : Maphash) (fuel : Nat) (s : Handle) (key : ByteStr) (scratch : List PathLink) : Den (StringSet.Del sum fuel s key scratch : T ByteStr Unit (List PathLink)) (Go.StringSet.Del sum fuel s key scratch) := by
  unfold StringSet.Del Go.StringSet.Del
  dsimp only
  repeat' den_step

theorem StringSet.stringSetScan_den {U : Type} {cb : U → ByteStr → T ByteStr Unit (U × Bool)} {cb' : U → ByteStr → M ByteStr Unit (U × Bool)} (hcb : ∀ a b, Den (cb a b) (cb' a b)) :
    ∀ n u l, Den (StringSet.stringSetScan cb n u l) (Go.StringSet.stringSetScan cb' n u l)
  | 0, _, _ => ⟨rfl⟩
  | n + 1, u, l => by
    have ih := StringSet.stringSetScan_den hcb n
    unfold StringSet.stringSetScan Go.StringSet.stringSetScan
    dsimp only
    repeat' (first | exact ih _ _ | exact hcb _ _ | den_step)

theorem StringSet.All_den {U : Type} (fuel : Nat) (s : Handle) {cb : U → ByteStr → T ByteStr Unit (U × Bool)} {cb' : U → ByteStr → M ByteStr Unit (U × Bool)} (hcb : ∀ a b, Den (cb a b) (cb' a b)) (u : U) : Den (StringSet.All fuel s cb u : T ByteStr Unit U) (Go.StringSet.All fuel s cb' u) := by
  unfold StringSet.All Go.StringSet.All
  repeat' (first | exact StringSet.stringSetScan_den hcb _ _ _ | den_step)

theorem BytesSet.Has_den (sum : Maphash) (fuel : Nat) (s : Handle) (key : ByteStr) : Den (BytesSet.Has sum fuel s key : T ByteStr Unit Bool) (Go.BytesSet.Has sum fuel s key) := by
  unfold BytesSet.Has Go.BytesSet.Has
  dsimp only
  repeat' den_step

theorem BytesSet.Add_den (sum : Maphash) (fuel : Nat) (s : Handle) (key : ByteStr) : Den (BytesSet.Add sum fuel s key : T ByteStr Unit Unit) (Go.BytesSet.Add sum fuel s key) := by
  unfold BytesSet.Add Go.BytesSet.Add
  dsimp only
  repeat' den_step

theorem BytesSet.Del_den (sum : Maphash) (fuel : Nat) (s : Handle) (key : ByteStr) (scratch : List PathLink) : Den (BytesSet.Del sum fuel s key scratch : T ByteStr Unit (List PathLink)) (Go.BytesSet.Del sum fuel s key scratch) := by
  unfold BytesSet.Del Go.BytesSet.Del
  dsimp only
  repeat' den_step

theorem BytesSet.bytesSetScan_den {U : Type} {cb : U → ByteStr → T ByteStr Unit (U × Bool)} {cb' : U → ByteStr → M ByteStr Unit (U × Bool)} (hcb : ∀ a b, Den (cb a b) (cb' a b)) :
    ∀ n u l, Den (BytesSet.bytesSetScan cb n u l) (Go.BytesSet.bytesSetScan cb' n u l)
  | 0, _, _ => ⟨rfl⟩
  | n + 1, u, l => by
    have ih := BytesSet.bytesSetScan_den hcb n
    unfold BytesSet.bytesSetScan Go.BytesSet.bytesSetScan
    dsimp only
    repeat' (first | exact ih _ _ | exact hcb _ _ | den_step)

theorem BytesSet.All_den {U : Type} (fuel : Nat) (s : Handle) {cb : U → ByteStr → T ByteStr Unit (U × Bool)} {cb' : U → ByteStr → M ByteStr Unit (U × Bool)} (hcb : ∀ a b, Den (cb a b) (cb' a b)) (u : U) : Den (BytesSet.All fuel s cb u : T ByteStr Unit U) (Go.BytesSet.All fuel s cb' u) := by
  unfold BytesSet.All Go.BytesSet.All
  repeat' (first | exact BytesSet.bytesSetScan_den hcb _ _ _ | den_step)

theorem ArrSet.Has_den {K : Type} [DecidableEq K] (sum : Maphash) (keyBytes : K → List UInt8) (fuel : Nat) (s : Handle) (key : K) : Den (ArrSet.Has sum keyBytes fuel s key : T K Unit Bool) (Go.ArrSet.Has sum keyBytes fuel s key) := by
  unfold ArrSet.Has Go.ArrSet.Has
  dsimp only
  repeat' den_step

theorem ArrSet.Add_den {K : Type} [DecidableEq K] (sum : Maphash) (keyBytes : K → List UInt8) (fuel : Nat) (s : Handle) (key : K) : Den (ArrSet.Add sum keyBytes fuel s key : T K Unit Unit) (Go.ArrSet.Add sum keyBytes fuel s key) := by
  unfold ArrSet.Add Go.ArrSet.Add
  dsimp only
  repeat' den_step

theorem ArrSet.Del_den {K : Type} [DecidableEq K] (sum : Maphash) (keyBytes : K → List UInt8) (fuel : Nat) (s : Handle) (key : K) (scratch : List PathLink) : Den (ArrSet.Del sum keyBytes fuel s key scratch : T K Unit (List PathLink)) (Go.ArrSet.Del sum keyBytes fuel s key scratch) := by
  unfold ArrSet.Del Go.ArrSet.Del
  dsimp only
  repeat' den_step

theorem ArrSet.arrSetScan_den {K U : Type} {cb : U → K → T K Unit (U × Bool)} {cb' : U → K → M K Unit (U × Bool)} (hcb : ∀ a b, Den (cb a b) (cb' a b)) :
    ∀ n u l, Den (ArrSet.arrSetScan cb n u l) (Go.ArrSet.arrSetScan cb' n u l)
  | 0, _, _ => ⟨rfl⟩
  | n + 1, u, l => by
    have ih := ArrSet.arrSetScan_den hcb n
    unfold ArrSet.arrSetScan Go.ArrSet.arrSetScan
    dsimp only
    repeat' (first | exact ih _ _ | exact hcb _ _ | den_step)

theorem ArrSet.All_den {K : Type} [DecidableEq K] {U : Type} (fuel : Nat) (s : Handle) {cb : U → K → T K Unit (U × Bool)} {cb' : U → K → M K Unit (U × Bool)} (hcb : ∀ a b, Den (cb a b) (cb' a b)) (u : U) : Den (ArrSet.All fuel s cb u : T K Unit U) (Go.ArrSet.All fuel s cb' u) := by
  unfold ArrSet.All Go.ArrSet.All
  repeat' (first | exact ArrSet.arrSetScan_den hcb _ _ _ | den_step)

theorem IntSet.Has_den (sum : Maphash) (fuel : Nat) (s : Handle) (key : IntKey) : Den (IntSet.Has sum fuel s key : T IntKey Unit Bool) (Go.IntSet.Has sum fuel s key) := by
  unfold IntSet.Has Go.IntSet.Has
  dsimp only
  repeat' den_step

theorem IntSet.Add_den (sum : Maphash) (fuel : Nat) (s : Handle) (key : IntKey) : Den (IntSet.Add sum fuel s key : T IntKey Unit Unit) (Go.IntSet.Add sum fuel s key) := by
  unfold IntSet.Add Go.IntSet.Add
  dsimp only
  repeat' den_step

theorem IntSet.Del_den (sum : Maphash) (fuel : Nat) (s : Handle) (key : IntKey) (scratch : List PathLink) : Den (IntSet.Del sum fuel s key scratch : T IntKey Unit (List PathLink)) (Go.IntSet.Del sum fuel s key scratch) := by
  unfold IntSet.Del Go.IntSet.Del
  dsimp only
  repeat' den_step

theorem IntSet.intSetScan_den {U : Type} {cb : U → IntKey → T IntKey Unit (U × Bool)} {cb' : U → IntKey → M IntKey Unit (U × Bool)} (hcb : ∀ a b, Den (cb a b) (cb' a b)) :
    ∀ n u l, Den (IntSet.intSetScan cb n u l) (Go.IntSet.intSetScan cb' n u l)
  | 0, _, _ => ⟨rfl⟩
  | n + 1, u, l => by
    have ih := IntSet.intSetScan_den hcb n
    unfold IntSet.intSetScan Go.IntSet.intSetScan
    dsimp only
    repeat' (first | exact ih _ _ | exact hcb _ _ | den_step)

theorem IntSet.All_den {U : Type} (fuel : Nat) (s : Handle) {cb : U → IntKey → T IntKey Unit (U × Bool)} {cb' : U → IntKey → M IntKey Unit (U × Bool)} (hcb : ∀ a b, Den (cb a b) (cb' a b)) (u : U) : Den (IntSet.All fuel s cb u : T IntKey Unit U) (Go.IntSet.All fuel s cb' u) := by
  unfold IntSet.All Go.IntSet.All
  repeat' (first | exact IntSet.intSetScan_den hcb _ _ _ | den_step)

theorem Set.Has_den {K : Type} (I : KeyImpl K) (fuel : Nat) (s : Handle) (key : K) : Den (Set.Has I fuel s key : T K Unit Bool) (Go.Set.Has I fuel s key) := by
  unfold Set.Has Go.Set.Has
  dsimp only
  repeat' den_step

theorem Set.Add_den {K : Type} (I : KeyImpl K) (fuel : Nat) (s : Handle) (key : K) : Den (Set.Add I fuel s key : T K Unit Unit) (Go.Set.Add I fuel s key) := by
  unfold Set.Add Go.Set.Add
  dsimp only
  repeat' den_step

theorem Set.Del_den {K : Type} (I : KeyImpl K) (fuel : Nat) (s : Handle) (key : K) (scratch : List PathLink) : Den (Set.Del I fuel s key scratch : T K Unit (List PathLink)) (Go.Set.Del I fuel s key scratch) := by
  unfold Set.Del Go.Set.Del
  dsimp only
  repeat' den_step

theorem Set.setScan_den {K U : Type} {cb : U → K → T K Unit (U × Bool)} {cb' : U → K → M K Unit (U × Bool)} (hcb : ∀ a b, Den (cb a b) (cb' a b)) :
    ∀ n u l, Den (Set.setScan cb n u l) (Go.Set.setScan cb' n u l)
  | 0, _, _ => ⟨rfl⟩
  | n + 1, u, l => by
    have ih := Set.setScan_den hcb n
    unfold Set.setScan Go.Set.setScan
    dsimp only
    repeat' (first | exact ih _ _ | exact hcb _ _ | den_step)

theorem Set.All_den {K : Type} {U : Type} (fuel : Nat) (s : Handle) {cb : U → K → T K Unit (U × Bool)} {cb' : U → K → M K Unit (U × Bool)} (hcb : ∀ a b, Den (cb a b) (cb' a b)) (u : U) : Den (Set.All fuel s cb u : T K Unit U) (Go.Set.All fuel s cb' u) := by
  unfold Set.All Go.Set.All
  repeat' (first | exact Set.setScan_den hcb _ _ _ | den_step)


end Amt.Par
