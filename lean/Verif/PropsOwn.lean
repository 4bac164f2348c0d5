/-
Goroutines that share no container need no lock (C82).
-/
import Verif.ParProg
import Verif.PropsGoProg
import Verif.PropsPar

set_option linter.unusedVariables false
set_option linter.unusedSectionVars false

namespace Amt.Par
open Amt Spec
open Rn (mp)

section
variable {κ K V R : Type} {g : Nat}

theorem client_denote {Op Out X : Type} {C : κ → TreeKind K V Op Out X} {C' : κ → Go.CodeKind K V Op Out X} (hC : ∀ k, DenKind (C k) (C' k)) (p : Prog κ K V Op Out X R) (s : St K V) :
    (match (client C p).denote s with | .ok x => Except.ok x.1 | .error e => .error e) = Go.seen (Go.runGo C' p Go.EnvG.none s) := by
  have h : (client C p).denote = (Go.runGo C' p Go.EnvG.none >>= fun r => pure r.1) := (Den.bind (runTree_den hC p _) fun r => Den.pure _).eq
  rw [h, bind_run]
  cases Go.runGo C' p Go.EnvG.none s with
  | error e => rfl
  | ok r => rfl

/-- C82 for the maps.  Goroutines that are client programs: they create maps of any of the five kinds, call their methods (with callbacks that are programs again), keep and
use pointers; no goroutine has a container of another.  There may be anything in the memory `s` before (`Clean`: the part of the memory
that is yet to be allocated is empty).
Whatever the order `sched` of their accesses to memory, without any lock: a goroutine that has ended has returned what it returns alone in an empty memory, or panics
as it does there; what was in memory before has not changed; and a goroutine ends after a number of its own accesses that depends neither on the others nor on the order. -/
theorem C82_map [Inhabited V] {G : κ → MapTrees K V} {C : κ → Go.MapFull K V} (h : ∀ k, MapTreesOf (G k) (C k)) (n : Nat)
    (p : Fin g → Prog κ K V (MOp K V) (MOut K V) K R) {s : St K V} (hs : Clean s) :
    (∀ sched i r, ((interleave sched (fun i => client (fun k => (G k).kind n) (p i)) s).1 i).came = some r →
      Go.seen (Go.runGo (fun k => (C k).kind n) (p i) Go.EnvG.none St.init) = r) ∧
    (∀ sched a, a < s.next → (interleave sched (fun i => client (fun k => (G k).kind n) (p i)) s).2.mem a = s.mem a ∧
      (interleave sched (fun i => client (fun k => (G k).kind n) (p i)) s).2.roots a = s.roots a) ∧
    ∀ i, ∃ N, ∀ sched : List (Fin g), N ≤ sched.count i → ∃ r, ((interleave sched (fun i => client (fun k => (G k).kind n) (p i)) s).1 i).came = some r := by
  have hnat : ∀ i, Natural (client (fun k => (G k).kind n) (p i)) := fun i => client_natural (fun k => (h k).nat.kind n) (p i)
  refine ⟨fun sched i r hr => ?_, fun sched a ha => (own sched _ hnat hs).2 a ha, fun i => ?_⟩
  · rw [← client_denote (fun k => (h k).of.kind n) (p i)]
    exact own_solo (fun _ _ => rfl) sched _ hnat hs i hr
  · obtain ⟨N, hN⟩ := own_ends (client (fun k => (G k).kind n) (p i))
    exact ⟨N, fun sched hc => Done.came (hN g sched _ s i hnat hs rfl hc)⟩

/-- C82 for the sets. -/
theorem C82_set {G : κ → SetTrees K} {C : κ → Go.SetFull K} (h : ∀ k, SetTreesOf (G k) (C k)) (n : Nat)
    (p : Fin g → Prog κ K Unit (SOp K) (SOut K) Empty R) {s : St K Unit} (hs : Clean s) :
    (∀ sched i r, ((interleave sched (fun i => client (fun k => (G k).kind n) (p i)) s).1 i).came = some r →
      Go.seen (Go.runGo (fun k => (C k).kind n) (p i) Go.EnvG.none St.init) = r) ∧
    (∀ sched a, a < s.next → (interleave sched (fun i => client (fun k => (G k).kind n) (p i)) s).2.mem a = s.mem a ∧
      (interleave sched (fun i => client (fun k => (G k).kind n) (p i)) s).2.roots a = s.roots a) ∧
    ∀ i, ∃ N, ∀ sched : List (Fin g), N ≤ sched.count i → ∃ r, ((interleave sched (fun i => client (fun k => (G k).kind n) (p i)) s).1 i).came = some r := by
  have hnat : ∀ i, Natural (client (fun k => (G k).kind n) (p i)) := fun i => client_natural (fun k => (h k).nat.kind n) (p i)
  refine ⟨fun sched i r hr => ?_, fun sched a ha => (own sched _ hnat hs).2 a ha, fun i => ?_⟩
  · rw [← client_denote (fun k => (h k).of.kind n) (p i)]
    exact own_solo (fun _ _ => rfl) sched _ hnat hs i hr
  · obtain ⟨N, hN⟩ := own_ends (client (fun k => (G k).kind n) (p i))
    exact ⟨N, fun sched hc => Done.came (hN g sched _ s i hnat hs rfl hc)⟩

/-- With C80: over the model, a goroutine that has ended (and has not been cut off in a loop) returns the same. -/
theorem C82_map_model [Inhabited V] {G : κ → MapTrees K V} {C : κ → Go.MapFull K V} {I : κ → MapImpl K V} (h : ∀ k, MapTreesOf (G k) (C k)) (h' : ∀ k, Go.MapFullOf (C k) (I k))
    (hc : ∀ k, (I k).cfg.store = .boxed) (n : Nat) (p : Fin g → Prog κ K V (MOp K V) (MOut K V) K R) {s : St K V} (hs : Clean s) (sched : List (Fin g)) (i : Fin g)
    {r : Except Fault R} (hr : ((interleave sched (fun i => client (fun k => (G k).kind n) (p i)) s).1 i).came = some r) (hd : r ≠ .error .diverge) (s₀ : St K V) :
    Go.seen (Amt.run (fun k => (I k).kind (n + 301)) (p i) EnvW.none s₀) = r ∧ outcome (runApart (fun k => (I k).kind (n + 301)) (p i) Worlds.none) = r := by
  have h1 := (C82_map h n p hs).1 sched i r hr
  rcases (Go.C80_map h' hc n (p i) Go.init_tidy s₀).2 with h2 | h2
  · exact absurd (h1.symm.trans h2) hd
  · exact ⟨h2.trans h1, (Go.C80_map_apart h' hc n (p i) Go.init_tidy (by rw [h1]; exact hd)).trans h1⟩

theorem C82_set_model {G : κ → SetTrees K} {C : κ → Go.SetFull K} {I : κ → SetImpl K} (h : ∀ k, SetTreesOf (G k) (C k)) (h' : ∀ k, Go.SetFullOf (C k) (I k))
    (n : Nat) (p : Fin g → Prog κ K Unit (SOp K) (SOut K) Empty R) {s : St K Unit} (hs : Clean s) (sched : List (Fin g)) (i : Fin g)
    {r : Except Fault R} (hr : ((interleave sched (fun i => client (fun k => (G k).kind n) (p i)) s).1 i).came = some r) (hd : r ≠ .error .diverge) (s₀ : St K Unit) :
    Go.seen (Amt.run (fun k => (I k).kind (n + 301)) (p i) EnvW.none s₀) = r := by
  have h1 := (C82_set h n p hs).1 sched i r hr
  rcases (Go.C80_set h' n (p i) Go.init_tidy s₀).2 with h2 | h2
  · exact absurd (h1.symm.trans h2) hd
  · exact h2.trans h1

/-! ### One container and calls on it -/

/-- The calls on the container `c`, after those that have returned `os`. -/
def callsOn {Op Out X : Type} (c : Nat) : List Op → List Out → Prog κ K V Op Out X (List Out)
  | [], os => .ret os
  | op :: ops, os => .call c op fun o => callsOn c ops (os ++ [o])

/-- A new container, and calls on it. -/
def calls {Op Out X : Type} (k : κ) (sd : Seed) (ops : List Op) : Prog κ K V Op Out X (List Out) := .new k sd fun c => callsOn c ops []

theorem callsOn_run [Inhabited V] {C : κ → Go.MapFull K V} {n : Nat} {k : κ} {h : Nat} (ops : List (MOp K V)) : ∀ (path : List PathLink) (os : List (MOut K V)) (s : St K V),
    Go.seen (Go.runGo (fun k => (C k).kind n) (callsOn 0 ops os) ⟨[(k, h, path)], []⟩ s) =
      (match (C k).code.run n (some h) path ops s with | .error e => .error e | .ok r => .ok (os ++ r.1)) := by
  induction ops with
  | nil =>
    intro path os s
    show Except.ok os = Except.ok (os ++ [])
    rw [List.append_nil]
  | cons op ops ih =>
    intro path os s
    show Go.seen (((C k).code.exec n (some h) path op >>= fun o => Go.runGo (fun k => (C k).kind n) (callsOn 0 ops (os ++ [o.1])) ⟨[(k, h, o.2)], []⟩) s) =
      (match ((C k).code.exec n (some h) path op >>= fun r => (C k).code.run n (some h) r.2 ops >>= fun os => pure (r.1 :: os)) s with | .error e => .error e | .ok r => .ok (os ++ r.1))
    rw [bind_run, bind_run]
    cases (C k).code.exec n (some h) path op s with
    | error e => rfl
    | ok r =>
      dsimp only
      rw [ih, bind_run]
      cases (C k).code.run n (some h) r.1.2 ops r.2 with
      | error e => rfl
      | ok x =>
        show Except.ok (os ++ [r.1.1] ++ x.1) = Except.ok (os ++ r.1.1 :: x.1)
        rw [List.append_assoc]; rfl

theorem calls_run [Inhabited V] {C : κ → Go.MapFull K V} {n : Nat} (k : κ) (sd : Seed) (ops : List (MOp K V)) (s : St K V) :
    Go.seen (Go.runGo (fun k => (C k).kind n) (calls k sd ops) Go.EnvG.none s) = answers ((C k).code.session n sd ops s) := by
  show Go.seen ((newRoot sd >>= fun m => _) s) = answers ((newRoot sd >>= fun m => _) s)
  rw [bind_run, bind_run]
  show Go.seen (Go.runGo (fun k => (C k).kind n) (callsOn 0 ops []) ⟨[(k, s.next, Amt.blank)], []⟩ _) = _
  rw [callsOn_run]
  show _ = answers (((C k).code.run n (some s.next) Amt.blank ops >>= fun os => pure (some s.next, os)) _)
  rw [bind_run]
  generalize (C k).code.run n (some s.next) Amt.blank ops _ = y
  cases y with
  | error e => rfl
  | ok r => rfl

theorem callsOn_runS {C : κ → Go.SetFull K} {n : Nat} {k : κ} {h : Nat} (ops : List (SOp K)) : ∀ (path : List PathLink) (os : List (SOut K)) (s : St K Unit),
    Go.seen (Go.runGo (fun k => (C k).kind n) (callsOn 0 ops os) ⟨[(k, h, path)], []⟩ s) =
      (match (C k).code.run n (some h) path ops s with | .error e => .error e | .ok r => .ok (os ++ r.1)) := by
  induction ops with
  | nil =>
    intro path os s
    show Except.ok os = Except.ok (os ++ [])
    rw [List.append_nil]
  | cons op ops ih =>
    intro path os s
    show Go.seen (((C k).code.exec n (some h) path op >>= fun o => Go.runGo (fun k => (C k).kind n) (callsOn 0 ops (os ++ [o.1])) ⟨[(k, h, o.2)], []⟩) s) =
      (match ((C k).code.exec n (some h) path op >>= fun r => (C k).code.run n (some h) r.2 ops >>= fun os => pure (r.1 :: os)) s with | .error e => .error e | .ok r => .ok (os ++ r.1))
    rw [bind_run, bind_run]
    cases (C k).code.exec n (some h) path op s with
    | error e => rfl
    | ok r =>
      dsimp only
      rw [ih, bind_run]
      cases (C k).code.run n (some h) r.1.2 ops r.2 with
      | error e => rfl
      | ok x =>
        show Except.ok (os ++ [r.1.1] ++ x.1) = Except.ok (os ++ r.1.1 :: x.1)
        rw [List.append_assoc]; rfl

theorem calls_runS {C : κ → Go.SetFull K} {n : Nat} (k : κ) (sd : Seed) (ops : List (SOp K)) (s : St K Unit) :
    Go.seen (Go.runGo (fun k => (C k).kind n) (calls k sd ops) Go.EnvG.none s) = answers ((C k).code.session n sd ops s) := by
  show Go.seen ((newRoot sd >>= fun m => _) s) = answers ((newRoot sd >>= fun m => _) s)
  rw [bind_run, bind_run]
  show Go.seen (Go.runGo (fun k => (C k).kind n) (callsOn 0 ops []) ⟨[(k, s.next, Amt.blank)], []⟩ _) = _
  rw [callsOn_runS]
  show _ = answers (((C k).code.run n (some s.next) Amt.blank ops >>= fun os => pure (some s.next, os)) _)
  rw [bind_run]
  generalize (C k).code.run n (some s.next) Amt.blank ops _ = y
  cases y with
  | error e => rfl
  | ok r => rfl

/-- C82 for goroutines that create one map each, of any kind, and call methods of it: a goroutine that has ended has got the answers to its calls that it gets alone. -/
theorem C82_map_calls [Inhabited V] {G : κ → MapTrees K V} {C : κ → Go.MapFull K V} (h : ∀ k, MapTreesOf (G k) (C k)) (n : Nat)
    (k : Fin g → κ) (sd : Fin g → Seed) (ops : Fin g → List (MOp K V)) {s : St K V} (hs : Clean s) (sched : List (Fin g)) (i : Fin g) {r : Except Fault (List (MOut K V))}
    (hr : ((interleave sched (fun i => client (fun k => (G k).kind n) (calls (k i) (sd i) (ops i))) s).1 i).came = some r) :
    answers ((C (k i)).code.session n (sd i) (ops i) St.init) = r := by
  rw [← calls_run]
  exact (C82_map h n (fun i => calls (k i) (sd i) (ops i)) hs).1 sched i r hr

theorem C82_set_calls {G : κ → SetTrees K} {C : κ → Go.SetFull K} (h : ∀ k, SetTreesOf (G k) (C k)) (n : Nat)
    (k : Fin g → κ) (sd : Fin g → Seed) (ops : Fin g → List (SOp K)) {s : St K Unit} (hs : Clean s) (sched : List (Fin g)) (i : Fin g) {r : Except Fault (List (SOut K))}
    (hr : ((interleave sched (fun i => client (fun k => (G k).kind n) (calls (k i) (sd i) (ops i))) s).1 i).came = some r) :
    answers ((C (k i)).code.session n (sd i) (ops i) St.init) = r := by
  rw [← calls_runS]
  exact (C82_set h n (fun i => calls (k i) (sd i) (ops i)) hs).1 sched i r hr

/-- Goroutines with StringMaps of their own, each of which inserts keys that are not too close to each other: whatever the order of the accesses, no goroutine panics, and the
answers are those of the abstract map. -/
theorem C82_StringMap [Inhabited V] (sum : Maphash) {n : Nat} (hn : 256 ≤ n) (sd : Fin g → Seed) (ops : Fin g → List (MOp ByteStr V))
    (hops : ∀ i, EachNew (fun _ => ByteFits (byteStream sum (sd i) id)) [] (ops i)) {s : St ByteStr V} (hs : Clean s) (sched : List (Fin g)) (i : Fin g)
    {r : Except Fault (List (MOut ByteStr V))}
    (hr : ((interleave sched (fun i => client (fun _ => (stringMapFull sum).kind n) (calls () (sd i) (ops i))) s).1 i).came = some r) :
    ∃ os m, r = .ok os ∧ MRun [] (ops i) os m := by
  have h1 := C82_map_calls (fun _ : Unit => MapTreesOf.string sum) n (fun _ => ()) sd ops hs sched i hr
  obtain ⟨os, m, h2, h3⟩ := Go.C69_StringMap sum (sd i) (ops i) (hops i) hn
  exact ⟨os, m, h1.symm.trans h2, h3⟩

theorem C82_BytesMap [Inhabited V] (sum : Maphash) {n : Nat} (hn : 256 ≤ n) (sd : Fin g → Seed) (ops : Fin g → List (MOp ByteStr V))
    (hops : ∀ i, EachNew (fun _ => ByteFits (byteStream sum (sd i) id)) [] (ops i)) {s : St ByteStr V} (hs : Clean s) (sched : List (Fin g)) (i : Fin g)
    {r : Except Fault (List (MOut ByteStr V))}
    (hr : ((interleave sched (fun i => client (fun _ => (bytesMapFull sum).kind n) (calls () (sd i) (ops i))) s).1 i).came = some r) :
    ∃ os m, r = .ok os ∧ MRun [] (ops i) os m := by
  have h1 := C82_map_calls (fun _ : Unit => MapTreesOf.bytes sum) n (fun _ => ()) sd ops hs sched i hr
  obtain ⟨os, m, h2, h3⟩ := Go.C69_BytesMap sum (sd i) (ops i) (hops i) hn
  exact ⟨os, m, h1.symm.trans h2, h3⟩

/-- ArrMap, which forgets the value of a new key that collides. -/
theorem C82_ArrMap [Inhabited V] [DecidableEq K] (sum : Maphash) (kb : K → List UInt8) {n : Nat} (hn : 256 ≤ n) (sd : Fin g → Seed) (ops : Fin g → List (MOp K V))
    (hops : ∀ i, EachNew (fun _ => ByteFits (byteStream sum (sd i) kb)) [] (ops i)) {s : St K V} (hs : Clean s) (sched : List (Fin g)) (i : Fin g)
    {r : Except Fault (List (MOut K V))}
    (hr : ((interleave sched (fun i => client (fun _ => (arrMapFull sum kb).kind n) (calls () (sd i) (ops i))) s).1 i).came = some r) :
    ∃ os m, r = .ok os ∧ RunBy (MStepX (byteStream sum (sd i) kb) True (fun _ => default)) [] (ops i) os m := by
  have h1 := C82_map_calls (fun _ : Unit => MapTreesOf.arr sum kb) n (fun _ => ()) sd ops hs sched i hr
  obtain ⟨os, m, h2, h3⟩ := Go.C69_ArrMap sum (sd i) kb (ops i) (hops i) hn
  exact ⟨os, m, h1.symm.trans h2, h3⟩

theorem C82_IntMap [Inhabited V] (sum : Maphash) {n : Nat} (hn : 256 ≤ n) (sd : Fin g → Seed) (ops : Fin g → List (MOp IntKey V))
    (hops : ∀ i, EachNew (fun _ => IntSafe (byteStream sum (sd i) intbytes)) [] (ops i)) {s : St IntKey V} (hs : Clean s) (sched : List (Fin g)) (i : Fin g)
    {r : Except Fault (List (MOut IntKey V))}
    (hr : ((interleave sched (fun i => client (fun _ => (intMapFull sum).kind n) (calls () (sd i) (ops i))) s).1 i).came = some r) :
    ∃ os m, r = .ok os ∧ MRun [] (ops i) os m := by
  have h1 := C82_map_calls (fun _ : Unit => MapTreesOf.int sum) n (fun _ => ()) sd ops hs sched i hr
  obtain ⟨os, m, h2, h3⟩ := Go.C69_IntMap sum (sd i) (ops i) (hops i) hn
  exact ⟨os, m, h1.symm.trans h2, h3⟩

theorem C82_Map [Inhabited V] [DecidableEq K] (I : KeyImpl K) (heq : ∀ a b, I.equal a b = true ↔ a = b) {n : Nat} (hn : 256 ≤ n) (sd : Fin g → Seed) (ops : Fin g → List (MOp K V))
    (hops : ∀ i, EachNew (GenFits fun k n => I.hash k (sd i) n) [] (ops i)) {s : St K V} (hs : Clean s) (sched : List (Fin g)) (i : Fin g)
    {r : Except Fault (List (MOut K V))}
    (hr : ((interleave sched (fun i => client (fun _ => (mapFull I).kind n) (calls () (sd i) (ops i))) s).1 i).came = some r) :
    ∃ os m, r = .ok os ∧ MRun [] (ops i) os m := by
  have h1 := C82_map_calls (fun _ : Unit => MapTreesOf.generic I) n (fun _ => ()) sd ops hs sched i hr
  obtain ⟨os, m, h2, h3⟩ := Go.C69_Map (sd i) I heq (ops i) (hops i) hn
  exact ⟨os, m, h1.symm.trans h2, h3⟩

theorem C82_StringSet (sum : Maphash) {n : Nat} (hn : 256 ≤ n) (sd : Fin g → Seed) (ops : Fin g → List (SOp ByteStr))
    (hops : ∀ i, SEachNew (byteStream sum (sd i) id) false (ByteFits (byteStream sum (sd i) id)) [] (ops i)) {s : St ByteStr Unit} (hs : Clean s) (sched : List (Fin g)) (i : Fin g)
    {r : Except Fault (List (SOut ByteStr))}
    (hr : ((interleave sched (fun i => client (fun _ => (stringSetFull sum).kind n) (calls () (sd i) (ops i))) s).1 i).came = some r) :
    ∃ os m, r = .ok os ∧ SRun [] (ops i) os m := by
  have h1 := C82_set_calls (fun _ : Unit => SetTreesOf.string sum) n (fun _ => ()) sd ops hs sched i hr
  obtain ⟨os, m, h2, h3⟩ := Go.C69_StringSet sum (sd i) (ops i) (hops i) hn
  exact ⟨os, m, h1.symm.trans h2, h3⟩

/-- The same with BytesSets, whose `Del` deletes only what it should not. -/
theorem C82_BytesSet (sum : Maphash) {n : Nat} (hn : 256 ≤ n) (sd : Fin g → Seed) (ops : Fin g → List (SOp ByteStr))
    (hops : ∀ i, SEachNew (byteStream sum (sd i) id) true (ByteFits (byteStream sum (sd i) id)) [] (ops i)) {s : St ByteStr Unit} (hs : Clean s) (sched : List (Fin g)) (i : Fin g)
    {r : Except Fault (List (SOut ByteStr))}
    (hr : ((interleave sched (fun i => client (fun _ => (bytesSetFull sum).kind n) (calls () (sd i) (ops i))) s).1 i).came = some r) :
    ∃ os m, r = .ok os ∧ SRunBy (SStepX (byteStream sum (sd i) id) True true) [] (ops i) os m := by
  have h1 := C82_set_calls (fun _ : Unit => SetTreesOf.bytes sum) n (fun _ => ()) sd ops hs sched i hr
  obtain ⟨os, m, h2, h3⟩ := Go.C69_BytesSet sum (sd i) (ops i) (hops i) hn
  exact ⟨os, m, h1.symm.trans h2, h3⟩

theorem C82_ArrSet [DecidableEq K] (sum : Maphash) (kb : K → List UInt8) {n : Nat} (hn : 256 ≤ n) (sd : Fin g → Seed) (ops : Fin g → List (SOp K))
    (hops : ∀ i, SEachNew (byteStream sum (sd i) kb) false (ByteFits (byteStream sum (sd i) kb)) [] (ops i)) {s : St K Unit} (hs : Clean s) (sched : List (Fin g)) (i : Fin g)
    {r : Except Fault (List (SOut K))}
    (hr : ((interleave sched (fun i => client (fun _ => (arrSetFull sum kb).kind n) (calls () (sd i) (ops i))) s).1 i).came = some r) :
    ∃ os m, r = .ok os ∧ SRun [] (ops i) os m := by
  have h1 := C82_set_calls (fun _ : Unit => SetTreesOf.arr sum kb) n (fun _ => ()) sd ops hs sched i hr
  obtain ⟨os, m, h2, h3⟩ := Go.C69_ArrSet sum (sd i) kb (ops i) (hops i) hn
  exact ⟨os, m, h1.symm.trans h2, h3⟩

theorem C82_IntSet (sum : Maphash) {n : Nat} (hn : 256 ≤ n) (sd : Fin g → Seed) (ops : Fin g → List (SOp IntKey))
    (hops : ∀ i, SEachNew (byteStream sum (sd i) intbytes) false (IntSafe (byteStream sum (sd i) intbytes)) [] (ops i)) {s : St IntKey Unit} (hs : Clean s) (sched : List (Fin g)) (i : Fin g)
    {r : Except Fault (List (SOut IntKey))}
    (hr : ((interleave sched (fun i => client (fun _ => (intSetFull sum).kind n) (calls () (sd i) (ops i))) s).1 i).came = some r) :
    ∃ os m, r = .ok os ∧ SRun [] (ops i) os m := by
  have h1 := C82_set_calls (fun _ : Unit => SetTreesOf.int sum) n (fun _ => ()) sd ops hs sched i hr
  obtain ⟨os, m, h2, h3⟩ := Go.C69_IntSet sum (sd i) (ops i) (hops i) hn
  exact ⟨os, m, h1.symm.trans h2, h3⟩

theorem C82_Set [DecidableEq K] (I : KeyImpl K) (heq : ∀ a b, I.equal a b = true ↔ a = b) {n : Nat} (hn : 256 ≤ n) (sd : Fin g → Seed) (ops : Fin g → List (SOp K))
    (hops : ∀ i, SEachNew (fun k n => I.hash k (sd i) n) false (GenFits (fun k n => I.hash k (sd i) n) false) [] (ops i)) {s : St K Unit} (hs : Clean s) (sched : List (Fin g)) (i : Fin g)
    {r : Except Fault (List (SOut K))}
    (hr : ((interleave sched (fun i => client (fun _ => (setFull I).kind n) (calls () (sd i) (ops i))) s).1 i).came = some r) :
    ∃ os m, r = .ok os ∧ SRun [] (ops i) os m := by
  have h1 := C82_set_calls (fun _ : Unit => SetTreesOf.generic I) n (fun _ => ()) sd ops hs sched i hr
  obtain ⟨os, m, h2, h3⟩ := Go.C69_Set (sd i) I heq (ops i) (hops i) hn
  exact ⟨os, m, h1.symm.trans h2, h3⟩

end

/-! ### Two goroutines -/

example {g : Nat} (s : St ByteStr Nat) (hs : Clean s) (sched : List (Fin g)) (i : Fin g) {r : Except Fault (List (MOut ByteStr Nat))}
    (hr : ((interleave sched (fun i => client (fun _ => (stringMapFull toyHash).kind 256) (calls () 0#64 (exOps strKey))) s).1 i).came = some r) :=
  C82_StringMap toyHash (Nat.le_refl 256) (fun _ => 0#64) (fun _ => exOps strKey) (fun _ => exOps_str) hs sched i hr

example {g : Nat} (s : St Nat Nat) (hs : Clean s) (sched : List (Fin g)) (i : Fin g) {r : Except Fault (List (MOut Nat Nat))}
    (hr : ((interleave sched (fun i => client (fun _ => (mapFull onceKey).kind 256) (calls () 0#64 (exOps UInt8.toNat))) s).1 i).came = some r) :=
  C82_Map onceKey (by simp [onceKey]) (Nat.le_refl 256) (fun _ => 0#64) (fun _ => exOps UInt8.toNat) (fun _ => exOps_gen) hs sched i hr

example {g : Nat} (s : St IntKey Unit) (hs : Clean s) (sched : List (Fin g)) (i : Fin g) {r : Except Fault (List (SOut IntKey))}
    (hr : ((interleave sched (fun i => client (fun _ => (intSetFull toyHash).kind 256) (calls () 0#64 (exOpsS highKey))) s).1 i).came = some r) :=
  C82_IntSet toyHash (Nat.le_refl 256) (fun _ => 0#64) (fun _ => exOpsS highKey) (fun _ => exOpsS_int) hs sched i hr

/-- Two goroutines, one with a StringMap and one with a BytesMap, that run in turn. -/
example : ((interleave ((List.replicate 200 [0, 1]).flatten) (fun i : Fin 2 => client (fun k : Bool => (if k then stringMapFull toyHash else bytesMapFull toyHash : MapTrees ByteStr Nat).kind 256)
      (calls (i == 0) 0#64 (if i = 0 then [.set (strKey 0x01) 7, .set (strKey 0x11) 8, .get (strKey 0x01)] else [.set (strKey 0x01) 1, .del (strKey 0x01), .len]))) St.init).1 0).came =
    some (.ok [.unit, .unit, .pair 7 true]) := by decide +kernel

/-- A memory with a map in it. -/
example : Clean (fresh 5#64 : St ByteStr Nat) := by
  intro a ha
  have h : 2 ≤ a := ha
  have h0 : a ≠ 0 := by omega
  have h1 : a ≠ 1 := by omega
  exact ⟨by show (if a = 0 then _ else if a = 0 + 1 then _ else _) = none; rw [if_neg h0, if_neg h1]; rfl, by show (if a = 0 then _ else _) = _; rw [if_neg h0]; rfl⟩

/-- They make objects in turn: the objects of neither are next to each other. -/
example : (allocs 0 ((List.replicate 200 [0, 1]).flatten) (fun i : Fin 2 => client (fun _ : Unit => (stringMapFull toyHash : MapTrees ByteStr Nat).kind 256)
      (calls () 0#64 (if i = 0 then [.set (strKey 0x01) 7, .set (strKey 0x11) 8, .get (strKey 0x01)] else [.set (strKey 0x01) 1, .del (strKey 0x01), .len]))) St.init).length = 5 ∧
    (allocs 0 ((List.replicate 200 [0, 1]).flatten) (fun i : Fin 2 => client (fun _ : Unit => (stringMapFull toyHash : MapTrees ByteStr Nat).kind 256)
      (calls () 0#64 (if i = 0 then [.set (strKey 0x01) 7, .set (strKey 0x11) 8, .get (strKey 0x01)] else [.set (strKey 0x01) 1, .del (strKey 0x01), .len]))) St.init) ≠ [0, 1, 2, 3, 4] := by
  decide +kernel

end Amt.Par
