import Verif.BB
/-!
# The search with a local bound that keeps state

A user's local bound is a closure and may change what it captures when it is called: that of
examples/misp4_lag.cpp:541-550 updates its multipliers on every `BBCtx` call and only reads them on `DDCtx`
calls.  This is `Verif/BB.lean` with such a state threaded through the calls in program order.
-/
namespace Verif.BB
open Verif.DD
variable {σ υ : Type}

/-- A local bound with state: what a `DDCtx` call returns, and what a `BBCtx` call returns and leaves. -/
structure LocS (σ υ : Type) where
  rd : υ → σ → Int
  call : υ → σ → Int × υ

/-- The local bound frozen in one state. -/
def LocS.at (L : LocS σ υ) (u : υ) : σ → Ctx → Int := fun x c =>
  match c with
  | .dd => L.rd u x
  | .bb => (L.call u x).1

section
variable [Same σ]

/-- `cutStep` (src/search.cpp:121-184) with the state: the local bound is called once per cloned node. -/
def cutStepS (m : Mdl σ) (L : LocS σ υ) (g : G σ) (cur : Nat) (a : BS σ × υ) (n : Nat) : BS σ × υ :=
  let s := if n = g.root then { a.1 with wrel := a.1.wrel + 1 } else a.1
  if m.sense.better (g.bound n + g.bb n) s.primal then
    match domStep m s (g.st n) (g.bound n) with
    | (true, s1) => ({ s1 with log := s1.log ++ [(cur, n, .dominated)] }, a.2)
    | (false, s1) =>
      match findPool s1 (g.st n) with
      | some o => ({ s1 with log := s1.log ++ [(cur, n, .deduped o)] }, a.2)
      | none =>
        let s2 := clone s1 (g.st n) (g.lab n) (g.bound n) (g.bb n)
        let r := L.call a.2 (g.st n)
        let key := g.bound n + r.1
        if m.sense.better key s2.primal then
          ({ s2 with
            pq := (Heap.insertHeap (qord m) s2.pq (s1.pn, key)).1, log := s2.log ++ [(cur, n, .queued)] }, r.2)
        else ({ s2 with log := s2.log ++ [(cur, n, .weak)] }, r.2)
  else ({ s with log := s.log ++ [(cur, n, .bounded)] }, a.2)

/-- `expandP` (src/search.cpp:107-186) with the state: the compilations only read it (src/dd.hpp:491). -/
def expandS (m : Mdl σ) (L : LocS σ υ) (wres fuel : Nat) (a : BS σ × υ) (cur : Nat) : Option (BS σ × υ) :=
  (relaxed { m with loc := some (L.at a.2) } a.1.primal a.1.wrel fuel (a.1.src cur)).bind fun g =>
    if m.sense.better (g.bound g.trg) a.1.primal then
      let s1 := if g.exact then setPrimal m a.1 (g.bound g.trg) (g.lab g.trg) else a.1
      (restricted { m with loc := some (L.at a.2) } s1.primal wres fuel (s1.src cur)).bind fun r =>
        let s2 := if m.sense.better (r.bound r.trg) s1.primal then
          setPrimal m s1 (r.bound r.trg) (r.lab r.trg) else s1
        if !r.exact && !g.exact then
          (cutSet g).map (fun cs => cs.foldl (cutStepS m L g cur) (s2, a.2))
        else some (s2, a.2)
    else some a

/-- `loopP` (src/search.cpp:59-189) with the state. -/
def loopS (m : Mdl σ) (L : LocS σ υ) (wres dfuel : Nat) (lim : Nat → Bool) : Nat → Nat → BS σ × υ → Option (BS σ × υ)
  | 0, _, _ => none
  | f + 1, k, a =>
    if Heap.empty a.1.pq then some a
    else
      let x := Heap.extractMax (qord m) a.1.pq
      let s1 := { a.1 with pq := x.1 }
      if lim k then some ({ s1 with stopped := true }, a.2)
      else if m.sense.better x.2.2 s1.primal then
        (expandS m L wres dfuel (s1, a.2) x.2.1).bind (loopS m L wres dfuel lim f (k + 1))
      else loopS m L wres dfuel lim f (k + 1) (s1, a.2)

/-- `BAndB::search` (src/search.cpp:23-189) with the state; the root is inserted with a first call
(src/search.cpp:47-51).  The `loc` field of `m` is not used. -/
def searchS (m : Mdl σ) (L : LocS σ υ) (u0 : υ) (w dfuel : Nat) (lim : Nat → Bool) (fuel : Nat) (p0 : Int) : Option (BS σ × υ) :=
  loopS m L w dfuel lim fuel 0 (init { m with loc := some (L.at u0) } w p0, (L.call u0 m.sti).2)

end
end Verif.BB
