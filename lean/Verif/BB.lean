import Verif.DD
/-!
# Model of the branch-and-bound search (src/search.cpp, src/dd.cpp:65-73, src/dd.hpp:428-439, 347-376)

The node pool of the search (`DDNodeAllocator`) is a growing array of cloned nodes; its hash
table is "a clone with that state exists".  The priority queue is the heap model itself.
The clock and the time-limit callback are an arbitrary oracle on the iteration number.
`log` is a ghost: it records what happened to every cut-set node and nothing reads it.
-/
namespace Verif.BB
open Verif.DD
variable {σ : Type}

/-- Fate of a cut-set node (ghost). -/
inductive Fate where
  | bounded            -- bound no better than the primal (src/search.cpp:132-137)
  | dominated          -- a queued node dominates it (145-147, 183)
  | deduped (old : Nat) -- its state was cloned before, as pool node `old` (167, 181)
  | weak               -- cloned, key no better than the primal (174-180)
  | queued             -- cloned and inserted (180)

/-- Search state (src/search.cpp:21-59) with the bounds object (src/dd.hpp:23-51). -/
structure BS (σ : Type) where
  pst : Nat → σ
  plab : Nat → List Int
  pbound : Nat → Int
  pbb : Nat → Int
  pn : Nat
  pq : Heap.H (Nat × Int)
  primal : Int
  inc : List Int
  /-- Arguments of the solution callbacks, oldest first, with the primal bound then. -/
  sols : List (Int × List Int)
  wrel : Nat
  stopped : Bool
  log : List (Nat × Nat × Fate)

/-- `QNode` order (src/search.cpp:42-44). -/
def qord (m : Mdl σ) (a b : Nat × Int) : Bool := m.sense.better a.2 b.2

/-- `update` when it applies (src/dd.hpp:428-439): new primal bound and incumbent, callbacks. -/
def setPrimal (m : Mdl σ) (s : BS σ) (v : Int) (lb : List Int) : BS σ :=
  { s with
    primal := m.sense.pick v s.primal, inc := lb, sols := s.sols ++ [(m.sense.pick v s.primal, lb)] }

/-- The root handed to `makeInitFrom` (src/dd.cpp:67). -/
def BS.src (s : BS σ) (i : Nat) : Src σ := ⟨s.pst i, s.plab i, s.pbound i, s.pbb i⟩

section
variable [Same σ]

/-- `_nmap.getLoc` of the node pool (src/dd.hpp:355). -/
def findPool (s : BS σ) (x : σ) : Option Nat := (List.range s.pn).find? (fun i => Same.same (s.pst i) x)

/-- Scan of the queue (src/search.cpp:142-152): is the new node dominated, and the handles it
dominates so far. -/
def domScan (m : Mdl σ) (sd : σ → σ → Bool) (s : BS σ) (st : σ) (bd : Int) :
    List Nat → List Nat → Bool × List Nat
  | [], acc => (false, acc)
  | l :: ls, acc =>
    let q := (s.pq.val l).1
    if m.sense.betterEQ (s.pbound q) bd && sd (s.pst q) st then (true, acc)
    else if m.sense.betterEQ bd (s.pbound q) && sd st (s.pst q) then domScan m sd s st bd ls (acc ++ [l])
    else domScan m sd s st bd ls acc

/-- Dominance part (src/search.cpp:138-160). -/
def domStep (m : Mdl σ) (s : BS σ) (st : σ) (bd : Int) : Bool × BS σ :=
  match m.sdom with
  | none => (false, s)
  | some sd =>
    let r := domScan m sd s st bd (Heap.locs s.pq) []
    (r.1, { s with pq := r.2.foldl (fun h l => (Heap.remove (qord m) h l).1) s.pq })

/-- `cloneNode` of a fresh state (src/dd.hpp:352-367). -/
def clone (s : BS σ) (st : σ) (lb : List Int) (bd bb : Int) : BS σ :=
  { s with
    pst := upd s.pst s.pn st, plab := upd s.plab s.pn lb, pbound := upd s.pbound s.pn bd,
    pbb := upd s.pbb s.pn bb, pn := s.pn + 1 }

/-- Queue key of a new node (src/search.cpp:170-174); `lc` is the local bound. -/
def insKey (lc : Option (σ → Ctx → Int)) (g : G σ) (n : Nat) : Int :=
  g.bound n + (match lc with
    | some f => f (g.st n) .bb
    | none => g.bb n)

/-- Body of the loop over the cut set (src/search.cpp:121-184); `cur` is the pool node being
processed (ghost only), `lc` the local bound. -/
def cutStep (m : Mdl σ) (lc : Option (σ → Ctx → Int)) (g : G σ) (cur : Nat) (s0 : BS σ) (n : Nat) : BS σ :=
  let s := if n = g.root then { s0 with wrel := s0.wrel + 1 } else s0
  if m.sense.better (g.bound n + g.bb n) s.primal then
    match domStep m s (g.st n) (g.bound n) with
    | (true, s1) => { s1 with log := s1.log ++ [(cur, n, .dominated)] }
    | (false, s1) =>
      match findPool s1 (g.st n) with
      | some o => { s1 with log := s1.log ++ [(cur, n, .deduped o)] }
      | none =>
        let s2 := clone s1 (g.st n) (g.lab n) (g.bound n) (g.bb n)
        let key := insKey lc g n
        if m.sense.better key s2.primal then
          { s2 with
            pq := (Heap.insertHeap (qord m) s2.pq (s1.pn, key)).1, log := s2.log ++ [(cur, n, .queued)] }
        else { s2 with log := s2.log ++ [(cur, n, .weak)] }
  else { s with log := s.log ++ [(cur, n, .bounded)] }

/-- Processing of one extracted node that survives pruning (src/search.cpp:107-186).
`none`: undefined behaviour or the compilation ran out of fuel.
The user's label generator may read the primal bound through the `Bounds` object it captures
(examples/coloringtoy.cpp:80, examples/gruler.cpp): `M p` is the model as seen while the primal bound is
`p`.  The bound does not change during a compilation: only `search` itself calls `setPrimal`.
`lc p` is the local bound used for the queue keys. -/
def expandP (m : Mdl σ) (M : Int → Mdl σ) (lc : Int → Option (σ → Ctx → Int)) (wres fuel : Nat) (s : BS σ) (cur : Nat) : Option (BS σ) :=
  (relaxed (M s.primal) s.primal s.wrel fuel (s.src cur)).bind fun g =>
    if m.sense.better (g.bound g.trg) s.primal then
      let s1 := if g.exact then setPrimal m s (g.bound g.trg) (g.lab g.trg) else s
      (restricted (M s1.primal) s1.primal wres fuel (s1.src cur)).bind fun r =>
        let s2 := if m.sense.better (r.bound r.trg) s1.primal then
          setPrimal m s1 (r.bound r.trg) (r.lab r.trg) else s1
        if !r.exact && !g.exact then
          (cutSet g).map (fun cs => cs.foldl (cutStep m (lc s2.primal) g cur) s2)
        else some s2
    else some s

/-- Main loop (src/search.cpp:59-189).  `lim k` is the time-limit callback at iteration `k`, `M k` the
model as the compilations of iteration `k` see it and `lc k` the local bound its queue keys use: the local
bound of a user may keep state between calls (examples/misp4_lag.cpp:541-550).  `Verif/BBState.lean` threads
such a state and relates the two. -/
def loopP (m : Mdl σ) (M : Nat → Int → Mdl σ) (lc : Nat → Int → Option (σ → Ctx → Int)) (wres dfuel : Nat) (lim : Nat → Bool) : Nat → Nat → BS σ → Option (BS σ)
  | 0, _, _ => none
  | f + 1, k, s =>
    if Heap.empty s.pq then some s
    else
      let x := Heap.extractMax (qord m) s.pq
      let s1 := { s with pq := x.1 }
      if lim k then some { s1 with stopped := true }
      else if m.sense.better x.2.2 s1.primal then
        (expandP m (M k) (lc k) wres dfuel s1 x.2.1).bind (loopP m M lc wres dfuel lim f (k + 1))
      else loopP m M lc wres dfuel lim f (k + 1) s1

/-- State before the loop (src/search.cpp:23-58).  `p0` is the primal bound after `attach`
(`initialBest` unless the user set one). -/
def init (m : Mdl σ) (w : Nat) (p0 : Int) : BS σ :=
  let h : Heap.H (Nat × Int) := Heap.mk' (0, 0) 64000
  let bb := match m.loc with
    | some f => f m.sti .bb
    | none => 0
  let key := match m.loc with
    | some f => f m.sti .bb
    | none => m.sense.worst0
  { pst := fun _ => m.sti, plab := fun _ => [], pbound := fun _ => 0, pbb := fun _ => bb, pn := 1,
    pq := (Heap.insertHeap (qord m) h (0, key)).1, primal := p0, inc := [], sols := [], wrel := w,
    stopped := false, log := [] }

/-- `BAndB::search` (src/search.cpp:23-189), for a model whose labels may depend on the primal bound and
whose local bound may change between iterations. -/
def searchT (m : Mdl σ) (M : Nat → Int → Mdl σ) (lc : Nat → Int → Option (σ → Ctx → Int)) (w dfuel : Nat) (lim : Nat → Bool) (fuel : Nat) (p0 : Int) :
    Option (BS σ) :=
  loopP m M lc w dfuel lim fuel 0 (init m w p0)

/-- `BAndB::search` (src/search.cpp:23-189), for a model whose label generator may read the primal bound. -/
def searchP (m : Mdl σ) (M : Int → Mdl σ) (w dfuel : Nat) (lim : Nat → Bool) (fuel : Nat) (p0 : Int) : Option (BS σ) :=
  searchT m (fun _ => M) (fun _ p => (M p).loc) w dfuel lim fuel p0

/-- `BAndB::search` for a model that does not depend on the primal bound. -/
def search (m : Mdl σ) (w dfuel : Nat) (lim : Nat → Bool) (fuel : Nat) (p0 : Int) : Option (BS σ) :=
  searchP m (fun _ => m) w dfuel lim fuel p0

end
end Verif.BB
