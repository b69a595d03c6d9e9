import Verif.BBOpt
/-!
# What the search prints: progress lines and the final report (src/search.cpp:55-57, 72-93, 190-197)

The counters and the flag `primalBetter` are kept beside the search state; the search does not read them.
`tick k` says whether more than five seconds passed since the last progress line (`fl > 5000`, src/search.cpp:76).
Not here: the widths and precisions of the output and the times.
-/
namespace Verif.BB
open Verif.DD
variable {σ : Type}

/-- One progress line (src/search.cpp:77-88): nodes so far, key of the node just taken, primal bound. -/
structure PLine where
  nNode : Nat
  key : Int
  primal : Int
deriving DecidableEq, Repr

/-- The column "Dual" (src/search.cpp:79-82); `none` is a dash. -/
def PLine.dual (m : Mdl σ) (l : PLine) : Option Int := if l.key = m.sense.worst0 then none else some l.key

/-- The column "Gap(%)": a dash, a percentage `num / den`, or `nan`. -/
inductive Gap where
  | dash
  | pct (num den : Int)
  | nan
deriving DecidableEq, Repr

/-- `gap` and how it is printed (src/search.cpp:77, 83-85).  The division is one of `double`s: by zero it gives infinity, more than
100, or, zero by zero, no number, which compares false.  A negative divisor gives a gap that is not more than 100. -/
def PLine.gap (l : PLine) : Gap :=
  if l.primal = 0 then (if l.key = 0 then .nan else .dash)
  else if 0 < l.primal ∧ l.primal < (l.primal - l.key).natAbs then .dash
  else .pct (100 * (l.primal - l.key).natAbs) l.primal

/-- The counters (src/search.cpp:25, 55-56) and the progress lines. -/
structure Rep where
  nNode : Nat := 0
  ttl : Nat := 0
  insDom : Nat := 0
  pruned : Nat := 0
  seen : Nat := 0
  primalBetter : Bool := false
  lines : List PLine := []
deriving DecidableEq, Repr

section
variable [Same σ]

/-- `d`, the number of queue nodes the new node removes (src/search.cpp:139-158). -/
def domCount (m : Mdl σ) (s : BS σ) (st : σ) (bd : Int) : Nat :=
  match m.sdom with
  | none => 0
  | some sd => (domScan m sd s st bd (Heap.locs s.pq) []).2.length

/-- The counters in the loop over the cut set (src/search.cpp:132-184). -/
def cutCount (m : Mdl σ) (g : G σ) (s : BS σ) (r : Rep) (n : Nat) : Rep :=
  if m.sense.better (g.bound n + g.bb n) s.primal then
    let r1 := { r with pruned := r.pruned + domCount m s (g.st n) (g.bound n) }
    match domStep m s (g.st n) (g.bound n) with
    | (true, _) => { r1 with insDom := r1.insDom + 1 }
    | (false, s1) =>
      match findPool s1 (g.st n) with
      | some _ => { r1 with seen := r1.seen + 1 }
      | none => r1
  else r

/-- `expandP` (src/search.cpp:107-186) with the counters; `primalBetter` is what `restricted->apply` returns (111, src/dd.cpp:65-73). -/
def expandR (m : Mdl σ) (M : Int → Mdl σ) (lc : Int → Option (σ → Ctx → Int)) (wres fuel : Nat) (a : BS σ × Rep) (cur : Nat) : Option (BS σ × Rep) :=
  (relaxed (M a.1.primal) a.1.primal a.1.wrel fuel (a.1.src cur)).bind fun g =>
    if m.sense.better (g.bound g.trg) a.1.primal then
      let s1 := if g.exact then setPrimal m a.1 (g.bound g.trg) (g.lab g.trg) else a.1
      (restricted (M s1.primal) s1.primal wres fuel (s1.src cur)).bind fun r =>
        let s2 := if m.sense.better (r.bound r.trg) s1.primal then
          setPrimal m s1 (r.bound r.trg) (r.lab r.trg) else s1
        let r2 := { a.2 with primalBetter := m.sense.better (r.bound r.trg) s1.primal }
        if !r.exact && !g.exact then
          (cutSet g).map (fun cs => cs.foldl (fun b n => (cutStep m (lc s2.primal) g cur b.1 n, cutCount m g b.1 b.2 n)) (s2, r2))
        else some (s2, r2)
    else some a

/-- What one iteration prints and counts before the node is looked at (src/search.cpp:76-93, 99, 106). -/
def turn (tick : Bool) (key primal : Int) (r : Rep) : Rep :=
  { r with
    lines := if r.primalBetter || tick then r.lines ++ [⟨r.nNode, key, primal⟩] else r.lines
    primalBetter := false
    ttl := r.ttl + 1 }

/-- Main loop (src/search.cpp:59-189) with the counters. -/
def loopR (m : Mdl σ) (M : Nat → Int → Mdl σ) (lc : Nat → Int → Option (σ → Ctx → Int)) (wres dfuel : Nat) (lim tick : Nat → Bool) :
    Nat → Nat → BS σ × Rep → Option (BS σ × Rep)
  | 0, _, _ => none
  | f + 1, k, a =>
    if Heap.empty a.1.pq then some a
    else
      let x := Heap.extractMax (qord m) a.1.pq
      let s1 := { a.1 with pq := x.1 }
      if lim k then some ({ s1 with stopped := true }, a.2)
      else
        let r1 := turn (tick k) x.2.2 s1.primal a.2
        if m.sense.better x.2.2 s1.primal then
          (expandR m (M k) (lc k) wres dfuel (s1, { r1 with nNode := r1.nNode + 1 }) x.2.1).bind (loopR m M lc wres dfuel lim tick f (k + 1))
        else loopR m M lc wres dfuel lim tick f (k + 1) (s1, r1)

/-- `BAndB::search` with what it prints (src/search.cpp:21-198), for models as in `searchT`. -/
def searchRT (m : Mdl σ) (M : Nat → Int → Mdl σ) (lc : Nat → Int → Option (σ → Ctx → Int)) (w dfuel : Nat) (lim tick : Nat → Bool) (fuel : Nat) (p0 : Int) :
    Option (BS σ × Rep) :=
  loopR m M lc w dfuel lim tick fuel 0 (init m w p0, {})

/-- The same for a model that does not depend on the primal bound. -/
def searchR (m : Mdl σ) (w dfuel : Nat) (lim tick : Nat → Bool) (fuel : Nat) (p0 : Int) : Option (BS σ × Rep) :=
  searchRT m (fun _ _ => m) (fun _ _ => m.loc) w dfuel lim tick fuel p0

/-- "LIM?" of the last line (src/search.cpp:195). -/
def BS.limit (s : BS σ) : Bool := decide (0 < Heap.size s.pq)

end
end Verif.BB
