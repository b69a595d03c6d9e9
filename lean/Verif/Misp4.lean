import Verif.Misp5
import Verif.BBState
/-!
# The independent-set example with clique and Lagrangian bounds (examples/misp4.cpp, examples/misp4_lag.cpp)

Vertex sets are bit masks as in `Verif/Misp5.lean`.  The `double` values of the Lagrangian part are rational
numbers; `none` stands for `numeric_limits<double>::max()`.  Printing and timing are left out.
-/
namespace Verif.Ex
open Verif.DD

/-- `MISP` of examples/misp4.cpp:3-9 and examples/misp4_lag.cpp:10-16. -/
structure Misp4S where
  sel : Nat
  n : Nat
deriving DecidableEq

/-- `out` in `myStf` (examples/misp4.cpp:142-144). -/
def Misp.out4 (g : Misp) (x : Misp4S) (label : Int) : Nat :=
  let o := mdiff x.sel (2 ^ x.n)
  if label ≠ 0 then mdiff o (g.nb x.n) else o

/-- The lambdas of `main` (examples/misp4.cpp:122-161, examples/misp4_lag.cpp:498-532).  The local bound is a
function of the selectable vertices and the context. -/
def Misp.mdl4 (g : Misp) (lb : Nat → Ctx → Int) : Mdl Misp4S where
  sense := .max
  sti := ⟨2 ^ g.top - 1, 0⟩
  stt := ⟨0, g.top⟩
  lgf := fun _ => [0, 1]
  stf := fun x label =>
    if g.top ≤ x.n then (if x.sel = 0 then some ⟨0, g.top⟩ else none)
    else if x.sel.testBit x.n = false ∧ label ≠ 0 then none
    else
      let o := g.out4 x label
      some ⟨o, if o = 0 then g.top else x.n + 1⟩
  stc := fun x label => label * g.w x.n
  smf := fun a b => some ⟨a.sel ||| b.sel, min a.n b.n⟩
  eqs := fun x => decide (x.sel = 0)
  loc := some fun x c => lb x.sel c
  sdom := none

/-- Rank of a state: vertices decided. -/
def Misp.rank4 (_ : Misp) (x : Misp4S) : Nat := x.n

/-! ### Clique partition -/

/-- `adj[i].contains(j)`. -/
def Misp.adj (g : Misp) (i j : Nat) : Bool := (g.nb i).testBit j

/-- Unvisited neighbours of `i` (examples/misp4_lag.cpp:99, 138). -/
def Misp.deg (g : Misp) (vis : Nat → Bool) (i : Nat) : Int :=
  (((List.range g.top).filter (fun j => g.adj i j && !vis j)).length : Nat)

/-- The loop shared by examples/misp4_lag.cpp:95-107 and 131-144: the first vertex of largest degree among
those with `p`, `none` for -1. -/
def Misp.argmax (g : Misp) (vis p : Nat → Bool) : Option Nat :=
  ((List.range g.top).foldl (fun (a : Int × Option Nat) i =>
    if p i then (if a.1 < g.deg vis i then (g.deg vis i, some i) else a) else a) (-1, none)).2

/-- `isClique` (examples/misp4_lag.cpp:110-115). -/
def Misp.isClique (g : Misp) (clique : List Nat) (v : Nat) : Bool := clique.all fun u => g.adj u v

/-- `visited[v] = true`. -/
def setTrue (vis : Nat → Bool) (v : Nat) : Nat → Bool := fun i => if i = v then true else vis i

/-- The growing loop (examples/misp4_lag.cpp:130-148); `none` when the fuel runs out. -/
def Misp.grow (g : Misp) : Nat → (Nat → Bool) → List Nat → Option ((Nat → Bool) × List Nat)
  | 0, _, _ => none
  | f + 1, vis, clique =>
    match g.argmax vis (fun i => !vis i && g.isClique clique i) with
    | none => some (vis, clique)
    | some b => g.grow f (setTrue vis b) (clique ++ [b])

/-- `findMaximalClique` (examples/misp4_lag.cpp:118-150). -/
def Misp.findClique (g : Misp) (f : Nat) (vis : Nat → Bool) : Option ((Nat → Bool) × List Nat) :=
  match g.argmax vis (fun i => !vis i) with
  | none => some (vis, [])
  | some s => g.grow f (setTrue vis s) [s]

/-- The loop of `maximalCliquePartition` (examples/misp4_lag.cpp:177-182). -/
def Misp.parts (g : Misp) : Nat → (Nat → Bool) → List (List Nat) → Option (List (List Nat))
  | 0, _, _ => none
  | f + 1, vis, cs =>
    match g.findClique (g.top + 1) vis with
    | none => none
    | some (vis', c) => if c.isEmpty then some cs else g.parts f vis' (cs ++ [c])

/-- `maximalCliquePartition` (examples/misp4_lag.cpp:172-192), the `Cliques` field. -/
def Misp.cliques (g : Misp) : Option (List (List Nat)) := g.parts (g.top + 1) (fun _ => false) []

/-- `CliqueOfVertex` (examples/misp4_lag.cpp:186-189): later cliques overwrite earlier ones. -/
def cliqueOf (cs : List (List Nat)) (v : Nat) : Int :=
  ((List.range cs.length).foldl (fun (a : Int) i => if v ∈ cs.getD i [] then (i : Int) else a) (-1))

/-! ### Bounds -/

/-- Members of a vertex set, ascending: the iteration order of `GNSet`. -/
def Misp.elems (g : Misp) (s : Nat) : List Nat := (List.range g.top).filter fun i => s.testBit i

/-- `std::max`. -/
def rmax (a b : Rat) : Rat := if a < b then b else a

/-- `std::min` against a bound that may be the largest `double`. -/
def rmin (a : Option Rat) (b : Rat) : Option Rat :=
  match a with
  | none => some b
  | some x => if b < x then some b else some x

/-- `clqWeight` (examples/misp4_lag.cpp:403-405, 421-423). -/
def Misp.clqW (g : Misp) (co : Nat → Int) (s : Nat) (wt : Nat → Rat) : Int → Rat :=
  (g.elems s).foldl (fun (cw : Int → Rat) v => fun c => if c = co v then rmax (cw (co v)) (wt v) else cw c) (fun _ => 0)

/-- The sum of a vector indexed by clique. -/
def sumTo (nc : Nat) (cw : Int → Rat) : Rat := ((List.range nc).map fun c : Nat => cw c).sum

/-- `CliqueBound` (examples/misp4_lag.cpp:402-407). -/
def Misp.cliqueBound (g : Misp) (cs : List (List Nat)) (s : Nat) : Rat :=
  sumTo cs.length (g.clqW (cliqueOf cs) s fun v => (g.w v : Rat))

/-- Contents of a `PairMap` in some iteration order (examples/misp4_lag.cpp:243). -/
abbrev Lam := List ((Nat × Nat) × Rat)

/-- `lambdas[e]`; the zero entry that `operator[]` adds for a missing key is left out. -/
def Lam.get (m : Lam) (e : Nat × Nat) : Rat :=
  match m.find? (fun x => decide (x.1 = e)) with
  | some x => x.2
  | none => 0

/-- `lambdas.erase(e)`. -/
def Lam.erase (m : Lam) (e : Nat × Nat) : Lam := m.filter fun x => decide (x.1 ≠ e)

/-- `lambdas[e] = r`. -/
def Lam.set (m : Lam) (e : Nat × Nat) (r : Rat) : Lam := m.erase e ++ [(e, r)]

/-- `LagWeight[i] -= r; LagWeight[j] -= r`. -/
def sub2 (wt : Nat → Rat) (i j : Nat) (r : Rat) : Nat → Rat :=
  let w1 := fun v => if v = i then wt i - r else wt v
  fun v => if v = j then w1 j - r else w1 v

/-- `floor(x + epsilon)` (examples/misp4_lag.cpp:397-398, 427-428). -/
def floorEps (x : Rat) : Int := (x + 1 / 100000).floor

/-- The fold over the multipliers in `LagBound` (examples/misp4_lag.cpp:412-420): reduced weights and the
sum of the multipliers used. -/
def lagFold (s : Nat) (m : Lam) (wt : Nat → Rat) : (Nat → Rat) × Rat :=
  m.foldl (fun a e =>
    if s.testBit e.1.1 && s.testBit e.1.2 then (sub2 a.1 e.1.1 e.1.2 e.2, a.2 + e.2) else (a.1, a.2 + 0)) (wt, 0)

/-- `LagBound` (examples/misp4_lag.cpp:409-429). -/
def Misp.lagBound (g : Misp) (cs : List (List Nat)) (m : Lam) (s : Nat) : Int :=
  let a := lagFold s m fun v => (g.w v : Rat)
  floorEps (a.2 + sumTo cs.length (g.clqW (cliqueOf cs) s a.1))

/-- `edgeSet` (examples/misp4_lag.cpp:284-298), in the order of `std::set`. -/
def Misp.edgeSet (g : Misp) (cs : List (List Nat)) (s : Nat) : List (Nat × Nat) :=
  (List.range g.top).flatMap fun i => ((List.range g.top).filter fun j =>
    (List.range cs.length).any (fun c => decide (i ∈ cs.getD c []) && s.testBit i && g.adj i j && s.testBit j &&
      decide (cliqueOf cs j ≠ c) && decide (i < j))).map fun j => (i, j)

/-- One clique of `solveCliqueSubproblem` (examples/misp4_lag.cpp:219-227): the largest positive weight and
its vertex. -/
def bestIn (s : Nat) (wt : Nat → Rat) (c : List Nat) : Rat × Option Nat :=
  c.foldl (fun a v => if s.testBit v && decide (a.1 < wt v) then (wt v, some v) else a) (0, none)

/-- Body of the loop over the cliques (examples/misp4_lag.cpp:218-232). -/
def solveStep (s : Nat) (wt : Nat → Rat) (a : Rat × (Nat → Int)) (c : List Nat) : Rat × (Nat → Int) :=
  (a.1 + (bestIn s wt c).1, match (bestIn s wt c).2 with
    | some v => fun i => if i = v then 1 else a.2 i
    | none => a.2)

/-- `solveCliqueSubproblem` (examples/misp4_lag.cpp:214-234): value and chosen vertices. -/
def solveSub (cs : List (List Nat)) (s : Nat) (wt : Nat → Rat) : Rat × (Nat → Int) :=
  cs.foldl (solveStep s wt) (0, fun _ => 0)

/-- New multiplier of one edge (examples/misp4_lag.cpp:249-252). -/
def newMul (m : Lam) (x : Nat → Int) (alpha : Rat) (e : Nat × Nat) : Rat :=
  let step := alpha * ((x e.1 + x e.2 - 1 : Int) : Rat)
  if m.any (fun y => decide (y.1 = e)) then rmax 0 (m.get e + step) else rmax 0 step

/-- Body of the loop over the edges (examples/misp4_lag.cpp:248-256): multipliers and whether an edge is
violated. -/
def updStep (x : Nat → Int) (alpha : Rat) (a : Lam × Bool) (e : Nat × Nat) : Lam × Bool :=
  (if newMul a.1 x alpha e = 0 then a.1.erase e else a.1.set e (newMul a.1 x alpha e), a.2 || decide (1 < x e.1 + x e.2))

/-- `updateMultipliers` (examples/misp4_lag.cpp:246-258): new multipliers and whether no edge is violated. -/
def updMul (m : Lam) (x : Nat → Int) (alpha : Rat) (es : List (Nat × Nat)) : Lam × Bool :=
  let r := es.foldl (updStep x alpha) (m, false)
  (r.1, !r.2)

/-- `p < dualBound`. -/
def improves (d : Option Rat) (p : Rat) : Bool :=
  match d with
  | none => true
  | some y => decide (p < y)

/-- The subgradient loop (examples/misp4_lag.cpp:319-395) with `r` iterations left of `maxIter`, at iteration
`k`, `un` of them without improvement.  `0.1*maxIter` is taken exactly. -/
def lagLoop (cs : List (List Nat)) (s : Nat) (wt : Nat → Rat) (es : List (Nat × Nat)) (alpha0 : Rat) (maxIter : Nat) :
    Nat → Nat → Nat → Lam → Option Rat → Lam × Option Rat
  | 0, _, _, m, d => (m, d)
  | r + 1, k, un, m, d =>
    let lw := es.foldl (fun a e => sub2 a e.1 e.2 (m.get e)) wt
    let q := solveSub cs s lw
    let p := q.1 + (es.map m.get).sum
    let d1 := if k = 0 then rmin d p else d
    let grad := (es.filter fun e => decide (q.2 e.1 = q.2 e.2)).length
    if grad = 0 then (m, d1)
    else
      let u := updMul m q.2 (alpha0 / (grad : Rat)) es
      if u.2 then (u.1, rmin d1 p)
      else if improves d1 p then
        lagLoop cs s wt es alpha0 maxIter r (k + 1) 0 u.1 (some p)
      else if maxIter < 10 * (un + 1) then (u.1, d1)
      else lagLoop cs s wt es alpha0 maxIter r (k + 1) (un + 1) u.1 d1

/-- `lagrangianDual` (examples/misp4_lag.cpp:275-399): new multipliers and the bound, `none` when no iteration
is made. -/
def Misp.lagDual (g : Misp) (cs : List (List Nat)) (maxIter : Nat) (alpha0 : Rat) (m : Lam) (reOpt : Bool) (s : Nat) : Lam × Option Int :=
  let es := g.edgeSet cs s
  let init : Rat := (cs.length : Rat) / (es.length : Rat)
  let m1 := if reOpt then m else es.foldl (fun a e => a.set e (1 / 100 * init)) m
  let r := lagLoop cs s (fun v => (g.w v : Rat)) es alpha0 maxIter maxIter 0 0 m1 none
  (r.1, r.2.map floorEps)

/-! ### The three local bounds of `main` -/

/-- LBopt 0 (examples/misp4_lag.cpp:535-537) and examples/misp4.cpp:159-161. -/
def Misp.bound0 (g : Misp) : Nat → Ctx → Int := fun s _ => g.sum s

/-- LBopt 1 (examples/misp4_lag.cpp:538-540).  The program keeps a `double`; with whole weights nothing is
lost (`cliqueBound_whole`). -/
def Misp.bound1 (g : Misp) (cs : List (List Nat)) : Nat → Ctx → Int := fun s _ => (g.cliqueBound cs s).floor

/-- LBopt 2 (examples/misp4_lag.cpp:541-550): reoptimise and keep the multipliers on `BBCtx`, read them on
`DDCtx`. -/
def Misp.lagLoc (g : Misp) (cs : List (List Nat)) : BB.LocS Misp4S Lam where
  rd := fun m x => g.lagBound cs m x.sel
  call := fun m x => (((g.lagDual cs 50 1 m true x.sel).2).getD 0, (g.lagDual cs 50 1 m true x.sel).1)

/-- The multipliers before the search (examples/misp4_lag.cpp:483-490). -/
def Misp.lam0 (g : Misp) (cs : List (List Nat)) : Lam := (g.lagDual cs (min (50 * g.top) 100000) 1 [] false (2 ^ g.top - 1)).1

/-- The search of `main` with LBopt 0 or 1, and of examples/misp4.cpp; the partition is computed first
(examples/misp4_lag.cpp:475). -/
def Misp.search4 (g : Misp) (opt : Nat) (w dfuel : Nat) (lim : Nat → Bool) (fuel : Nat) : Option (BB.BS Misp4S) :=
  match opt with
  | 0 => BB.search (g.mdl4 g.bound0) w dfuel lim fuel (-2147483647)
  | 1 => g.cliques.bind fun cs => BB.search (g.mdl4 (g.bound1 cs)) w dfuel lim fuel (-2147483647)
  | _ => g.cliques.bind fun cs =>
    (BB.searchS (g.mdl4 g.bound0) (g.lagLoc cs) (g.lam0 cs) w dfuel lim fuel (-2147483647)).map Prod.fst

end Verif.Ex
