import Verif.Tsp4
/-!
# Three more TSP examples (examples/tsptw.cpp, examples/tsp_test2.cpp, examples/tsp_test3.cpp)

They share the instances, the states and most lambdas of `Tsp4.lean`.  The field `lb` of the states of
tsp_test2 and tsp_test3 is left out: nothing reads it and the equality ignores it
(examples/tsp_test2.cpp:15-19, examples/tsp_test3.cpp:16-20).  The time windows of tsptw are read from the
file and used by nothing (examples/tsptw.cpp:76-81, 118).
-/
namespace Verif.Ex
open Verif.DD

variable (t : Tsp4)

/-- `min(t, j ≠ i, d[i][j])` (examples/tsptw.cpp:101) on distances with fractions: the result of
src/util.hpp:808-817 is an `int`, so every assignment drops the fraction.  Distances are multiples of
`1/u`, given as integers. -/
def Tsp4.cheapestTw (u : Nat) (ts : List Nat) (i : Nat) : Int :=
  (ts.filter fun j => decide (i ≠ j)).foldl (fun r j => ((if r < t.d i j then r else t.d i j).tdiv u) * u) (2147483647 * u)

/-- The cheapest-arc bound (examples/tsptw.cpp:89-105, examples/tsp_test3.cpp:139-166) for one way `ch` to
get the cheapest arc of a city.  Only as many cells as there are cities but `src` are written; `none` is
the sum reading a cell beyond them. -/
def Tsp4.greedyC (ch : List Nat → Nat → Int) (V src sink hops : Nat) : Option Int :=
  let ts := t.verts V src sink
  let es := (ts.filter fun i => decide (i ≠ src)).map (ch ts)
  let c := MSort.mergeSort (fun a b : Int => decide (a < b)) (fun i => es.getD i 0) es.length
  if t.nv - hops ≤ es.length then some ((List.range (t.nv - hops)).foldl (fun s i => s + c i) 0) else none

/-- The lambdas of `main` (examples/tsptw.cpp:124-150): those of tsp_test4 without the test on the sizes in
the merge and with `greedy` alone as local bound.  `J` is what the bound gives where the program reads a
cell never written. -/
def Tsp4.mdlTw (u : Nat) (J : Int) : Mdl Tsp4S :=
  { t.mdl J with
    smf := fun a b => if a.e = b.e ∧ a.hops = b.hops then some ⟨a.A &&& b.A, a.e, a.hops⟩ else none
    loc := some fun x _ => (t.greedyC (t.cheapestTw u) x.A 0 x.e x.hops).getD J }

/-- The `while` loop of `mst` (examples/tsp_test2.cpp:115-122, examples/tsp_test3.cpp:118-125), which does not
test the heap: `none` is an extraction from the empty heap, which reads and writes outside the array of
src/heap.hpp:161-171 at the second such extraction. -/
def mst2Loop (vm : Nat → Nat) (fu : Nat) (need : Int) : Nat → Heap.H GE → UF.U → Nat → Int → Option Int
  | 0, _, _, _, _ => none
  | n + 1, h, u, ne, l =>
    if (ne : Int) ≠ need then
      if Heap.empty h = true then none
      else
        let x := Heap.extractMax GE.ord h
        let e := x.2
        (UF.setFor fu u (vm e.a)).bind fun p => (UF.setFor fu p.1 (vm e.b)).bind fun q =>
          if p.2 ≠ q.2 then
            (UF.merge fu q.1 (vm e.a) (vm e.b)).bind fun r => mst2Loop vm fu need n x.1 r.1 (ne + 1) (l + e.w)
          else mst2Loop vm fu need n x.1 q.1 ne l
    else some l

/-- `mst` (examples/tsp_test2.cpp:101-124). -/
def Tsp4.mst2 (V src sink hops : Nat) : Option Int :=
  let ts := t.verts V src sink
  mst2Loop (fun v => ts.idxOf v) ts.length ((t.nv : Int) - hops) ((t.arcs ts).length + 1) (t.pq ts) (mkSets UF.empty ts) 0 0

/-- The lambdas of `main` (examples/tsp_test2.cpp:141-170): the merge of tsptw, `mst` as local bound.  `J` is
what the bound would give where the program extracts from the empty heap. -/
def Tsp4.mdl2 (J : Int) : Mdl Tsp4S :=
  { t.mdlTw 1 J with
    loc := some fun x _ => (t.mst2 x.A 0 x.e x.hops).getD J }

/-- `TSP` (examples/tsp_test3.cpp:5-14): cities on all and on some ways into the state. -/
structure Tsp3S where
  A : Nat
  S : Nat
  e : Nat
  hops : Nat
deriving DecidableEq

/-- The inner loop of `Greedy` (examples/tsp_test3.cpp:151-156); `none` is `INF`, above every distance.
(An `INF` left at the end, which the assertion excludes, is read as 0 in `mdl3`; `cheapest3_some` shows that it
does not occur.) -/
def Tsp4.cheapest3 (ts : List Nat) (i : Nat) : Option Int :=
  ts.foldl (fun r j => if i ≠ j then (match r with
    | none => some (t.d i j)
    | some v => if t.d i j < v then some (t.d i j) else some v) else r) none

/-- The lambdas of `main` (examples/tsp_test3.cpp:183-217).  `J` is what the local bound gives where the
program reads a cell never written. -/
def Tsp4.mdl3 (J : Int) : Mdl Tsp3S where
  sense := .min
  sti := ⟨1, 1, 0, 0⟩
  stt := ⟨t.all, t.all, 0, t.nv⟩
  lgf := fun x => if x.hops + 1 ≥ t.nv then [0]
    else if (t.card x.S : Int) - 1 = x.hops then ((List.range t.nv).filter fun i => !x.S.testBit i).map (fun i : Nat => (i : Int))
    else ((List.range t.nv).filter fun i => !x.A.testBit i).map (fun i : Nat => (i : Int))
  stf := fun x l => if l = 0 then some ⟨t.all, t.all, 0, t.nv⟩
    else some ⟨x.A ||| 2 ^ l.toNat, x.S ||| 2 ^ l.toNat, l.toNat, x.hops + 1⟩
  stc := fun x l => t.d x.e l.toNat
  smf := fun a b => if a.e = b.e ∧ a.hops = b.hops then some ⟨a.A &&& b.A, a.S ||| b.S, a.e, a.hops⟩ else none
  eqs := fun x => decide (x.e = 0) && decide (x.hops = t.nv)
  loc := some fun x _ => (t.greedyC (fun ts i => (t.cheapest3 ts i).getD 0) x.A 0 x.e x.hops).getD J
  sdom := none

/-- Rank of a state: hops. -/
def Tsp4.rank3 (_ : Tsp4) (x : Tsp3S) : Nat := x.hops

end Verif.Ex
