import Verif.Spec
import Verif.Heap
import Verif.MSort
import Verif.UF
/-!
# The TSP example with local bounds (examples/tsp_test4.cpp:35-44, 150-252)

City sets are bit masks, as in `Tsp.lean`; the set iterations run over the members in increasing
order.  Distances are integers (`readFile` reads `int`s; the sums then stay integral).  The heap, the
union-find structure and the sort are the models of src/heap.hpp, src/uf.hpp and src/msort.hpp.
-/
namespace Verif.Ex
open Verif.DD

/-- `Instance` (examples/tsp_test4.cpp:46-55): cities 0 .. nv-1 and distances. -/
structure Tsp4 where
  nv : Nat
  d : Nat → Nat → Int

/-- `TSP` (examples/tsp_test4.cpp:5-12): cities on all ways into the state, current city, hops. -/
structure Tsp4S where
  A : Nat
  e : Nat
  hops : Nat
deriving DecidableEq

/-- `GE` (examples/tsp_test4.cpp:35-44). -/
structure GE where
  a : Nat
  b : Nat
  w : Int
deriving DecidableEq

/-- The heap order (examples/tsp_test4.cpp:157). -/
def GE.ord (x y : GE) : Bool := decide (x.w < y.w)

variable (t : Tsp4)

/-- `C` (examples/tsp_test4.cpp:51, 202). -/
def Tsp4.all : Nat := 2 ^ t.nv - 1

/-- The number of members of a set of cities (`GNSet::size`, src/util.hpp:538-543). -/
def Tsp4.card (A : Nat) : Nat := (List.range t.nv).countP fun i => A.testBit i

/-- `(C - V).insert(src).insert(sink)` (examples/tsp_test4.cpp:152, 180). -/
def Tsp4.verts (V src sink : Nat) : List Nat :=
  (List.range t.nv).filter fun i => !V.testBit i || decide (i = src) || decide (i = sink)

/-- The arcs put in the heap (examples/tsp_test4.cpp:158-160). -/
def Tsp4.arcs (ts : List Nat) : List GE :=
  ts.flatMap fun a => (ts.filter fun b => decide (a ≠ b)).map fun b => ⟨a, b, t.d a b⟩

/-- `pq.insert` of every arc, then `pq.buildHeap()` (examples/tsp_test4.cpp:157-161). -/
def insAll (h : Heap.H GE) : List GE → Heap.H GE
  | [] => h
  | x :: xs => insAll (Heap.insert h x).1 xs
def Tsp4.pq (ts : List Nat) : Heap.H GE :=
  Heap.buildHeap GE.ord (insAll (Heap.mk' ⟨0, 0, 0⟩ (ts.length * ts.length)) (t.arcs ts))

/-- `for(auto v : t) vm[v] = uf.makeSet(v)` (examples/tsp_test4.cpp:155): the node of the city at position
`i` of the list is node `i`. -/
def mkSets : UF.U → List Nat → UF.U
  | u, [] => u
  | u, _ :: ts => mkSets (UF.makeSet u).1 ts

/-- The `while` loop (examples/tsp_test4.cpp:164-171).  `vm` is the map from cities to nodes, `need` is
`ts`; the first argument bounds the number of iterations, `fu` the recursion depth of `setFor`. -/
def mstLoop (vm : Nat → Nat) (fu : Nat) (need : Int) : Nat → Heap.H GE → UF.U → Nat → Int → Option Int
  | 0, _, _, _, _ => none
  | n + 1, h, u, ne, l =>
    if (ne : Int) ≠ need ∧ Heap.empty h = false then
      let x := Heap.extractMax GE.ord h
      let e := x.2
      (UF.setFor fu u (vm e.a)).bind fun p => (UF.setFor fu p.1 (vm e.b)).bind fun q =>
        if p.2 ≠ q.2 then
          (UF.merge fu q.1 (vm e.a) (vm e.b)).bind fun r => mstLoop vm fu need n x.1 r.1 (ne + 1) (l + e.w)
        else mstLoop vm fu need n x.1 q.1 ne l
    else some l

/-- `mst` (examples/tsp_test4.cpp:150-173). -/
def Tsp4.mst (V src sink hops : Nat) : Option Int :=
  let ts := t.verts V src sink
  mstLoop (fun v => ts.idxOf v) ts.length ((t.nv : Int) - hops) ((t.arcs ts).length + 1) (t.pq ts) (mkSets UF.empty ts) 0 0

/-- `min(t, j ≠ i, d[i][j])` (examples/tsp_test4.cpp:187, src/util.hpp:808-817). -/
def Tsp4.cheapest (ts : List Nat) (i : Nat) : Int :=
  (ts.filter fun j => decide (i ≠ j)).foldl (fun r j => if r < t.d i j then r else t.d i j) 2147483647

/-- The cells written to `edge` (examples/tsp_test4.cpp:185-187). -/
def Tsp4.edge (ts : List Nat) (src : Nat) : List Int := (ts.filter fun i => decide (i ≠ src)).map (t.cheapest ts)

/-- `greedy` (examples/tsp_test4.cpp:175-191).  Only the `ne` first cells of `edge` are written; `none` is
the sum reading a cell beyond them, which holds no value.  The range `[0,ts)` is `[0,|C|-hops)`. -/
def Tsp4.greedy (V src sink hops : Nat) : Option Int :=
  let ts := t.verts V src sink
  let es := t.edge ts src
  let c := MSort.mergeSort (fun a b : Int => decide (a < b)) (fun i => es.getD i 0) es.length
  if t.nv - hops ≤ es.length then some ((List.range (t.nv - hops)).foldl (fun s i => s + c i) 0) else none

/-- `local` (examples/tsp_test4.cpp:246-252) where it is defined. -/
def Tsp4.bound (x : Tsp4S) : Option Int :=
  (t.mst x.A 0 x.e x.hops).bind fun m => (t.greedy x.A 0 x.e x.hops).map fun g => max m g

/-- The lambdas of `main` (examples/tsp_test4.cpp:216-252).  `J` is what the local bound gives where the
program reads a cell never written. -/
def Tsp4.mdl (J : Int) : Mdl Tsp4S where
  sense := .min
  sti := ⟨1, 0, 0⟩
  stt := ⟨t.all, 0, t.nv⟩
  lgf := fun x => if x.hops + 1 ≥ t.nv then [0]
    else ((List.range t.nv).filter fun i => !x.A.testBit i).map (fun i : Nat => (i : Int))
  stf := fun x l => if l = 0 then some ⟨t.all, 0, t.nv⟩ else some ⟨x.A ||| 2 ^ l.toNat, l.toNat, x.hops + 1⟩
  stc := fun x l => t.d x.e l.toNat
  smf := fun a b =>
    if a.e = b.e ∧ a.hops = b.hops ∧ ((t.card a.A : Int) - t.card b.A).natAbs < 5 then some ⟨a.A &&& b.A, a.e, a.hops⟩ else none
  eqs := fun x => decide (x.e = 0) && decide (x.hops = t.nv)
  loc := some fun x _ => (t.bound x).getD J
  sdom := none

/-- Rank of a state: hops. -/
def Tsp4.rank (_ : Tsp4) (x : Tsp4S) : Nat := x.hops

end Verif.Ex
