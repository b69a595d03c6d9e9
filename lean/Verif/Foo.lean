import Verif.Spec
/-!
# The first example (examples/foo.cpp)

Vertex sets are bit masks, as in the other examples.  The graph and the weights are parameters; the
program fixes them (`fooInst`).
-/
namespace Verif.Ex
open Verif.DD

/-- Vertices 1 .. top-1, `neighbors` (each vertex being its own neighbour, examples/foo.cpp:54-60) and
`weight`. -/
structure Foo where
  top : Nat
  nb : Nat → Nat → Bool
  w : Nat → Int

/-- `filter(s.sel, i >= label && !nl.contains(i))` (examples/foo.cpp:76-78). -/
def Foo.keep (f : Foo) (s label : Nat) : Nat :=
  (List.range f.top).foldl (fun m i => if s.testBit i ∧ label ≤ i ∧ f.nb label i = false then m ||| 2 ^ i else m) 0

/-- `max(sel)` (src/util.hpp:757-762): the largest member; of the empty set 0 here (never merged: it is
the sink). -/
def Foo.maxS (f : Foo) (s : Nat) : Nat :=
  (List.range f.top).foldl (fun m i => if s.testBit i then i else m) 0

/-- The lambdas of `main` (examples/foo.cpp:59-93).  A state is the mask of selectable vertices. -/
def Foo.mdl (f : Foo) : Mdl Nat where
  sense := .max
  sti := 2 ^ f.top - 2
  stt := 0
  lgf := fun _ => (List.range f.top).map (fun i : Nat => (i : Int) + 1)
  stf := fun s label =>
    if label = f.top then some 0
    else if s.testBit label.toNat then some (f.keep s label.toNat)
    else none
  stc := fun _ label => if label = f.top then 0 else f.w label.toNat
  smf := fun a b => if f.maxS a = f.maxS b then some (a &&& b) else none
  eqs := fun s => decide (s = 0)
  loc := none
  sdom := none

/-- Edges and weights of the program (examples/foo.cpp:40-57). -/
def fooInst : Foo where
  top := 6
  nb := fun i j => decide (i = j) || [(1, 2), (1, 3), (2, 3), (2, 4), (3, 4), (4, 5)].contains (min i j, max i j)
  w := fun i => [0, 3, 4, 2, 2, 7].getD i 0

end Verif.Ex
