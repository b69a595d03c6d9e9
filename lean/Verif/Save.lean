import Verif.DD
/-!
# Writing a diagram for graphviz (`AbstractDD::saveGraph`, src/dd.cpp:129-171)

The output is modelled as a list of lines without the fixed first and last ones.  A node is written as its identifier, which starts the text of
`Node::print` (src/node.hpp:205-212), with the parts of its style; the listing of all nodes to `std::cout` is left out.
-/
namespace Verif.DD
variable {σ : Type}

/-- A line of the output: a node, whether it is filled green, whether it has a box (src/dd.cpp:150-155); an arc with its cost and label (157-167). -/
inductive GLine where
  | node (n : Nat) (green box : Bool)
  | arc (src dst : Nat) (cost label : Int)
deriving DecidableEq, Repr

/-- `h.find({n,0})` (src/heap.hpp:145-150): `DNode`s are equal if they hold the same node (src/dd.cpp:99).  All slots below the capacity are scanned, so also
those of nodes that have left the heap. -/
def findSlot (h : DH) (n : Nat) : Nat → Nat → Option Nat
  | 0, _ => none
  | k + 1, i => if (h.v i).1 = n then some (h.data i) else findSlot h n k (i + 1)
def findNd (h : DH) (n : Nat) : Option Nat := findSlot h n (h.mxs - 1) 1

/-- The loop over the kids (src/dd.cpp:156-168); `none` is a null location, undefined behaviour. -/
def saveKids (g : G σ) : List Nat → DH → Option (DH × List GLine)
  | [], h => some (h, [])
  | e :: es, h =>
    match findNd h (g.ed e) with
    | none => none
    | some l => (saveKids g es (Heap.decrease dord ddec h l)).map fun r => (r.1, .arc (g.es e) (g.ed e) (g.eo e) (g.el e) :: r.2)

/-- The loop over the heap (src/dd.cpp:146-169); nothing is inserted, so it turns as often as there are elements.  `eqv` is the user's `std::equal_to` on
states (src/dd.hpp:406-410). -/
def saveLoop (eqv : σ → σ → Bool) (g : G σ) : Nat → DH → Option (List GLine)
  | 0, _ => some []
  | k + 1, h =>
    let x := Heap.extractMax dord h
    let n := x.2.1
    (saveKids g (g.kids n) x.1).bind fun r =>
      (saveLoop eqv g k r.1).map fun o => .node n (g.ex n) (eqv (g.st n) (g.st g.trg)) :: (r.2 ++ o)

/-- `saveGraph` (src/dd.cpp:129-171); `g.nn`, which names no node, stands for the null pointer in unused slots. -/
def saveGraph (eqv : σ → σ → Bool) (g : G σ) : Option (List GLine) :=
  let t := topoFill (fun n => (g.par n).length) g.an (Heap.mk' (g.nn, 0) 1000) (fun _ => none)
  saveLoop eqv g g.an.length (Heap.buildHeap dord t.1)

end Verif.DD
