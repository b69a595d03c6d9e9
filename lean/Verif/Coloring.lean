import Verif.BB
/-!
# The graph-colouring toy (examples/coloringtoy.cpp:5-128)

Colour sets are bit masks: colour `c` is a member when bit `c` is set.  C49 and C50 tie `GNSet` to sets.
-/
namespace Verif.Ex
open Verif.DD

/-- The graph (examples/coloringtoy.cpp:55-63): vertices 0 .. K-1 and edges in either direction. -/
structure Col where
  K : Nat
  es : List (Nat × Nat)

/-- `COLOR` (examples/coloringtoy.cpp:7-16): colours still allowed per vertex, largest colour used, next
vertex. -/
structure ColS where
  s : List Nat
  last : Nat
  vtx : Nat
deriving DecidableEq

/-- `es.contains(GE{a,b}) || es.contains(GE{b,a})` (examples/coloringtoy.cpp:87). -/
def Col.adj (t : Col) (a b : Nat) : Bool := t.es.contains (a, b) || t.es.contains (b, a)

/-- `setFrom(std::views::iota(1,K+1))` (examples/coloringtoy.cpp:66). -/
def Col.labels (t : Col) : Nat := 2 ^ (t.K + 1) - 2

/-- The legal sets after giving colour `l` to vertex `v` (examples/coloringtoy.cpp:85-90). -/
def Col.next (t : Col) (s : List Nat) (v l : Nat) : List Nat :=
  (List.range s.length).map fun i =>
    if i = v then 2 ^ l
    else if v < i ∧ t.adj v i = true ∧ (s.getD i 0).testBit l = true then s.getD i 0 ^^^ 2 ^ l
    else s.getD i 0

/-- The sink (examples/coloringtoy.cpp:74-76). -/
def Col.target (t : Col) : ColS := ⟨[], 0, t.K⟩

/-- The lambdas of `main` (examples/coloringtoy.cpp:67-113); `ub` is what the generator reads as
`(int)bnds.getPrimal()`, `none` leaves that limit out.  For `ub < 1` the C++ range `close(1,ub)` runs
backwards; that does not come up: primal bounds start at the largest `int` and are costs of
solutions afterwards, which are at least 1. -/
def Col.mdl (t : Col) (ub : Option Int) : Mdl ColS where
  sense := .min
  sti := ⟨List.replicate t.K t.labels, 0, 0⟩
  stt := t.target
  lgf := fun x => if x.vtx ≥ t.K then [] else
    ((List.range (x.last + 1)).map (fun i : Nat => (i : Int) + 1)).filter fun l =>
      match ub with
      | none => true
      | some p => decide (l ≤ p)
  stf := fun x l => if (x.s.getD x.vtx 0).testBit l.toNat = true then
      if x.vtx + 1 = t.K then some t.target else some ⟨t.next x.s x.vtx l.toNat, max l.toNat x.last, x.vtx + 1⟩
    else none
  stc := fun x l => max 0 (l - x.last)
  smf := fun a b => if a.last = b.last ∧ a.vtx = b.vtx then
      some ⟨(List.range a.s.length).map fun i => a.s.getD i 0 ||| b.s.getD i 0, a.last, a.vtx⟩ else none
  eqs := fun x => decide (x.vtx = t.K)
  loc := none
  sdom := none

/-- The problem without the limit the generator takes from the primal bound. -/
def Col.full (t : Col) : Mdl ColS := t.mdl none

/-- What the generator shows at primal bound `p`. -/
def Col.fam (t : Col) (p : Int) : Mdl ColS := t.mdl (some p)

/-- Rank of a state: vertices coloured. -/
def Col.rank (_ : Col) (x : ColS) : Nat := x.vtx

end Verif.Ex
