import Verif.Spec
/-!
# The TSP example (examples/tsp.cpp:44-139)

City sets are bit masks: city `i` is a member when bit `i` is set.  C49 and C50 tie `GNSet` to sets.
Distances are integers.
-/
namespace Verif.Ex
open Verif.DD

/-- `Instance` (examples/tsp.cpp:44-53): cities 0 .. nv-1 and distances. -/
structure Tsp where
  nv : Nat
  d : Nat → Nat → Int

/-- `TSP` (examples/tsp.cpp:3-10): visited set, current city, hops. -/
structure TspS where
  s : Nat
  e : Nat
  hops : Nat
deriving DecidableEq

/-- The whole city set `C` (examples/tsp.cpp:48). -/
def Tsp.all (t : Tsp) : Nat := 2 ^ t.nv - 1

/-- `(C - s).remove(1).remove(e)` (examples/tsp.cpp:117), in iteration order. -/
def Tsp.free (t : Tsp) (x : TspS) : List Nat :=
  (List.range t.nv).filter fun i => !x.s.testBit i && decide (i ≠ 1) && decide (i ≠ x.e)

/-- The lambdas of `main` (examples/tsp.cpp:111-136). -/
def Tsp.mdl (t : Tsp) : Mdl TspS where
  sense := .min
  sti := ⟨0, 1, 0⟩
  stt := ⟨t.all, 1, t.nv⟩
  lgf := fun x => if x.hops + 1 ≥ t.nv then [1] else (t.free x).map (fun i : Nat => (i : Int))
  stf := fun x l => if l = 1 then some ⟨t.all, 1, t.nv⟩ else some ⟨x.s ||| 2 ^ l.toNat, l.toNat, x.hops + 1⟩
  stc := fun x l => t.d x.e l.toNat
  smf := fun a b => if a.e = b.e ∧ a.hops = b.hops then some ⟨a.s &&& b.s, a.e, a.hops⟩ else none
  eqs := fun x => decide (x.e = 1) && decide (x.hops = t.nv)
  loc := none
  sdom := none

/-- Rank of a state: cities visited. -/
def Tsp.rank (_ : Tsp) (x : TspS) : Nat := x.hops

end Verif.Ex
