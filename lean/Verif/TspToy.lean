import Verif.Tsp
import Verif.Knapsack2
/-!
# The two toy TSP examples (examples/tsptoy.cpp, examples/tsptoy2.cpp)

The programs fix six cities and a table of distances; here the cities are 1 .. n for any `n` and the
distances are any integers.  City sets are bit masks.
-/
namespace Verif.Ex
open Verif.DD

/-- The city set `C` and the distances `es` (examples/tsptoy.cpp:42-50, examples/tsptoy2.cpp:39-47): cities
1 .. n.  `es.at` throws on a city paired with itself or outside `C`; `toy_arcs` and `toy2_arcs` show that this never happens. -/
structure Toy where
  n : Nat
  d : Nat → Nat → Int

/-- The cities. -/
def Toy.cs (t : Toy) : List Nat := List.range' 1 t.n

/-- The mask of `C`. -/
def Toy.all (t : Toy) : Nat := 2 ^ (t.n + 1) - 2

/-- `size()` of a set of cities. -/
def Toy.size (t : Toy) (s : Nat) : Nat := (t.cs.filter fun i => s.testBit i).length

/-- `(C - s).remove(1).remove(e)` (examples/tsptoy.cpp:59), in iteration order. -/
def Toy.free (t : Toy) (x : TspS) : List Nat :=
  t.cs.filter fun i => !x.s.testBit i && decide (i ≠ 1) && decide (i ≠ x.e)

/-- `(float)a / b` for 0 < a ≤ b < 2^24, as `m / 2^k` with `m` of 24 bits; IEEE-754 binary32, round to nearest
even. -/
def fdiv24 (a b : Nat) : Nat × Nat :=
  let k0 := 24 + Nat.log2 b - Nat.log2 a
  let k := if a * 2 ^ k0 / b < 2 ^ 24 then k0 else k0 - 1
  (rne (a * 2 ^ k) b, k)

/-- `((float)valid.size()/s1.hops) >= .7` (examples/tsptoy.cpp:73): a `float` quotient, widened, against the
`double` nearest to 7/10, which is 6305039478318694 / 2^53.  At no hops the quotient is 0/0, for which
every comparison is false. -/
def nearEnough (v hops : Nat) : Bool :=
  if v = 0 then false
  else
    let q := fdiv24 v hops
    decide (6305039478318694 * 2 ^ q.2 ≤ q.1 * 2 ^ 53)

/-- The lambdas of `main` (examples/tsptoy.cpp:53-77), with any test `ok` on the number of common cities
and the hops in the merge; the program's is `nearEnough`. -/
def Toy.mdl (t : Toy) (ok : Nat → Nat → Bool) : Mdl TspS where
  sense := .min
  sti := ⟨0, 1, 0⟩
  stt := ⟨t.all, 1, t.n⟩
  lgf := fun x => if x.hops + 1 ≥ t.n then [1] else (t.free x).map (fun i : Nat => (i : Int))
  stf := fun x l => if l = 1 then some ⟨t.all, 1, t.n⟩ else some ⟨x.s ||| 2 ^ l.toNat, l.toNat, x.hops + 1⟩
  stc := fun x l => t.d x.e l.toNat
  smf := fun a b => if a.e = b.e ∧ a.hops = b.hops ∧ ok (t.size (a.s &&& b.s)) a.hops = true then some ⟨a.s &&& b.s, a.e, a.hops⟩ else none
  eqs := fun x => decide (x.e = 1) && decide (x.hops = t.n)
  loc := none
  sdom := none

/-- Rank of a state: cities visited. -/
def Toy.rank (_ : Toy) (x : TspS) : Nat := x.hops

/-- `TSP` (examples/tsptoy2.cpp:3-9): visited set and current city. -/
structure Toy2S where
  s : Nat
  e : Nat
deriving DecidableEq

/-- The lambdas of `main` (examples/tsptoy2.cpp:50-75). -/
def Toy.mdl2 (t : Toy) : Mdl Toy2S where
  sense := .min
  sti := ⟨0, 1⟩
  stt := ⟨t.all, 1⟩
  lgf := fun x => (t.cs.filter fun i => !x.s.testBit i || decide (i = 1)).map (fun i : Nat => (i : Int))
  stf := fun x l =>
    if (l = 1 ∧ t.size x.s + 1 < t.n) ∨ (l ≠ 1 ∧ t.n ≤ t.size x.s + 1) then none
    else if l = 1 ∧ t.n ≤ t.size x.s + 1 then some ⟨t.all, 1⟩
    else if x.s.testBit l.toNat = false ∧ (x.e : Int) ≠ l then some ⟨x.s ||| 2 ^ l.toNat, l.toNat⟩
    else none
  stc := fun x l => t.d x.e l.toNat
  smf := fun a b => if a.e = b.e then some ⟨a.s &&& b.s, a.e⟩ else none
  eqs := fun x => decide (x.e = 1)
  loc := none
  sdom := none

/-- The distances of the programs (examples/tsptoy.cpp:43-50, examples/tsptoy2.cpp:40-47). -/
def toy6 : Toy := ⟨6, fun i j => (([[], [0,0,10,15,20,6,20], [0,10,0,35,25,100,5], [0,15,35,0,30,100,100], [0,20,25,30,0,3,30], [0,6,100,100,3,0,100],
  [0,20,5,100,30,100,0]] : List (List Int)).getD i []).getD j 0⟩

end Verif.Ex
