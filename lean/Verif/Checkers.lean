import Verif.ColoringV
import Verif.Tsp4

/-!
# What the solution callbacks of the colouring and TSP examples compute
-/
namespace Verif.Ex

/-- Addition of two `int`s; `none` is the overflow, which is undefined. -/
def addI (a b : Int) : Option Int :=
  if -2147483648 ≤ a + b ∧ a + b ≤ 2147483647 then some (a + b) else none

/-- One turn of the loop in the callback (examples/tsp_test4.cpp:209-213): `td += d[pv][v]; pv = v; cnt++`.
`none`: an index outside the matrix, or an overflow. -/
def Tsp4.checkStep (t : Tsp4) (s : Int × Int × Nat) (v : Int) : Option (Int × Int × Nat) :=
  if 0 ≤ s.1 ∧ s.1 < t.nv ∧ 0 ≤ v ∧ v < t.nv then
    (addI s.2.1 (t.d s.1.toNat v.toNat)).map fun td => (v, td, s.2.2 + 1)
  else none

/-- The callback of tsp_test4 (examples/tsp_test4.cpp:205-215): the printed length and number of hops. -/
def Tsp4.checker (t : Tsp4) (inc : List Int) : Option (Int × Nat) :=
  (inc.foldlM t.checkStep (0, 0, 0)).map fun s => (s.2.1, s.2.2)

/-- `h.contains(k)` and the value found at `k` in a `std::map`, kept as a list of pairs in the order of
iteration. -/
def mget (h : List (Int × Int)) (k : Int) : Option Int :=
  match h with
  | [] => none
  | (a, n) :: h => if a = k then some n else mget h k

/-- `h[k] = n`: overwrites the value at `k`, or inserts it before the first larger key. -/
def mput (h : List (Int × Int)) (k n : Int) : List (Int × Int) :=
  match h with
  | [] => [(k, n)]
  | (a, x) :: h => if k < a then (k, n) :: (a, x) :: h else if a = k then (k, n) :: h else (a, x) :: mput h k n

/-- `h[inc[v]] = h.contains(inc[v]) ? h[inc[v]] + 1 : 1` (examples/coloring.cpp:190-191,
coloring3.cpp:192-193).  The right-hand side is evaluated first (C++17 and later; the project asks for
C++23, CMakeLists.txt:12); counts stay below the number of vertices, so the `+ 1` is exact. -/
def tally (h : List (Int × Int)) (k : Int) : List (Int × Int) :=
  mput h k (match mget h k with
    | some n => n + 1
    | none => 1)

/-- The histogram of colours in the callback, in the order in which it is printed
(examples/coloring.cpp:189-193, coloring3.cpp:191-195); `none`: an access beyond the end of `inc`. -/
def hist (K : Nat) (inc : List Int) : Option (List (Int × Int)) :=
  (List.range K).foldlM (fun h v => (inc[v]?).map (tally h)) []

end Verif.Ex
