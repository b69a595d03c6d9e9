import Verif.Basic
/-!
# Model of `NDArray` (src/dd.hpp:153-269)

Cells hold a node or null (`none`).  Iterators are positions.  Not modelled: `sort`, which is the
library's merge sort (`Verif/MSort.lean`) on the cells, and running past 2^63 elements.
-/
namespace Verif.NDArray

structure A where
  tab : Nat → Option Nat
  mx : Nat
  sz : Nat
  st : Nat
  holes : Nat

/-- Constructor (src/dd.hpp:160-162); the fresh cells are null pointers. -/
def mk' (mx : Nat) : A := ⟨fun _ => none, mx, 0, 0, 0⟩

/-- `size` (src/dd.hpp:164). -/
def size (a : A) : Nat := a.sz - a.st - a.holes

/-- `push_back` (src/dd.hpp:165-175); `none` writes outside the array. -/
def pushBack (a : A) (n : Nat) : Option A :=
  let mx := if a.sz = a.mx then a.mx * 2 else a.mx
  if a.sz < mx then some { a with tab := upd a.tab a.sz (some n), sz := a.sz + 1, mx := mx } else none

/-- `push_front` (src/dd.hpp:176-182). -/
def pushFront (a : A) (n : Nat) : Option A :=
  if a.st = 0 then pushBack a n else some { a with tab := upd a.tab (a.st - 1) (some n), st := a.st - 1 }

/-- `clear` (src/dd.hpp:184). -/
def clear (a : A) : A := { a with sz := 0, st := 0, holes := 0 }

/-- `while(i < sz && tab[i] == nullptr) ++i` (src/dd.hpp:190, 200, 217, 229-232, 248-251, 259-262). -/
def skip (tab : Nat → Option Nat) (sz : Nat) : Nat → Nat → Nat
  | 0, i => i
  | f + 1, i => if i < sz ∧ tab i = none then skip tab sz f (i + 1) else i

def skipFrom (a : A) (i : Nat) : Nat := skip a.tab a.sz (a.sz - i) i

/-- `begin` (src/dd.hpp:227-234): drops the null cells in front. -/
def begin_ (a : A) : A × Nat :=
  let p := skipFrom a a.st
  ({ a with st := p, holes := a.holes - (p - a.st) }, p)

/-- `operator++` (src/dd.hpp:198-202). -/
def next (a : A) (i : Nat) : Nat := skipFrom a (i + 1)

/-- `erase(at)` (src/dd.hpp:236-241) and `iterator::erase` (213-219). -/
def erase (a : A) (i : Nat) : A × Nat :=
  let a1 := { a with tab := upd a.tab i none, holes := a.holes + 1 }
  (a1, next a1 i)

/-- `eraseSuffix` (src/dd.hpp:242-245). -/
def eraseSuffix (a : A) (i : Nat) : A := { a with sz := i }

/-- `front` (src/dd.hpp:246-256). -/
def front (a : A) : A × Option Nat := ((begin_ a).1, if (begin_ a).2 < a.sz then a.tab (begin_ a).2 else none)

/-- `pop_front` (src/dd.hpp:257-265); `none` writes outside the live cells. -/
def popFront (a : A) : Option A :=
  let p := skipFrom a a.st
  if p < a.sz then some { a with tab := upd a.tab p none, st := p + 1, holes := a.holes - (p - a.st) } else none

/-- `k` increments of an iterator. -/
def advance (a : A) : Nat → Nat → Nat
  | 0, i => i
  | k + 1, i => advance a k (next a i)

/-- `for(auto n : a)`: the nodes seen from position `i` (`end()` is position `sz`). -/
def iterFrom (a : A) : Nat → Nat → List (Option Nat)
  | 0, _ => []
  | f + 1, i => if i < a.sz then a.tab i :: iterFrom a f (next a i) else []

inductive Op where
  | push (n : Nat)
  | clear
  | size
  | iter
  | front
  | popFront
  | eraseNth (k : Nat)   -- advance `begin()` by `k` and erase there

inductive Out where
  | unit
  | nat (n : Nat)
  | node (o : Option Nat)
  | list (l : List (Option Nat))
deriving DecidableEq

def step (a : A) : Op → Option (A × Out)
  | .push n => (pushBack a n).map (·, .unit)
  | .clear => some (clear a, .unit)
  | .size => some (a, .nat (size a))
  | .iter => some ((begin_ a).1, .list (iterFrom (begin_ a).1 (a.sz + 1) (begin_ a).2))
  | .front => some ((front a).1, .node (front a).2)
  | .popFront => (popFront a).map (·, .unit)
  | .eraseNth k =>
    let b := begin_ a
    let e := erase b.1 (advance b.1 k b.2)
    some (e.1, .list (iterFrom e.1 (a.sz + 1) e.2))

def run : A → List Op → Option (A × List Out)
  | a, [] => some (a, [])
  | a, o :: os => (step a o).bind fun p => (run p.1 os).map fun q => (q.1, p.2 :: q.2)

end Verif.NDArray
