import Verif.BB
/-!
# The `Bounds` object across searches (src/dd.hpp:23-51, src/dd.cpp:17-29, src/search.cpp:30-35)

A `Bounds` object outlives the searches that use it, and so does the callback that each search adds to it.
-/
namespace Verif.BB
open Verif.DD
variable {σ : Type}

/-- A registered callback: one the user gave, or the one search number `run` added (src/search.cpp:32-35), which writes to the
local variable `optTime` of that call of `search`. -/
inductive Cb where
  | user (id : Nat)
  | timer (run : Nat)
deriving DecidableEq, Repr

/-- A call of a user's callback: who, with which labels, and the primal bound it finds in the object. -/
structure Call where
  id : Nat
  lbls : List Int
  primal : Int
deriving DecidableEq, Repr

/-- `Bounds` (src/dd.hpp:23-27), the number of searches so far and the calls so far; `primal = none` while `_primalSet` is false. -/
structure Bnd where
  primal : Option Int := none
  inc : List Int := []
  cbs : List Cb := []
  runs : Nat := 0
  calls : List Call := []
deriving DecidableEq, Repr

/-- What a call of `search` comes to; `ub` is a write to a variable of a call that has returned. -/
inductive Outc where
  | ok (b : Bnd)
  | ub
deriving DecidableEq, Repr

/-- `Bounds()` and `Bounds(checker)` (src/dd.hpp:29-32). -/
def Bnd.make (ids : List Nat) : Bnd := { cbs := ids.map .user }

/-- `onSolution` (src/dd.hpp:44-46). -/
def Bnd.onSolution (b : Bnd) (c : Cb) : Bnd := { b with cbs := b.cbs ++ [c] }

/-- `attach` (src/dd.cpp:23-29). -/
def Bnd.attach (m : Mdl σ) (b : Bnd) : Bnd := { b with primal := some (b.primal.getD m.sense.best0) }

/-- The loop over the callbacks in `setIncumbent` (src/dd.hpp:42-43) while search number `run` runs. -/
def Bnd.fire (run : Nat) (lbls : List Int) (p : Int) : List Cb → Bnd → Outc
  | [], b => .ok b
  | .user id :: cs, b => Bnd.fire run lbls p cs { b with calls := b.calls ++ [⟨id, lbls, p⟩] }
  | .timer r :: cs, b => if r = run then Bnd.fire run lbls p cs b else .ub

/-- `update` (src/dd.hpp:428-439): `setPrimal`, then `setIncumbent` (src/dd.hpp:37-43). -/
def Bnd.report (run : Nat) (b : Bnd) (x : Int × List Int) : Outc :=
  Bnd.fire run x.2 x.1 b.cbs { b with primal := some x.1, inc := x.2 }

/-- All the reports of one search. -/
def Bnd.reports (run : Nat) : List (Int × List Int) → Bnd → Outc
  | [], b => .ok b
  | x :: xs, b => match b.report run x with
    | .ok b' => Bnd.reports run xs b'
    | .ub => .ub

/-- `search` on a `Bounds` object that may have been used before: `attach`, the search's own callback, and the reports of the search
from the primal bound found.  `none` as in `search`. -/
def searchB [Same σ] (m : Mdl σ) (w dfuel : Nat) (lim : Nat → Bool) (fuel : Nat) (b : Bnd) : Option Outc :=
  (search m w dfuel lim fuel (b.primal.getD m.sense.best0)).map fun s =>
    Bnd.reports (b.runs + 1) s.sols { (b.attach m).onSolution (.timer (b.runs + 1)) with
      runs := b.runs + 1 }

end Verif.BB
