import Verif.Range
import Verif.GNSet
/-!
# The labels of a state (`getLabels`, src/dd.hpp:475-483)

A generator may return a `Range`; the engine turns it into a `GNSet` before it tries the labels.  `int` is modelled by
`Int`, a negative number shifted right rounds down.
-/
namespace Verif.Labels
open Verif.Range Verif.GNSet

/-- `insert` (src/util.hpp:544-562) for any `int`: a negative argument addresses a word before the array. -/
def insertI : List Int → G → Option G
  | [], g => some g
  | p :: ps, g => if p < 0 then none else (GNSet.insert g p.toNat).bind (insertI ps)

/-- `GNSet(const Range&)` (src/util.hpp:452-467) for any bounds; `_mxw` is 16 bits wide. -/
def ofRange (r : Range) : Option G :=
  if r.size = 0 then some ⟨0, 0, true, fun _ => 0⟩
  else
    let m := (((if r.largest % 64 ≠ 0 then 1 else 0) + r.largest / 64) % 2 ^ 16).toNat
    (r.iterate (r.size.toNat + 1)).bind fun l => insertI l ⟨m, m * 64 % 2 ^ 16, false, fun _ => 0⟩

/-- The loop over `getLabels(p)` for a generator that returns a `Range` (src/dd.hpp:475-483, src/dd.cpp:317-318): the labels in the
order they are tried. -/
def labels (r : Range) : Option (List Int) := (ofRange r).bind iter

end Verif.Labels
