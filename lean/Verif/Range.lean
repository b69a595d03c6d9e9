/-!
# Model of `Range` (src/util.hpp:80-118)

`int` is modelled by `Int` (no overflow).
-/
namespace Verif.Range

/-- The two data members `_from`, `_to` (src/util.hpp:82-83). -/
structure Range where
  frm : Int
  to : Int
deriving DecidableEq, Repr

/-- `inc[b]` (src/util.hpp:81): `+1` for `false`, `-1` for `true`. -/
def inc (b : Bool) : Int := if b then -1 else 1

/-- `contains` (src/util.hpp:103). -/
def Range.contains (r : Range) (p : Int) : Bool := r.frm ≤ p && p ≤ r.to

/-- `size` (src/util.hpp:104). -/
def Range.size (r : Range) : Int := if r.to ≥ r.frm then r.to - r.frm else r.frm - r.to

/-- `largest` (src/util.hpp:105). -/
def Range.largest (r : Range) : Int := if r.to ≥ r.frm then r.to else r.frm

/-- `flip` (src/util.hpp:108). -/
def Range.flip (r : Range) : Range := ⟨r.to - 1, r.frm - 1⟩

/-- Direction chosen by `begin`/`end` (src/util.hpp:109-110): `true` is `Backward`. -/
def Range.backward (r : Range) : Bool := !(r.frm ≤ r.to)

/-- `open` (src/util.hpp:111). -/
def Range.open_ (f t : Int) : Range := ⟨f, t⟩
/-- `close` (src/util.hpp:112). -/
def Range.close (f t : Int) : Range := ⟨f, t + inc (f > t)⟩
/-- `openInc` (src/util.hpp:113). -/
def Range.openInc (f t : Int) : Range := if f ≤ t then ⟨f, t⟩ else ⟨0, 0⟩
/-- `closeInc` (src/util.hpp:114). -/
def Range.closeInc (f t : Int) : Range := if f < t + 1 then ⟨f, t + inc (f > t)⟩ else ⟨0, 0⟩

/-- The loop `for (auto i : r)`: start at iterator value `i`, stop when it equals
`end`, step by `inc[d]` (src/util.hpp:94-98).  `none` means that the fuel was not
enough, i.e. the loop had not stopped after that many steps. -/
def loop (d : Bool) (stop : Int) : Nat → Int → Option (List Int)
  | 0, _ => none
  | n + 1, i => if i = stop then some [] else (loop d stop n (i + inc d)).map (i :: ·)

/-- Values yielded by iterating `r`, with `fuel` as iteration limit. -/
def Range.iterate (r : Range) (fuel : Nat) : Option (List Int) :=
  loop r.backward r.to fuel r.frm

end Verif.Range
