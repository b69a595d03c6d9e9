import Verif.Tsp
import Verif.MispW
/-!
# The TSP example on the sets it stores (examples/tsp.cpp)

`Verif/Tsp.lean` writes city sets as bit masks.  Here the states hold `GNSet` objects word for word, with the
program's own `std::equal_to` and `std::hash`.  `none` is undefined behaviour.
-/
namespace Verif.GNSet

/-- `a & b` (src/util.hpp:746). -/
def inter (a b : G) : Option G := (copy a).bind fun c => interWith c b

/-- `a - b` (src/util.hpp:747). -/
def minus (a b : G) : Option G := (copy a).bind fun c => diffWith c b

end Verif.GNSet

namespace Verif.Ex
open Verif.DD Verif.GNSet

/-- `TSP` (examples/tsp.cpp:3-10). -/
structure TspW where
  s : GNSet.G
  e : Nat
  hops : Nat

/-- `std::equal_to<TSP>` (examples/tsp.cpp:12-16). -/
def TspW.eqv (a b : TspW) : Bool := decide (a.e = b.e) && decide (a.hops = b.hops) && GNSet.eq a.s b.s

/-- `std::hash<TSP>` (examples/tsp.cpp:18-24). -/
def tspHash (h : BitVec 64) (e hops : Nat) : BitVec 64 := (h <<< 24) ||| ((BitVec.ofNat 64 e) <<< 16) ||| BitVec.ofNat 64 hops
def TspW.hash (a : TspW) : BitVec 64 := tspHash (GNSet.hash a.s.t a.s.mxw) a.e a.hops

/-- How the node tables find a state: 200191 buckets (`gruSame`). -/
@[reducible] def tspSame : Same TspW := tabSame 200191 TspW.eqv (fun a => a.hash.toNat)

/-- `C` (examples/tsp.cpp:48, 106), for at least one city. -/
def Tsp.citiesW (t : Tsp) : Option GNSet.G := interval 0 (t.nv - 1)

/-- `init` (examples/tsp.cpp:111). -/
def Tsp.initW (_ : Tsp) : TspW := ⟨GNSet.new 64, 1, 0⟩

/-- `target` (examples/tsp.cpp:112); also what `stf` returns for label 1 (121). -/
def Tsp.targetW (t : Tsp) : Option TspW := t.citiesW.bind fun c => (copy c).map fun c => ⟨c, 1, t.nv⟩

/-- `lgf` (examples/tsp.cpp:113-118), iterated; the set is copied out of the reference `remove` returns. -/
def Tsp.lgfW (t : Tsp) (x : TspW) : Option (List Int) :=
  if x.hops + 1 ≥ t.nv then (ofList [1]).bind iter
  else t.citiesW.bind fun c => (minus c x.s).bind fun r => (copy (remove (remove r 1) x.e)).bind iter

/-- `stf` (examples/tsp.cpp:119-124); it is only called with labels of `lgf`, other labels are left undefined. -/
def Tsp.stfW (t : Tsp) (x : TspW) (l : Int) : Option TspW :=
  if l = 1 then t.targetW
  else if 0 ≤ l ∧ l < (t.nv : Int) then
    (ofList [l.toNat]).bind fun o => (GNSet.union x.s o).map fun u => ⟨u, l.toNat, x.hops + 1⟩
  else none

/-- `scf` (examples/tsp.cpp:125-127): `d` has `nv` rows of `nv` elements. -/
def Tsp.stcW (t : Tsp) (x : TspW) (l : Int) : Option Int :=
  if x.e < t.nv ∧ 0 ≤ l ∧ l < (t.nv : Int) then some (t.d x.e l.toNat) else none

/-- `smf` (examples/tsp.cpp:128-134). -/
def Tsp.smfW (_ : Tsp) (a b : TspW) : Option (Option TspW) :=
  (inter a.s b.s).map fun v => if a.e = b.e ∧ a.hops = b.hops then some ⟨v, a.e, a.hops⟩ else none

/-- The lambdas of `main` on the stored states; what is undefined is filled with a default, and `tsp_words_defined`
shows that no default is used. -/
def Tsp.mdlW (t : Tsp) : Mdl TspW where
  sense := .min
  sti := t.initW
  stt := t.targetW.getD t.initW
  lgf := fun x => (t.lgfW x).getD []
  stf := t.stfW
  stc := fun x l => (t.stcW x l).getD 0
  smf := fun a b => (t.smfW a b).getD none
  eqs := fun x => decide (x.e = 1) && decide (x.hops = t.nv)
  loc := none
  sdom := none

end Verif.Ex
