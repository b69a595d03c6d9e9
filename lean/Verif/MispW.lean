import Verif.GNSet
import Verif.Misp5
import Verif.Same
/-!
# The independent-set example on the sets it stores (examples/misp5.cpp)

`Verif/Misp5.lean` writes vertex sets as bit masks.  Here the states hold `GNSet` objects word for word, with the
program's own `std::equal_to` and `std::hash`.  The outer `none` is undefined behaviour.
-/
namespace Verif.GNSet

/-- `a | b` (src/util.hpp:745): a copy, then `unionWith`. -/
def union (a b : G) : Option G := (copy a).bind fun c => unionWith c b

end Verif.GNSet

namespace Verif.Ex
open Verif.DD Verif.GNSet

/-- `MISP` (examples/misp5.cpp:3-10). -/
structure MispW where
  sel : GNSet.G
  n : Nat
  l : Int

/-- `std::equal_to<MISP>` (examples/misp5.cpp:12-16). -/
def MispW.eqv (a b : MispW) : Bool := decide (a.n = b.n) && GNSet.eq a.sel b.sel && decide (a.l = b.l)

/-- `std::hash<MISP>` (examples/misp5.cpp:18-22), with `std::hash<GNSet>` (src/util.hpp:869-871) and the identity of
libstdc++ on `int`. -/
def MispW.hash (a : MispW) : BitVec 64 :=
  (GNSet.hash a.sel.t a.sel.mxw).rotateLeft 32 ^^^ ((BitVec.ofNat 64 a.n) <<< 16) ^^^ BitVec.ofInt 64 a.l

/-- How the node tables find a state: 200191 buckets (`gruSame`). -/
@[reducible] def mispSame : Same MispW := tabSame 200191 MispW.eqv (fun a => a.hash.toNat)

/-- What `convert` inserts in `adj[v]`, in order (examples/misp5.cpp:48-51). -/
def Misp.nbL (g : Misp) (v : Nat) : List Nat :=
  g.edges.flatMap fun e => (if e.1 = v then [e.2] else []) ++ (if e.2 = v then [e.1] else [])

/-- `neighbors[v]` (examples/misp5.cpp:46-52, 107): an array of `nv+1` sets, each built by `GNSet()`. -/
def Misp.adjW (g : Misp) (v : Nat) : Option GNSet.G :=
  if v ≤ g.top then insertAll (g.nbL v) (GNSet.new 64) else none

/-- `myInit` (examples/misp5.cpp:126-131). -/
def Misp.initW (g : Misp) : Option MispW := (insertAll (List.range g.top) (GNSet.new 64)).map fun u => ⟨u, 0, -1⟩

/-- `myTarget` (examples/misp5.cpp:132-134). -/
def Misp.targetW (g : Misp) : MispW := ⟨GNSet.new 64, g.top, 0⟩

/-- `myStf` (examples/misp5.cpp:138-160); the inner `none` is `std::nullopt`. -/
def Misp.stfW (g : Misp) (s : MispW) (label : Int) : Option (Option MispW) :=
  if contains s.sel s.n = false ∧ label ≠ 0 then some none
  else (copy s.sel).bind fun c =>
    (if label ≠ 0 then (g.adjW s.n).bind (diffWith (remove c s.n)) else some (remove c s.n)).bind fun out =>
      (empty out).map fun done => some ⟨out, if done then g.top else s.n + 1, if done then 0 else s.n⟩

/-- `scf` (examples/misp5.cpp:161-164): `weight` has `top+1` elements. -/
def Misp.stcW (g : Misp) (s : MispW) (label : Int) : Option Int := if s.n ≤ g.top then some (label * g.w s.n) else none

/-- `smf` (examples/misp5.cpp:165-169). -/
def Misp.smfW (_ : Misp) (a b : MispW) : Option (Option MispW) :=
  if a.l = b.l then (GNSet.union a.sel b.sel).map fun u => some ⟨u, min a.n b.n, a.l⟩ else some none

/-- `eqs` (examples/misp5.cpp:170-172). -/
def Misp.eqsW (_ : Misp) (s : MispW) : Option Bool := (size s.sel).map fun k => decide (k = 0)

/-- `local` (examples/misp5.cpp:173-175): `weight[v]` for every value the iterator gives. -/
def Misp.locW (g : Misp) (s : MispW) : Option Int :=
  (iter s.sel).bind fun vs =>
    if vs.all (fun v => decide (0 ≤ v ∧ v ≤ (g.top : Int))) then sumS s.sel (fun v => g.w v.toNat) else none

/-- The lambdas of `main` on the stored states; what is undefined is filled with a default, and `misp_words_defined`
shows that no default is used. -/
def Misp.mdlW (g : Misp) : Mdl MispW where
  sense := .max
  sti := g.initW.getD g.targetW
  stt := g.targetW
  lgf := fun _ => [0, 1]
  stf := fun s l => (g.stfW s l).getD none
  stc := fun s l => (g.stcW s l).getD 0
  smf := fun a b => (g.smfW a b).getD none
  eqs := fun s => (g.eqsW s).getD false
  loc := some fun s _ => (g.locW s).getD 0
  sdom := none

end Verif.Ex
