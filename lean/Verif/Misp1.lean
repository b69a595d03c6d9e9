import Verif.Misp5
import Verif.BB
/-!
# The first independent-set example (examples/misp.cpp)

A label is the next vertex to take, in increasing order, so a solution lists the chosen vertices.
Vertex sets are bit masks as in `Verif/Misp5.lean`; `Misp` and `MispS` are the `Instance` and `MISP`
structures, the same in both programs.
-/
namespace Verif.Ex
open Verif.DD

/-- `neighbors[v]` (examples/misp.cpp:143-149): the vertex itself and what an edge joins to it. -/
def Misp.closed (g : Misp) (v : Nat) : Nat := g.nb v ||| 2 ^ v

/-- `s.removeBelow(k)` on masks. -/
def below (s k : Nat) : Nat := mdiff s (2 ^ k - 1)

/-- `out` in `myStf` (examples/misp.cpp:170-173). -/
def Misp.outV (g : Misp) (s v : Nat) : Nat := below (mdiff s (g.closed v)) v

/-- The lambdas of `main` (examples/misp.cpp:151-194).  `weight[top]` is 0 (141).  A negative label, which `lgf` does not
offer, has no neighbours and removes nothing. -/
def Misp.mdl1 (g : Misp) : Mdl MispS where
  sense := .max
  sti := ⟨2 ^ g.top - 1, 0, -1⟩
  stt := ⟨0, 0, 0⟩
  lgf := fun x =>
    let rv := below x.sel (x.l + 1).toNat
    if rv = 0 then [(g.top : Int)] else ((List.range g.top).filter fun i => rv.testBit i).map (fun i : Nat => (i : Int))
  stf := fun x l =>
    if l = g.top then some ⟨0, 0, 0⟩
    else
      let o := if l < 0 then x.sel else g.outV x.sel l.toNat
      some ⟨o, if o = 0 then 0 else x.n + 1, if o = 0 then 0 else l⟩
  stc := fun _ l => if l = g.top then 0 else g.w l.toNat
  smf := fun a b => if a.l = b.l then some ⟨a.sel ||| b.sel, min a.n b.n, min a.l b.l⟩ else none
  eqs := fun x => decide (x.sel = 0)
  loc := none
  sdom := none

/-- The checker (examples/misp.cpp:126-138): `ok` after the loop over the edges. -/
def Misp.chkEdges (g : Misp) (inc : List Int) : Bool :=
  g.edges.all fun e =>
    !((if e.1 < inc.length then decide (inc.getD e.1 0 ≠ 0) else false) &&
      (if e.2 < inc.length then decide (inc.getD e.2 0 ≠ 0) else false))

end Verif.Ex
