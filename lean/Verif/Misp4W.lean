import Verif.MispW
import Verif.Misp4
/-!
# The independent-set example without the last vertex, on the sets it stores (examples/misp4.cpp)

As `Verif/MispW.lean`: the states hold `GNSet` objects word for word.  The outer `none` is undefined behaviour.
The neighbours (`Misp.adjW`) and the weights are built as in examples/misp5.cpp.
-/
namespace Verif.Ex
open Verif.DD Verif.GNSet

/-- `MISP` (examples/misp4.cpp:3-9). -/
structure Misp4W where
  sel : GNSet.G
  n : Nat

/-- `std::equal_to<MISP>` (examples/misp4.cpp:11-15). -/
def Misp4W.eqv (a b : Misp4W) : Bool := decide (a.n = b.n) && GNSet.eq a.sel b.sel

/-- `std::hash<MISP>` (examples/misp4.cpp:17-21). -/
def Misp4W.hash (a : Misp4W) : BitVec 64 := (GNSet.hash a.sel.t a.sel.mxw).rotateLeft 32 ^^^ BitVec.ofNat 64 a.n

/-- How the node tables find a state: 200191 buckets (`gruSame`). -/
@[reducible] def misp4Same : Same Misp4W := tabSame 200191 Misp4W.eqv (fun a => a.hash.toNat)

/-- `myInit` (examples/misp4.cpp:122-127). -/
def Misp.init4W (g : Misp) : Option Misp4W := (insertAll (List.range g.top) (GNSet.new 64)).map fun u => ⟨u, 0⟩

/-- `myTarget` (examples/misp4.cpp:128-130). -/
def Misp.target4W (g : Misp) : Misp4W := ⟨GNSet.new 64, g.top⟩

/-- `myStf` (examples/misp4.cpp:134-147); the inner `none` is `std::nullopt`. -/
def Misp.stf4W (g : Misp) (s : Misp4W) (label : Int) : Option (Option Misp4W) :=
  if g.top ≤ s.n then (empty s.sel).map fun done => if done then some ⟨GNSet.new 64, g.top⟩ else none
  else if contains s.sel s.n = false ∧ label ≠ 0 then some none
  else (copy s.sel).bind fun c =>
    (if label ≠ 0 then (g.adjW s.n).bind (diffWith (remove c s.n)) else some (remove c s.n)).bind fun out =>
      (empty out).map fun done => some ⟨out, if done then g.top else s.n + 1⟩

/-- `scf` (examples/misp4.cpp:148-150): `weight` has `top+1` elements. -/
def Misp.stc4W (g : Misp) (s : Misp4W) (label : Int) : Option Int := if s.n ≤ g.top then some (label * g.w s.n) else none

/-- `smf` (examples/misp4.cpp:151-153). -/
def Misp.smf4W (_ : Misp) (a b : Misp4W) : Option (Option Misp4W) :=
  (GNSet.union a.sel b.sel).map fun u => some ⟨u, min a.n b.n⟩

/-- `eqs` (examples/misp4.cpp:154-156). -/
def Misp.eqs4W (_ : Misp) (s : Misp4W) : Option Bool := (size s.sel).map fun k => decide (k = 0)

/-- `local` (examples/misp4.cpp:157-159). -/
def Misp.loc4W (g : Misp) (s : Misp4W) : Option Int :=
  (iter s.sel).bind fun vs =>
    if vs.all (fun v => decide (0 ≤ v ∧ v ≤ (g.top : Int))) then sumS s.sel (fun v => g.w v.toNat) else none

/-- The lambdas of `main` on the stored states; what is undefined is filled with a default, and `misp4_words_defined`
shows that no default is used. -/
def Misp.mdl4W (g : Misp) : Mdl Misp4W where
  sense := .max
  sti := g.init4W.getD g.target4W
  stt := g.target4W
  lgf := fun _ => [0, 1]
  stf := fun s l => (g.stf4W s l).getD none
  stc := fun s l => (g.stc4W s l).getD 0
  smf := fun a b => (g.smf4W a b).getD none
  eqs := fun s => (g.eqs4W s).getD false
  loc := some fun s _ => (g.loc4W s).getD 0
  sdom := none

end Verif.Ex
