import Verif.Tsp4W
/-!
# tsp_test3 on the sets it stores (examples/tsp_test3.cpp)

As `Verif/Tsp4W.lean`; a state holds two sets.  The field `lb` is left out (`TspV.lean`).  `none` is undefined
behaviour.
-/
namespace Verif.Ex
open Verif.DD Verif.GNSet

/-- `TSP` (examples/tsp_test3.cpp:5-14). -/
structure Tsp3W where
  A : GNSet.G
  S : GNSet.G
  e : Nat
  hops : Nat

/-- `std::equal_to<TSP>` (examples/tsp_test3.cpp:16-20). -/
def Tsp3W.eqv (a b : Tsp3W) : Bool := decide (a.e = b.e) && decide (a.hops = b.hops) && GNSet.eq a.A b.A && GNSet.eq a.S b.S

/-- `std::hash<TSP>` (examples/tsp_test3.cpp:22-29). -/
def tsp3Hash (hA hS : BitVec 64) (e hops : Nat) : BitVec 64 := (hA <<< 32) ||| (hS <<< 24) ||| ((BitVec.ofNat 64 e) <<< 16) ||| BitVec.ofNat 64 hops
def Tsp3W.hash (a : Tsp3W) : BitVec 64 := tsp3Hash (GNSet.hash a.A.t a.A.mxw) (GNSet.hash a.S.t a.S.mxw) a.e a.hops

/-- How the node tables find a state. -/
@[reducible] def tsp3Same : Same Tsp3W := tabSame 200191 Tsp3W.eqv (fun a => a.hash.toNat)

variable (t : Tsp4)

/-- `init` (examples/tsp_test3.cpp:183). -/
def tsp3InitW : Option Tsp3W := (ofList [0]).bind fun o => (ofList [0]).map fun p => ⟨o, p, 0, 0⟩

/-- `target` (examples/tsp_test3.cpp:184); also what `stf` returns for the depot.  `C` and `sz` are as in `Tsp4W.lean`
(examples/tsp_test3.cpp:54, 177, 182). -/
def Tsp4.target3W : Option Tsp3W :=
  t.citiesW.bind fun c => t.szW.bind fun sz => (copy c).bind fun a => (copy c).map fun s => ⟨a, s, 0, sz⟩

/-- `lgf` (examples/tsp_test3.cpp:185-195), iterated. -/
def Tsp4.lgf3W (x : Tsp3W) : Option (List Int) := t.szW.bind fun sz =>
  if (x.hops : Int) ≥ (sz : Int) - 1 then (ofList [0]).bind iter
  else (size x.S).bind fun n =>
    if (n : Int) - 1 = x.hops then t.citiesW.bind fun c => (minus c x.S).bind iter
    else t.citiesW.bind fun c => (minus c x.A).bind iter

/-- `stf` (examples/tsp_test3.cpp:196-201); it is only called with labels of `lgf`, other labels are left undefined. -/
def Tsp4.stf3W (x : Tsp3W) (l : Int) : Option Tsp3W :=
  if l = 0 then t.target3W
  else if 0 ≤ l ∧ l < (t.nv : Int) then
    (ofList [l.toNat]).bind fun o => (GNSet.union x.A o).bind fun u =>
      (ofList [l.toNat]).bind fun o => (GNSet.union x.S o).map fun v => ⟨u, v, l.toNat, x.hops + 1⟩
  else none

/-- `scf` (examples/tsp_test3.cpp:202-204): `d` has `nv` rows of `nv` elements. -/
def Tsp4.stc3W (x : Tsp3W) (l : Int) : Option Int :=
  if x.e < t.nv ∧ 0 ≤ l ∧ l < (t.nv : Int) then some (t.d x.e l.toNat) else none

/-- `smf` (examples/tsp_test3.cpp:205-211). -/
def Tsp4.smf3W (_ : Tsp4) (a b : Tsp3W) : Option (Option Tsp3W) :=
  if a.e = b.e ∧ a.hops = b.hops then (inter a.A b.A).bind fun u => (GNSet.union a.S b.S).map fun v => some ⟨u, v, a.e, a.hops⟩
  else some none

/-- `local` (examples/tsp_test3.cpp:213-217) with `Greedy` (139-166); the inner `none` is the value the mask model calls `J`. -/
def Tsp4.loc3W (x : Tsp3W) : Option (Option Int) :=
  (t.vertsW x.A 0 x.e).bind fun ts => t.szW.map fun sz => greedyOn (fun ts i => (t.cheapest3 ts i).getD 0) sz ts x.hops

/-- The lambdas of `main` on the stored states; what is undefined is filled with a default, and `tsp3_words_defined`
shows that no default is used.  `J` as in `Tsp4.mdl3`. -/
def Tsp4.mdl3W (J : Int) : Mdl Tsp3W where
  sense := .min
  sti := tsp3InitW.getD ⟨GNSet.new 64, GNSet.new 64, 0, 0⟩
  stt := t.target3W.getD ⟨GNSet.new 64, GNSet.new 64, 0, 0⟩
  lgf := fun x => (t.lgf3W x).getD []
  stf := t.stf3W
  stc := fun x l => (t.stc3W x l).getD 0
  smf := fun a b => (t.smf3W a b).getD none
  eqs := fun x => decide (x.e = 0) && decide (some x.hops = t.szW)
  loc := some fun x _ => ((t.loc3W x).getD none).getD J
  sdom := none

end Verif.Ex
