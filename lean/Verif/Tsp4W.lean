import Verif.TspV
import Verif.TspW
/-!
# tsp_test4, tsptw and tsp_test2 on the sets they store

`Verif/Tsp4.lean` and `Verif/TspV.lean` write city sets as bit masks.  Here the states hold `GNSet` objects word for
word, with the programs' own `std::equal_to` and `std::hash`, and `C.size()` is computed.  `none` is undefined
behaviour.  The three programs differ in the hash, the merge and the local bound.  The field `lb` of tsp_test2 is left
out (`TspV.lean`).
-/
namespace Verif.Ex
open Verif.DD Verif.GNSet

/-- Which program; `u` is the unit of the fractions of tsptw (`Tsp4.cheapestTw`). -/
inductive TspK where
  | test4
  | tw (u : Nat)
  | test2

/-- `TSP` (examples/tsp_test4.cpp:5-12, examples/tsp_test2.cpp:5-13), `TSPTW` (examples/tsptw.cpp:4-11). -/
structure Tsp4W where
  A : GNSet.G
  e : Nat
  hops : Nat

/-- `std::equal_to` (examples/tsp_test4.cpp:14-18, examples/tsptw.cpp:13-17, examples/tsp_test2.cpp:15-19). -/
def Tsp4W.eqv (a b : Tsp4W) : Bool := decide (a.e = b.e) && decide (a.hops = b.hops) && GNSet.eq a.A b.A

/-- `std::hash` (examples/tsp_test4.cpp:20-26, examples/tsptw.cpp:19-25; examples/tsp_test2.cpp:21-27 shifts by 24). -/
def TspK.shift : TspK → Nat
  | .test2 => 24
  | _ => 32
def TspK.hash (K : TspK) (h : BitVec 64) (e hops : Nat) : BitVec 64 := (h <<< K.shift) ||| ((BitVec.ofNat 64 e) <<< 16) ||| BitVec.ofNat 64 hops
def Tsp4W.hash (K : TspK) (a : Tsp4W) : BitVec 64 := K.hash (GNSet.hash a.A.t a.A.mxw) a.e a.hops

/-- How the node tables find a state. -/
@[reducible] def tsp4Same (K : TspK) : Same Tsp4W := tabSame 200191 Tsp4W.eqv (fun a => (a.hash K).toNat)

variable (t : Tsp4)

/-- `C` (examples/tsp_test4.cpp:51, 202; examples/tsptw.cpp:39, 116; examples/tsp_test2.cpp:52, 136), for at least one city. -/
def Tsp4.citiesW : Option GNSet.G := interval 0 (t.nv - 1)

/-- `sz` (examples/tsp_test4.cpp:217, examples/tsptw.cpp:123, examples/tsp_test2.cpp:141). -/
def Tsp4.szW : Option Nat := t.citiesW.bind size

/-- `init` (examples/tsp_test4.cpp:218, examples/tsptw.cpp:124, examples/tsp_test2.cpp:142). -/
def tsp4InitW : Option Tsp4W := (ofList [0]).map fun o => ⟨o, 0, 0⟩

/-- `target` (examples/tsp_test4.cpp:219, examples/tsptw.cpp:125, examples/tsp_test2.cpp:143); also what `stf` returns for the depot. -/
def Tsp4.targetW : Option Tsp4W := t.citiesW.bind fun c => t.szW.bind fun sz => (copy c).map fun c => ⟨c, 0, sz⟩

/-- `lgf` (examples/tsp_test4.cpp:220-225, examples/tsptw.cpp:126-131, examples/tsp_test2.cpp:144-149), iterated. -/
def Tsp4.lgfW (x : Tsp4W) : Option (List Int) := t.szW.bind fun sz =>
  if (x.hops : Int) ≥ (sz : Int) - 1 then (ofList [0]).bind iter
  else t.citiesW.bind fun c => (minus c x.A).bind iter

/-- `stf` (examples/tsp_test4.cpp:226-231, examples/tsptw.cpp:132-137, examples/tsp_test2.cpp:150-155); it is only called
with labels of `lgf`, other labels are left undefined. -/
def Tsp4.stfW (x : Tsp4W) (l : Int) : Option Tsp4W :=
  if l = 0 then t.targetW
  else if 0 ≤ l ∧ l < (t.nv : Int) then
    (ofList [l.toNat]).bind fun o => (GNSet.union x.A o).map fun u => ⟨u, l.toNat, x.hops + 1⟩
  else none

/-- `scf` (examples/tsp_test4.cpp:232-234, examples/tsptw.cpp:138-140, examples/tsp_test2.cpp:156-158): `d` has `nv` rows of `nv` elements. -/
def Tsp4.stcW (x : Tsp4W) (l : Int) : Option Int :=
  if x.e < t.nv ∧ 0 ≤ l ∧ l < (t.nv : Int) then some (t.d x.e l.toNat) else none

/-- The sizes compared by tsp_test4 before it merges (examples/tsp_test4.cpp:241); the others have no such test. -/
def TspK.near (K : TspK) (a b : GNSet.G) : Option Bool := match K with
  | .test4 => (size a).bind fun n => (size b).map fun k => decide (((n : Int) - k).natAbs < 5)
  | _ => some true

/-- `smf` (examples/tsp_test4.cpp:235-244, examples/tsptw.cpp:141-145, examples/tsp_test2.cpp:159-164). -/
def Tsp4.smfW (_ : Tsp4) (K : TspK) (a b : Tsp4W) : Option (Option Tsp4W) :=
  if a.e = b.e ∧ a.hops = b.hops then (K.near a.A b.A).bind fun c =>
    if c = true then (inter a.A b.A).map fun v => some ⟨v, a.e, a.hops⟩ else some none
  else some none

/-- `(C - V).insert(src).insert(sink)`, copied out of the reference and iterated (examples/tsp_test4.cpp:152, 180;
examples/tsptw.cpp:94, examples/tsp_test2.cpp:104). -/
def Tsp4.vertsW (V : GNSet.G) (src sink : Nat) : Option (List Nat) :=
  t.citiesW.bind fun c => (minus c V).bind fun r => (GNSet.insert r src).bind fun r => (GNSet.insert r sink).bind fun r =>
    (copy r).bind fun r => (iter r).map fun ls => ls.map Int.toNat

/-- `mst` of tsp_test4 (examples/tsp_test4.cpp:150-173) from the iterated set `ts` on. -/
def Tsp4.mstOn (sz : Nat) (ts : List Nat) (hops : Nat) : Option Int :=
  mstLoop (fun v => ts.idxOf v) ts.length ((sz : Int) - hops) ((t.arcs ts).length + 1) (t.pq ts) (mkSets UF.empty ts) 0 0

/-- `mst` of tsp_test2 (examples/tsp_test2.cpp:101-124) from there on. -/
def Tsp4.mst2On (sz : Nat) (ts : List Nat) (hops : Nat) : Option Int :=
  mst2Loop (fun v => ts.idxOf v) ts.length ((sz : Int) - hops) ((t.arcs ts).length + 1) (t.pq ts) (mkSets UF.empty ts) 0 0

/-- `greedy` of tsp_test4 and tsptw (examples/tsp_test4.cpp:175-191, examples/tsptw.cpp:89-105) from there on, for one way
`ch` to get the cheapest arc; `none` as in `Tsp4.greedyC`. -/
def greedyOn (ch : List Nat → Nat → Int) (sz : Nat) (ts : List Nat) (hops : Nat) : Option Int :=
  let es := (ts.filter fun i => decide (i ≠ 0)).map (ch ts)
  let c := MSort.mergeSort (fun a b : Int => decide (a < b)) (fun i => es.getD i 0) es.length
  if sz - hops ≤ es.length then some ((List.range (sz - hops)).foldl (fun s i => s + c i) 0) else none

/-- The local bound on the iterated set. -/
def Tsp4.boundOn (K : TspK) (sz : Nat) (ts : List Nat) (hops : Nat) : Option Int := match K with
  | .test4 => (t.mstOn sz ts hops).bind fun m => (greedyOn t.cheapest sz ts hops).map fun g => max m g
  | .tw u => greedyOn (t.cheapestTw u) sz ts hops
  | .test2 => t.mst2On sz ts hops

/-- `local` (examples/tsp_test4.cpp:246-252, examples/tsptw.cpp:147-150, examples/tsp_test2.cpp:166-168): the inner
`none` is the value the mask models call `J`. -/
def Tsp4.locW (K : TspK) (x : Tsp4W) : Option (Option Int) :=
  (t.vertsW x.A 0 x.e).bind fun ts => t.szW.map fun sz => t.boundOn K sz ts x.hops

/-- The lambdas of `main` on the stored states; what is undefined is filled with a default, and `tsp4_words_defined`
shows that no default is used.  `J` as in `Tsp4.mdl`. -/
def Tsp4.mdlW (K : TspK) (J : Int) : Mdl Tsp4W where
  sense := .min
  sti := tsp4InitW.getD ⟨GNSet.new 64, 0, 0⟩
  stt := t.targetW.getD ⟨GNSet.new 64, 0, 0⟩
  lgf := fun x => (t.lgfW x).getD []
  stf := t.stfW
  stc := fun x l => (t.stcW x l).getD 0
  smf := fun a b => (t.smfW K a b).getD none
  eqs := fun x => decide (x.e = 0) && decide (some x.hops = t.szW)
  loc := some fun x _ => ((t.locW K x).getD none).getD J
  sdom := none

end Verif.Ex
