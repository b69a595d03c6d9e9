import Verif.Misp2W
/-!
# The first independent-set example on the sets it stores (examples/misp.cpp)

As `Verif/Misp3W.lean`.  `neighbors` (examples/misp.cpp:143-149) is the same text as in misp3 and is `Misp.nb3W`;
`std::equal_to` and `std::hash` (26-40) are `MispW.eqv3` and `MispW.hash3`, with the tables `misp3Same`.
-/
namespace Verif.Ex
open Verif.DD Verif.GNSet

/-- `myInit` (examples/misp.cpp:151-157). -/
def Misp.init1W (g : Misp) : Option MispW := (insertAll (List.range g.top) (GNSet.new 64)).map fun u => ⟨u, 0, -1⟩

/-- `myTarget` (examples/misp.cpp:158-160). -/
def Misp.target1W (_ : Misp) : MispW := ⟨GNSet.new 64, 0, 0⟩

/-- `lgf` (examples/misp.cpp:161-166), as the engine iterates over the set it returns. -/
def Misp.lgf1W (g : Misp) (x : MispW) : Option (List Int) :=
  (copy x.sel).bind fun c =>
    (empty (removeBelow c (x.l + 1).toNat)).bind fun done =>
      (if done then insert (removeBelow c (x.l + 1).toNat) g.top else some (removeBelow c (x.l + 1).toNat)).bind iter

/-- `myStf` (examples/misp.cpp:167-179). -/
def Misp.stf1W (g : Misp) (x : MispW) (label : Int) : Option (Option MispW) :=
  if label = g.top then some (some ⟨GNSet.new 64, 0, 0⟩)
  else (g.nb3W label).bind fun nl => (filterS x.sel fun i => !contains nl i.toNat).bind fun f =>
    (empty (removeBelow f label.toNat)).map fun done =>
      some ⟨removeBelow f label.toNat, if done then 0 else x.n + 1, if done then 0 else label⟩

/-- `scf` (examples/misp.cpp:180-182); `weight` has `top + 1` entries, the last 0 (140-142). -/
def Misp.stc1W (g : Misp) (_ : MispW) (label : Int) : Option Int :=
  if 0 ≤ label ∧ label ≤ (g.top : Int) then some (if label = g.top then 0 else g.w label.toNat) else none

/-- `smf` (examples/misp.cpp:183-191). -/
def Misp.smf1W (_ : Misp) (a b : MispW) : Option (Option MispW) :=
  if a.l = b.l then (GNSet.union a.sel b.sel).map fun u => some ⟨u, min a.n b.n, min a.l b.l⟩ else some none

/-- `eqs` (examples/misp.cpp:192-194). -/
def Misp.eqs1W (_ : Misp) (x : MispW) : Option Bool := (size x.sel).map fun k => decide (k = 0)

/-- The lambdas of `main` (examples/misp.cpp:151-194).  Undefined behaviour is replaced by a default; `misp1_words_defined`
shows that no default is used on the labels offered. -/
def Misp.mdl1W (g : Misp) : Mdl MispW where
  sense := .max
  sti := g.init1W.getD g.target1W
  stt := g.target1W
  lgf := fun s => (g.lgf1W s).getD []
  stf := fun s l => (g.stf1W s l).getD none
  stc := fun s l => (g.stc1W s l).getD (if l = g.top then 0 else g.w l.toNat)
  smf := fun a b => (g.smf1W a b).getD none
  eqs := fun s => (g.eqs1W s).getD false
  loc := none
  sdom := none

end Verif.Ex
