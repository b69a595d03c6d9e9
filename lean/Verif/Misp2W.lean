import Verif.Misp3W
/-!
# The second independent-set example on the sets it stores (examples/misp2.cpp)

As `Verif/Misp3W.lean`.  `neighbors` (examples/misp2.cpp:138-144) is the same text as in misp3 and is `Misp.nb3W`;
`std::equal_to` and `std::hash` (26-40) are `MispW.eqv3` and `MispW.hash3`, with the tables `misp3Same`.
-/
namespace Verif.Ex
open Verif.DD Verif.GNSet

/-- `myInit` (examples/misp2.cpp:145-150). -/
def Misp.init2W (g : Misp) : Option MispW := (insertAll (List.range g.top) (GNSet.new 64)).map fun u => ⟨u, 0, -1⟩

/-- `myTarget` (examples/misp2.cpp:151-153). -/
def Misp.target2W (g : Misp) : MispW := ⟨GNSet.new 64, 0, g.top⟩

/-- `v` after the loop (examples/misp2.cpp:158-160, 180-182). -/
def Misp.cur2W (g : Misp) (x : MispW) : Nat := scanW x.sel g.top (g.top + 1 - (x.l + 1).toNat) (x.l + 1).toNat

/-- `myStf` (examples/misp2.cpp:157-178).  With `l` below -1 the loop would look before the array. -/
def Misp.stf2W (g : Misp) (x : MispW) (label : Int) : Option (Option MispW) :=
  if x.l < -1 then none
  else if g.cur2W x = g.top then (empty x.sel).map fun done => if done then some ⟨GNSet.new 64, 0, g.top⟩ else none
  else (copy x.sel).bind fun c =>
    (if label = 0 then some (remove c (g.cur2W x))
      else (g.nb3W (g.cur2W x)).bind fun nl => filterS c fun i => !contains nl i.toNat).bind fun out =>
        (empty out).map fun done => some ⟨out, if done then 0 else x.n + 1, if done then (g.top : Int) else (g.cur2W x : Int)⟩

/-- `scf` (examples/misp2.cpp:179-184); `weight` has `top + 1` entries, the last 0 (135-137). -/
def Misp.stc2W (g : Misp) (x : MispW) (label : Int) : Option Int :=
  if -1 ≤ x.l ∧ g.cur2W x ≤ g.top then some (label * (if g.cur2W x = g.top then 0 else g.w (g.cur2W x))) else none

/-- `smf` (examples/misp2.cpp:185-193). -/
def Misp.smf2W (_ : Misp) (a b : MispW) : Option (Option MispW) :=
  if a.l = b.l then (GNSet.union a.sel b.sel).map fun u => some ⟨u, min a.n b.n, min a.l b.l⟩ else some none

/-- `eqs` (examples/misp2.cpp:194-196). -/
def Misp.eqs2W (_ : Misp) (x : MispW) : Option Bool := (size x.sel).map fun k => decide (k = 0)

/-- The lambdas of `main` (examples/misp2.cpp:145-196).  Undefined behaviour is replaced by a default; `misp2_words_defined`
shows that no default is used, where for `scf` the states are those with a vertex left: the others are terminal and are
not expanded. -/
def Misp.mdl2W (g : Misp) : Mdl MispW where
  sense := .max
  sti := g.init2W.getD g.target2W
  stt := g.target2W
  lgf := fun _ => [0, 1]
  stf := fun s l => (g.stf2W s l).getD none
  stc := fun s l => (g.stc2W s l).getD (l * g.w (g.cur2W s))
  smf := fun a b => (g.smf2W a b).getD none
  eqs := fun s => (g.eqs2W s).getD false
  loc := none
  sdom := none

end Verif.Ex
