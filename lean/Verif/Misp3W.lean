import Verif.Misp2
import Verif.MispW
/-!
# The third independent-set example on the sets it stores (examples/misp3.cpp)

As `Verif/MispW.lean`: the states hold `GNSet` objects word for word.  The outer `none` is undefined behaviour.
-/
namespace Verif.Ex
open Verif.DD Verif.GNSet

/-- `std::equal_to<MISP>` (examples/misp3.cpp:26-32). -/
def MispW.eqv3 (a b : MispW) : Bool := GNSet.eq a.sel b.sel && decide (a.n = b.n) && decide (a.l = b.l)

/-- `std::hash<MISP>` (examples/misp3.cpp:34-40); `std::hash<int>` is the conversion to `size_t`. -/
def MispW.hash3 (a : MispW) : BitVec 64 :=
  (GNSet.hash a.sel.t a.sel.mxw).rotateLeft 32 ^^^ BitVec.ofNat 64 a.n ^^^ BitVec.ofInt 64 a.l

/-- Node lookup of the tables of the diagrams (src/lighthash.hpp:87-100, src/dd.hpp:222), 200191 buckets. -/
@[reducible] def misp3Same : Same MispW := tabSame 200191 MispW.eqv3 (fun a => a.hash3.toNat)

/-- `ns` (examples/misp3.cpp:60-62, 117; `setFrom` src/util.hpp:902-908). -/
def Misp.verts (g : Misp) : Option GNSet.G := insertAll (List.range g.top) (GNSet.new 64)

/-- `neighbors[v]` (examples/misp3.cpp:138-144; `filter` src/util.hpp:763-770): built for the vertices, made empty by the `map` for any
other key. -/
def Misp.nb3W (g : Misp) (v : Int) : Option GNSet.G :=
  if 0 ≤ v ∧ v < (g.top : Int) then
    g.verts.bind fun ns => filterS ns fun j => decide (j = v) || g.edges.any fun e => decide ((e.1 : Int) = v ∧ (e.2 : Int) = j ∨ (e.1 : Int) = j ∧ (e.2 : Int) = v)
  else some (GNSet.new 64)

/-- `myInit` (examples/misp3.cpp:145-150). -/
def Misp.init3W (g : Misp) : Option MispW := (insertAll (List.range g.top) (GNSet.new 64)).map fun u => ⟨u, 0, 0⟩

/-- `myTarget` (examples/misp3.cpp:151-153). -/
def Misp.target3W (g : Misp) : MispW := ⟨GNSet.new 64, 0, g.top⟩

/-- `while (!out.contains(n) && n <= top) n++` (examples/misp3.cpp:168-169); the first number bounds the turns. -/
def scanW (s : GNSet.G) (top : Nat) : Nat → Nat → Nat
  | 0, v => v
  | f + 1, v => if contains s v = false ∧ v ≤ top then scanW s top f (v + 1) else v

/-- `myStf` (examples/misp3.cpp:157-174).  A negative `l` would address a word before the array. -/
def Misp.stf3W (g : Misp) (s : MispW) (label : Int) : Option (Option MispW) :=
  if (g.top : Int) ≤ s.l then (empty s.sel).map fun done => if done then some ⟨GNSet.new 64, 0, g.top⟩ else none
  else if s.l < 0 then none
  else (copy s.sel).bind fun c =>
    (if label ≠ 0 then (g.nb3W s.l).bind (diffWith (remove c s.l.toNat)) else some (remove c s.l.toNat)).bind fun out =>
      (empty out).map fun done => some ⟨out, if done then 0 else s.n + 1,
        if done then (g.top : Int) else (scanW out g.top (g.top + 1 - (s.l.toNat + 1)) (s.l.toNat + 1) : Int)⟩

/-- `scf` (examples/misp3.cpp:175-177); `weight` has `top + 1` entries, the last 0 (135-137). -/
def Misp.stc3W (g : Misp) (s : MispW) (label : Int) : Option Int :=
  if 0 ≤ s.l ∧ s.l ≤ (g.top : Int) then some (label * (if s.l.toNat = g.top then 0 else g.w s.l.toNat)) else none

/-- `smf` (examples/misp3.cpp:178-186). -/
def Misp.smf3W (_ : Misp) (a b : MispW) : Option (Option MispW) :=
  if a.l = b.l then (GNSet.union a.sel b.sel).map fun u => some ⟨u, min a.n b.n, min a.l b.l⟩ else some none

/-- `eqs` (examples/misp3.cpp:187-189). -/
def Misp.eqs3W (_ : Misp) (s : MispW) : Option Bool := (size s.sel).map fun k => decide (k = 0)

/-- `local` (examples/misp3.cpp:190-195), summed exactly below 2^53. -/
def Misp.loc3W (g : Misp) (s : MispW) : Option Int :=
  (iter s.sel).bind fun vs =>
    if vs.all (fun v => decide (0 ≤ v ∧ v ≤ (g.top : Int))) then some (vs.map fun v => if s.l ≤ v then g.w v.toNat else 0).sum else none

/-- The lambdas of `main` (examples/misp3.cpp:145-195).  Undefined behaviour is replaced by a default; `misp3_words_defined`
shows that no default is used. -/
def Misp.mdl3W (g : Misp) : Mdl MispW where
  sense := .max
  sti := g.init3W.getD g.target3W
  stt := g.target3W
  lgf := fun _ => [0, 1]
  stf := fun s l => (g.stf3W s l).getD none
  stc := fun s l => (g.stc3W s l).getD 0
  smf := fun a b => (g.smf3W a b).getD none
  eqs := fun s => (g.eqs3W s).getD false
  loc := some fun s _ => (g.loc3W s).getD 0
  sdom := none

end Verif.Ex
