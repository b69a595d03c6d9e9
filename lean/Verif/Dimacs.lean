import Verif.KnapRead
import Verif.GNSet
import Verif.FArr
import Verif.Misp5
import Verif.ColoringV
/-!
# The graph readers of the independent-set and colouring examples

`readFile` is the same text in misp.cpp, misp2.cpp, misp3.cpp, misp4.cpp, misp4_lag.cpp, misp5.cpp and the three
colouring examples up to output and the container of the edges; `readPyFile` is the same in the three colouring
examples.  `return i` is taken to build the instance in place (the move constructor of `Instance` would leave `adj`
empty; compilers elide it).
-/
namespace Verif.Ex
open Verif.IO

/-- `Instance` as `readFile` fills it (examples/misp5.cpp:35-41): `none` is an `int` nobody set; edges in the order
they were added. -/
structure GFile where
  nv : Option Int
  ne : Option Int
  edges : List (Int × Int)
deriving DecidableEq, Repr

/-- The loop of `readFile` (examples/misp5.cpp:60-84, coloring.cpp:78-101).  Switching on a `char` that was never set is
undefined, and so is using an end point that was not set or taking one off the least `int`. -/
def dimLoop : Nat → Strm → GFile → Res GFile
  | 0, _, _ => .more
  | fuel + 1, s, g =>
    if s.eof then .ok g
    else
      let r := s.char
      if r.1.eof then .ok g
      else
        match r.2 with
        | none => .ub
        | some c =>
          if c = 'c' then dimLoop fuel r.1.line.1 g
          else if c = 'p' then
            let a := r.1.word
            let b := a.1.int
            let d := b.1.int
            dimLoop fuel d.1 { g with nv := b.2.or g.nv, ne := d.2.or g.ne }
          else if c = 'e' then
            let a := r.1.int
            let b := a.1.int
            match a.2, b.2 with
            | some x, some y =>
              if x = -2147483648 ∨ y = -2147483648 then .ub
              else dimLoop fuel b.1 { g with edges := g.edges ++ [(x - 1, y - 1)] }
            | _, _ => .ub
          else dimLoop fuel r.1 g

/-- `readFile` up to `f.close()` (examples/misp5.cpp:55-85). -/
def readDim (fuel : Nat) (f : Strm) : Res GFile := dimLoop fuel f ⟨none, none, []⟩

/-- `adj[a].insert(b)` (examples/misp5.cpp:49-50); `none` is an index out of range or an `insert` that does not end. -/
def addNb (adj : FArr.F GNSet.G) (a b : Int) : Option (FArr.F GNSet.G) :=
  if a < 0 ∨ b < 0 then none
  else (FArr.get adj a.toNat).bind fun g => (GNSet.insert g b.toNat).bind fun g' => FArr.set adj a.toNat g'

/-- The loop of `convert` (examples/misp5.cpp:48-51). -/
def addEdges : List (Int × Int) → FArr.F GNSet.G → Option (FArr.F GNSet.G)
  | [], adj => some adj
  | e :: es, adj => (addNb adj e.1 e.2).bind fun a1 => (addNb a1 e.2 e.1).bind fun a2 => addEdges es a2

/-- `convert` with an array of `sz` sets (examples/misp5.cpp:46-52 with `sz = nv + 1`, coloring.cpp:64-70 with
`sz = nv`).  A negative size becomes a huge `size_t`, which `new` refuses. -/
def convert (sz : Int) (es : List (Int × Int)) : Option (FArr.F GNSet.G) :=
  if sz < 0 then none else addEdges es (FArr.mk' (GNSet.new 64) sz.toNat)

/-- `vertices()` (examples/misp5.cpp:42-44, `setFrom` src/util.hpp:902-908). -/
def vertices (nv : Int) : Option GNSet.G := GNSet.insertAll (List.range nv.toNat) (GNSet.new 64)

/-- The second loop of coloring3's `convert` (examples/coloring3.cpp:70-71). -/
def trim : List Nat → FArr.F GNSet.G → Option (FArr.F GNSet.G)
  | [], adj => some adj
  | v :: vs, adj => (FArr.get adj v).bind fun g => (GNSet.removeAbove g v).bind fun g' => (FArr.set adj v g').bind (trim vs)

/-- `convert` of coloring3 (examples/coloring3.cpp:64-72). -/
def convert3 (nv : Int) (es : List (Int × Int)) : Option (FArr.F GNSet.G) := (convert nv es).bind (trim (List.range nv.toNat))

/-- `valid` in `lgf` of coloring2 and coloring3 (examples/coloring2.cpp:184-190, coloring3.cpp:216-222, labels line 179 and
205): the colours `1..U`, without those in `cs`, the colours of the neighbours that have one, and without those above `ub`. -/
def validColours (U : Nat) (cs : List Nat) (ub : Nat) : Option GNSet.G :=
  (GNSet.insertAll ((List.range U).map (· + 1)) (GNSet.new 64)).bind fun g => GNSet.removeAbove (cs.foldl GNSet.remove g) ub

/-- `a < b` on edges (examples/coloring.cpp:46-48). -/
def geLt (a b : Int × Int) : Bool := decide (a.1 < b.1) || (decide (a.1 = b.1) && decide (a.2 < b.2))

/-- `std::set<GE>::insert` (examples/coloring.cpp:97, 136), the set as the list its iterator runs through: an
edge equivalent to one in the set is not added. -/
def geInsert (e : Int × Int) : List (Int × Int) → List (Int × Int)
  | [] => [e]
  | x :: xs => if geLt e x then e :: x :: xs else if geLt x e then x :: geInsert e xs else x :: xs

/-- The edges of a colouring instance after adding these in turn. -/
def geSet (es : List (Int × Int)) : List (Int × Int) := es.foldl (fun s e => geInsert e s) []

/-! ### `readPyFile` (examples/coloring.cpp:107-148, coloring2.cpp:98-139, coloring3.cpp:109-150) -/

/-- The loop over the edges (examples/coloring.cpp:127-139); `last` keeps its value when nothing is read, `u` and `v` have none
at first.  Returns the stream, the edges and how many there were. -/
def pyEdges : Nat → Strm → Char → List (Int × Int) → Nat → Res (Strm × List (Int × Int) × Nat)
  | 0, _, _, _, _ => .more
  | fuel + 1, s, last, es, k =>
    if last = '}' then .ok (s, es, k)
    else
      let u := s.char.1.int
      let v := u.1.char.1.int
      let l := v.1.char.1.char
      match u.2, v.2 with
      | some a, some b => pyEdges fuel l.1 (l.2.getD last) (geInsert (a, b) es) (k + 1)
      | _, _ => .ub

/-- What `readPyFile` fills in: `i.nv`, `ub`, `i.edges` and `nbe`. -/
structure PFile where
  nv : Option Int
  ub : Int
  edges : List (Int × Int)
  nbe : Nat
deriving DecidableEq, Repr

/-- The loop of `readPyFile` (examples/coloring.cpp:113-145). -/
def pyLoop : Nat → Strm → PFile → Res PFile
  | 0, _, _ => .more
  | fuel + 1, s, p =>
    if s.eof then .ok p
    else
      let r := s.char
      if r.1.eof then .ok p
      else
        match r.2 with
        | none => .ub
        | some c =>
          if c = 'N' then
            let b := r.1.word.1.int
            pyLoop fuel b.1 { p with nv := b.2.or p.nv }
          else if c = 'E' then
            let l := r.1.word.1.char
            match l.2 with
            | none => .ub
            | some last =>
              match pyEdges fuel l.1 last p.edges p.nbe with
              | .ok (s', es, k) => pyLoop fuel s' { p with edges := es, nbe := k }
              | .ub => .ub
              | .more => .more
          else if c = 'K' then
            let b := r.1.word.1.int
            pyLoop fuel b.1 { p with ub := b.2.getD p.ub }
          else pyLoop fuel r.1 p

/-- `readPyFile(fName,UB)` up to `f.close()`, with `UB` as `main` passes it (examples/coloring.cpp:107-146, 161). -/
def readPy (fuel : Nat) (f : Strm) : Res PFile := pyLoop fuel f ⟨none, -1, [], 0⟩

/-- The instance the independent-set models run on; all weights are 1 (examples/misp5.cpp:104-106). -/
def GFile.misp (g : GFile) : Misp where
  top := (g.nv.getD 0).toNat
  edges := g.edges.map (fun e => (e.1.toNat, e.2.toNat))
  w := fun _ => 1

/-- The graph and the bound on the colours the colouring models run on (examples/coloring.cpp:170-175). -/
def PFile.col (p : PFile) : Col := ⟨(p.nv.getD 0).toNat, p.edges.map (fun e => (e.1.toNat, e.2.toNat))⟩
def PFile.U (p : PFile) : Nat := if p.ub < 0 then (p.nv.getD 0).toNat else p.ub.toNat

end Verif.Ex
