import Verif.Misp1
/-!
# The second and third independent-set examples (examples/misp2.cpp, examples/misp3.cpp)

Both decide the smallest selectable vertex, label 1 to take it and 0 to leave it.  They differ in what
`l` holds: the vertex decided last (misp2) or the one decided next (misp3).  Vertex sets are bit masks
and `neighbors` is `Misp.closed`, as in `Verif/Misp1.lean`.
-/
namespace Verif.Ex
open Verif.DD

/-- `while (!s.contains(v) && v <= top) v++` (examples/misp2.cpp:159-160, 181-182; examples/misp3.cpp:168-169)
on masks; the first argument bounds the number of turns. -/
def scanTo (s top : Nat) : Nat → Nat → Nat
  | 0, v => v
  | f + 1, v => if s.testBit v = false ∧ v ≤ top then scanTo s top f (v + 1) else v

/-- The loop from `v` on; it makes at most `top + 1 - v` turns. -/
def scan (s top v : Nat) : Nat := scanTo s top (top + 1 - v) v

/-- The vertex that `myStf` and `scf` look at (examples/misp2.cpp:158-160, 180-182). -/
def Misp.cur2 (g : Misp) (x : MispS) : Nat := scan x.sel g.top (x.l + 1).toNat

/-- `out` (examples/misp2.cpp:166-172, examples/misp3.cpp:163-165): `v` left, or taken with its neighbours
removed. -/
def Misp.pick (g : Misp) (s v : Nat) (label : Int) : Nat :=
  if label = 0 then mdiff s (2 ^ v) else mdiff s (g.closed v)

/-- The lambdas of `main` in examples/misp2.cpp:145-196.  `weight[top]` is 0 (135). -/
def Misp.mdl2 (g : Misp) : Mdl MispS where
  sense := .max
  sti := ⟨2 ^ g.top - 1, 0, -1⟩
  stt := ⟨0, 0, g.top⟩
  lgf := fun _ => [0, 1]
  stf := fun x label =>
    if g.cur2 x = g.top then
      if x.sel = 0 then some ⟨0, 0, g.top⟩ else none
    else
      let o := g.pick x.sel (g.cur2 x) label
      some ⟨o, if o = 0 then 0 else x.n + 1, if o = 0 then (g.top : Int) else (g.cur2 x : Int)⟩
  stc := fun x label => label * (if g.cur2 x = g.top then 0 else g.w (g.cur2 x))
  smf := fun a b => if a.l = b.l then some ⟨a.sel ||| b.sel, min a.n b.n, min a.l b.l⟩ else none
  eqs := fun x => decide (x.sel = 0)
  loc := none
  sdom := none

/-- `local` (examples/misp3.cpp:190-195): the weights of the selectable vertices from `l` on. -/
def Misp.rest3 (g : Misp) (x : MispS) : Int :=
  (((List.range g.top).filter (fun i => x.sel.testBit i)).map fun i : Nat => if x.l ≤ (i : Int) then g.w i else 0).sum

/-- The lambdas of `main` in examples/misp3.cpp:145-195. -/
def Misp.mdl3 (g : Misp) : Mdl MispS where
  sense := .max
  sti := ⟨2 ^ g.top - 1, 0, 0⟩
  stt := ⟨0, 0, g.top⟩
  lgf := fun _ => [0, 1]
  stf := fun x label =>
    if (g.top : Int) ≤ x.l then
      if x.sel = 0 then some ⟨0, 0, g.top⟩ else none
    else
      let o := mdiff x.sel (2 ^ x.l.toNat)
      let o := if label ≠ 0 then mdiff o (g.closed x.l.toNat) else o
      some ⟨o, if o = 0 then 0 else x.n + 1, if o = 0 then (g.top : Int) else (scan o g.top (x.l.toNat + 1) : Int)⟩
  stc := fun x label => label * (if x.l.toNat = g.top then 0 else g.w x.l.toNat)
  smf := fun a b => if a.l = b.l then some ⟨a.sel ||| b.sel, min a.n b.n, min a.l b.l⟩ else none
  eqs := fun x => decide (x.sel = 0)
  loc := some fun x _ => g.rest3 x
  sdom := none

end Verif.Ex
