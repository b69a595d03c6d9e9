import Verif.Spec
/-!
# The independent-set example (examples/misp5.cpp)

Vertex sets are bit masks: vertex `i` is a member when bit `i` is set.  C49 and C50 tie `GNSet` to
sets.  Weights are integers; the program itself sets them all to 1 (examples/misp5.cpp:106).
-/
namespace Verif.Ex
open Verif.DD

/-- `Instance` (examples/misp5.cpp:35-53): vertices 0 .. top-1, edges as read, and weights. -/
structure Misp where
  top : Nat
  edges : List (Nat × Nat)
  w : Nat → Int

/-- `MISP` (examples/misp5.cpp:3-10). -/
structure MispS where
  sel : Nat
  n : Nat
  l : Int
deriving DecidableEq

/-- `adj[v]` after `convert` (examples/misp5.cpp:46-52). -/
def Misp.nb (g : Misp) (v : Nat) : Nat :=
  g.edges.foldl (fun m e =>
    let m1 := if e.1 = v then m ||| 2 ^ e.2 else m
    if e.2 = v then m1 ||| 2 ^ e.1 else m1) 0

/-- `a.diffWith(b)` / `a.remove(i)` on masks. -/
def mdiff (a b : Nat) : Nat := a ^^^ (a &&& b)

/-- `out` in `myStf` (examples/misp5.cpp:155-157). -/
def Misp.out (g : Misp) (x : MispS) (label : Int) : Nat :=
  let o := mdiff x.sel (2 ^ x.n)
  if label ≠ 0 then mdiff o (g.nb x.n) else o

/-- `sum(s.sel, weight)` (examples/misp5.cpp:173-175). -/
def Misp.sum (g : Misp) (s : Nat) : Int :=
  (((List.range g.top).filter (fun i => s.testBit i)).map g.w).sum

/-- The lambdas of `main` (examples/misp5.cpp:126-175). -/
def Misp.mdl (g : Misp) : Mdl MispS where
  sense := .max
  sti := ⟨2 ^ g.top - 1, 0, -1⟩
  stt := ⟨0, g.top, 0⟩
  lgf := fun _ => [0, 1]
  stf := fun x label =>
    if x.sel.testBit x.n = false ∧ label ≠ 0 then none
    else
      let o := g.out x label
      some ⟨o, if o = 0 then g.top else x.n + 1, if o = 0 then 0 else x.n⟩
  stc := fun x label => label * g.w x.n
  smf := fun a b => if a.l = b.l then some ⟨a.sel ||| b.sel, min a.n b.n, a.l⟩ else none
  eqs := fun x => decide (x.sel = 0)
  loc := some fun x _ => g.sum x.sel
  sdom := none

/-- Rank of a state: vertices decided. -/
def Misp.rank (_ : Misp) (x : MispS) : Nat := x.n

/-- The checker's `inc[i] * weight[i]` loop over all vertices (examples/misp5.cpp:120-122), `none`
when it reads past the end of the incumbent. -/
def Misp.chkSum (g : Misp) (inc : List Int) : Nat → Option Int
  | 0 => some 0
  | i + 1 => do
    let t ← g.chkSum inc i
    let x ← inc[i]?
    return t + x * g.w i

end Verif.Ex
