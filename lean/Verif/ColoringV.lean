import Verif.Coloring
/-!
# The other graph-colouring examples (examples/coloring.cpp, coloring2.cpp, coloring3.cpp)

Graphs are those of `Verif/Coloring.lean`.  `U` is the bound read from the file, or the number of
vertices when the file has none (examples/coloring.cpp:175, coloring2.cpp:163, coloring3.cpp:177).
Edges must join vertices below `nv` (`convert` indexes `adj` with both ends).  The readers, `convert` and
the sets of colours are in `Verif/Dimacs.lean`.
-/
namespace Verif.Ex
open Verif.DD

/-- `setFrom(std::views::iota(1,UB+1))` (examples/coloring.cpp:202). -/
def labelsU (U : Nat) : Nat := 2 ^ (U + 1) - 2

/-- The legal sets after giving colour `l` to vertex `v` (examples/coloring.cpp:220-224): the colour goes
from the sets of all neighbours, earlier ones included. -/
def Col.nextAll (t : Col) (s : List Nat) (v l : Nat) : List Nat :=
  (List.range s.length).map fun i =>
    if i = v then 2 ^ l
    else if t.adj v i = true ∧ (s.getD i 0).testBit l = true then s.getD i 0 ^^^ 2 ^ l
    else s.getD i 0

/-- The colours `1 .. min(last + 1, primal)`; see `Col.mdl` for `ub`. -/
def colours (last : Nat) (ub : Option Int) : List Int :=
  ((List.range (last + 1)).map (fun i : Nat => (i : Int) + 1)).filter fun l =>
    match ub with
    | none => true
    | some p => decide (l ≤ p)

/-- The lambdas of `main` (examples/coloring.cpp:203-243). -/
def Col.mdlU (t : Col) (U : Nat) (ub : Option Int) : Mdl ColS where
  sense := .min
  sti := ⟨List.replicate t.K (labelsU U), 0, 0⟩
  stt := t.target
  lgf := fun x => if x.vtx ≥ t.K then [] else colours x.last ub
  stf := fun x l => if (x.s.getD x.vtx 0).testBit l.toNat = true then
      if x.vtx + 1 = t.K then some t.target else some ⟨t.nextAll x.s x.vtx l.toNat, max l.toNat x.last, x.vtx + 1⟩
    else none
  stc := fun x l => max 0 (l - x.last)
  smf := fun a b => if a.last = b.last ∧ a.vtx = b.vtx then
      some ⟨(List.range a.s.length).map fun i => if i < t.K then a.s.getD i 0 ||| b.s.getD i 0 else a.s.getD i 0, a.last, a.vtx⟩ else none
  eqs := fun x => decide (x.vtx = t.K)
  loc := none
  sdom := none

/-- `adj[v]` contains `a` (examples/coloring2.cpp:55-61); coloring3 keeps only `a ≤ v`
(examples/coloring3.cpp:70-71). -/
def Col.nbr (t : Col) (below : Bool) (v a : Nat) : Bool := t.adj v a && (!below || decide (a ≤ v))

/-- The lambdas of `main` (examples/coloring2.cpp:179-209 with `below = false`,
examples/coloring3.cpp:206-257 with `below = true`).  In a state, `s[v]` is the colour of vertex `v`, 0 if it
has none or the merged states disagree; it is a 16-bit number.  The generator's first test is for
`vtx ≥ K + 1`; at `vtx = K`, the sink, `adj[s.vtx]` would be out of range, but the engine does not
expand it (`Step` starts from states that are not sinks). -/
def Col.mdlA (t : Col) (U : Nat) (below : Bool) (ub : Option Int) : Mdl ColS where
  sense := .min
  sti := ⟨List.replicate t.K 0, 0, 0⟩
  stt := t.target
  lgf := fun x => if x.vtx ≥ t.K then [] else (colours x.last ub).filter fun l =>
    decide (l ≤ U) && (List.range t.K).all fun a => !(t.nbr below x.vtx a) || x.s.getD a 0 == 0 || decide ((x.s.getD a 0 : Int) ≠ l)
  stf := fun x l => if x.vtx + 1 = t.K then some t.target
    else some ⟨x.s.set x.vtx (l.toNat % 2 ^ 16), max l.toNat x.last, x.vtx + 1⟩
  stc := fun x l => max 0 (l - x.last)
  smf := fun a b => if a.last = b.last ∧ a.vtx = b.vtx then
      some ⟨(List.range a.s.length).map fun i => if i < a.vtx + 1 then (if a.s.getD i 0 = b.s.getD i 0 then a.s.getD i 0 else 0) else a.s.getD i 0,
        a.last, a.vtx⟩ else none
  eqs := fun x => decide (x.vtx = t.K)
  loc := none
  sdom := none

/-- One edge of the check below; `none` is an index out of range. -/
def edgeOk (inc : List Int) (e : Nat × Nat) : Option Bool := do
  let x ← inc[e.1]?
  let y ← inc[e.2]?
  return x != y

/-- The check of an incumbent (examples/coloring.cpp:177-188, coloring2.cpp:165-174,
coloring3.cpp:179-190): the ends of every edge differ; `some false` is the failed assertion. -/
def Col.checker (t : Col) (inc : List Int) : Option Bool :=
  t.es.foldlM (fun ok e => (edgeOk inc e).map (ok && ·)) true

end Verif.Ex
