import Verif.Basic
/-!
# Model of `UnionFind` (src/uf.hpp)

Nodes are numbered in creation order; the structure owns them all (`_all`), so a parent link never
expires.  `_sz` is an `int`; it never exceeds the number of nodes (`Inv.szn` in `Props/UF.lean`).
-/
namespace Verif.UF

structure U where
  n : Nat
  par : Nat → Option Nat
  sz : Nat → Nat

def empty : U := ⟨0, fun _ => none, fun _ => 1⟩

/-- `makeSet` (src/uf.hpp:25-29). -/
def makeSet (u : U) : U × Nat := ({ n := u.n + 1, par := upd u.par u.n none, sz := upd u.sz u.n 1 }, u.n)

/-- `setFor` (src/uf.hpp:30-46); the fuel bounds the depth of the recursion. -/
def setFor : Nat → U → Nat → Option (U × Nat)
  | 0, _, _ => none
  | f + 1, u, v =>
    match u.par v with
    | none => some (u, v)
    | some p => (setFor f u p).map fun r => ({ r.1 with par := upd r.1.par v (some r.2) }, r.2)

/-- `merge` (src/uf.hpp:47-59). -/
def merge (f : Nat) (u : U) (a b : Nat) : Option (U × Nat) :=
  (setFor f u a).bind fun x => (setFor f x.1 b).map fun y =>
    let u := y.1
    let r0 := x.2
    let r1 := y.2
    if r0 = r1 then (u, r0)
    else if u.sz r0 > u.sz r1 then
      ({ u with par := upd u.par r1 (some r0), sz := upd u.sz r0 (u.sz r0 + u.sz r1) }, r0)
    else
      ({ u with par := upd u.par r0 (some r1), sz := upd u.sz r1 (u.sz r1 + u.sz r0) }, r0)

inductive Op where
  | makeSet
  | setFor (a : Nat)
  | merge (a b : Nat)

/-- One call; arguments must be nodes made before. -/
def step (f : Nat) (u : U) : Op → Option (U × Nat)
  | .makeSet => some (makeSet u)
  | .setFor a => if a < u.n then setFor f u a else none
  | .merge a b => if a < u.n ∧ b < u.n then merge f u a b else none

def run (f : Nat) : U → List Op → Option (U × List Nat)
  | u, [] => some (u, [])
  | u, o :: os => (step f u o).bind fun p => (run f p.1 os).map fun q => (q.1, p.2 :: q.2)

end Verif.UF
