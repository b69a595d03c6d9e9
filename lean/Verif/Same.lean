import Verif.BB
import Verif.Gruler
import Verif.Hash
import Verif.TspV
/-!
# The states' own equality (`std::equal_to` and `std::hash` of the examples)

The engine finds a node for a state by the user's equality, in the bucket of the user's hash
(src/lighthash.hpp:87-100).  `Hom` says that forgetting what the equality ignores is a map of models.
-/
namespace Verif.DD
variable {σ κ : Type}

/-- The functions of `m`, merging apart, only look at, and only change, what `f` keeps; `k` is the model on what is kept. -/
structure HomR (f : σ → κ) (m : Mdl σ) (k : Mdl κ) : Prop where
  sense : k.sense = m.sense
  sti : k.sti = f m.sti
  stt : k.stt = f m.stt
  lgf : ∀ s, k.lgf (f s) = m.lgf s
  stf : ∀ s l, k.stf (f s) l = (m.stf s l).map f
  stc : ∀ s l, k.stc (f s) l = m.stc s l
  eqs : ∀ s, k.eqs (f s) = m.eqs s
  loc : m.loc = k.loc.map (fun h s c => h (f s) c)
  sdom : m.sdom = k.sdom.map (fun h a b => h (f a) (f b))

/-- The same with merging. -/
structure Hom (f : σ → κ) (m : Mdl σ) (k : Mdl κ) : Prop extends HomR f m k where
  smf : ∀ a b, k.smf (f a) (f b) = (m.smf a b).map f

/-- The arena with the ignored part of the states forgotten. -/
def G.map (f : σ → κ) (g : G σ) : G κ :=
  { st := fun i => f (g.st i), lab := g.lab, bound := g.bound, bb := g.bb, layer := g.layer, ex := g.ex, par := g.par,
    kids := g.kids, nn := g.nn, es := g.es, ed := g.ed, el := g.el, eo := g.eo, efix := g.efix, etix := g.etix, ne := g.ne,
    an := g.an, exact := g.exact, root := g.root, trg := g.trg }

/-- The same for the root of a diagram. -/
def Src.map (f : σ → κ) (r : Src σ) : Src κ := ⟨f r.st, r.lab, r.bound, r.bb⟩

end Verif.DD

namespace Verif.BB
open Verif.DD
variable {σ κ : Type}

/-- The same for the state of the search. -/
def BS.map (f : σ → κ) (s : BS σ) : BS κ :=
  { pst := fun i => f (s.pst i), plab := s.plab, pbound := s.pbound, pbb := s.pbb, pn := s.pn, pq := s.pq, primal := s.primal,
    inc := s.inc, sols := s.sols, wrel := s.wrel, stopped := s.stopped, log := s.log }

end Verif.BB

namespace Verif.Ex
open Verif.DD

/-- How a hash table of `n` buckets finds a state (src/lighthash.hpp:87-100): equal by the user's `std::equal_to`,
and in the bucket of the user's `std::hash`. -/
@[reducible] def tabSame {σ : Type} (n : Nat) (eqv : σ → σ → Bool) (hash : σ → Nat) : Same σ :=
  ⟨fun a b => eqv a b && hash a % n == hash b % n⟩

/-- How the node tables find a state of gruler.cpp.  `std::equal_to` ignores the distances (examples/gruler.cpp:27-31),
`std::hash` does not (examples/gruler.cpp:33-40).  The tables are made for 200000 (src/dd.hpp:351, 560), that is with
200191 buckets (`gruler_buckets`). -/
@[reducible] def gruSame : Same GolS := tabSame 200191 GolS.eqC (fun a => a.hash.toNat)

/-- `TSP` (examples/tsp_test2.cpp:5-13) with its field `lb`. -/
structure Tsp2L where
  x : Tsp4S
  lb : Int

/-- `std::equal_to` and `std::hash` ignore `lb` (examples/tsp_test2.cpp:15-27). -/
instance : Same Tsp2L := ⟨fun a b => decide (a.x = b.x)⟩

/-- The lambdas of examples/tsp_test2.cpp:141-170 on states with `lb`. -/
def Tsp4.mdl2L (t : Tsp4) (J : Int) : Mdl Tsp2L where
  sense := .min
  sti := ⟨(t.mdl2 J).sti, 0⟩
  stt := ⟨(t.mdl2 J).stt, 0⟩
  lgf := fun s => (t.mdl2 J).lgf s.x
  stf := fun s l => ((t.mdl2 J).stf s.x l).map fun y => ⟨y, if l = 0 then 0 else s.lb + t.d s.x.e l.toNat⟩
  stc := fun s l => (t.mdl2 J).stc s.x l
  smf := fun a b => ((t.mdl2 J).smf a.x b.x).map fun y => ⟨y, min a.lb b.lb⟩
  eqs := fun s => (t.mdl2 J).eqs s.x
  loc := (t.mdl2 J).loc.map fun h s c => h s.x c
  sdom := none

/-- `TSP` (examples/tsp_test3.cpp:5-14) with its field `lb`. -/
structure Tsp3L where
  x : Tsp3S
  lb : Int

/-- `std::equal_to` and `std::hash` ignore `lb` (examples/tsp_test3.cpp:16-29). -/
instance : Same Tsp3L := ⟨fun a b => decide (a.x = b.x)⟩

/-- The lambdas of examples/tsp_test3.cpp:183-217 on states with `lb`. -/
def Tsp4.mdl3L (t : Tsp4) (J : Int) : Mdl Tsp3L where
  sense := .min
  sti := ⟨(t.mdl3 J).sti, 0⟩
  stt := ⟨(t.mdl3 J).stt, 0⟩
  lgf := fun s => (t.mdl3 J).lgf s.x
  stf := fun s l => ((t.mdl3 J).stf s.x l).map fun y => ⟨y, if l = 0 then 0 else s.lb + t.d s.x.e l.toNat⟩
  stc := fun s l => (t.mdl3 J).stc s.x l
  smf := fun a b => ((t.mdl3 J).smf a.x b.x).map fun y => ⟨y, min a.lb b.lb⟩
  eqs := fun s => (t.mdl3 J).eqs s.x
  loc := (t.mdl3 J).loc.map fun h s c => h s.x c
  sdom := none

end Verif.Ex
