import Verif.BB
import Verif.NatSet
/-!
# The Golomb ruler example (examples/gruler.cpp:14-139)

Sets of marks and of distances are bit masks: `i` is a member when bit `i` is set.  In the code they are
`NatSet<4>`; `gruler_sets` ties the two for rulers up to length 63, `gruler_undefined` shows what can
happen beyond.
-/
namespace Verif.Ex
open Verif.DD

/-- The arguments and the table `OPT` (examples/gruler.cpp:48-84); an entry the map does not have reads
as 0. -/
structure Gol where
  n : Nat
  L : Nat
  opt : Nat → Nat

/-- `SGRuler` (examples/gruler.cpp:18-26): marks, distances, number of marks, last mark. -/
structure GolS where
  m : Nat
  d : Nat
  k : Nat
  e : Nat
deriving DecidableEq

/-- `OPT` (examples/gruler.cpp:52-84). -/
def optTable : Nat → Nat := fun j =>
  [0, 0, 1, 3, 6, 11, 17, 25, 34, 44, 55, 72, 85, 106, 127, 151, 177, 199, 216, 246, 283, 333, 356, 372, 425, 480, 492, 553,
    585, 586, 588].getD j 0

/-- `label - s.m` (examples/gruler.cpp:109, src/util.hpp:160-259 as a set). -/
def diffs (l m : Nat) : Nat :=
  (List.range (l + 1)).foldl (fun a i => if m.testBit i then a ||| 2 ^ (l - i) else a) 0

/-- The fold over the marks (examples/gruler.cpp:104); marks are below the label. -/
def legal (m d l : Nat) : Bool := (List.range l).all fun i => !(m.testBit i && d.testBit (l - i))

/-- The sink (examples/gruler.cpp:91-93). -/
def Gol.target (t : Gol) : GolS := ⟨0, 0, t.n, 0⟩

/-- `lb` of the generator (examples/gruler.cpp:96-100). -/
def Gol.lb (t : Gol) (x : GolS) : Nat :=
  max (max (x.e + 1) (x.k * (x.k - 1) / 2)) (if x.k + 1 < t.n then t.opt (x.k + 1) else t.opt x.k + 1)

/-- `ub` of the generator (examples/gruler.cpp:95). -/
def Gol.ub (t : Gol) (p : Int) (x : GolS) : Int :=
  min (p - t.opt (t.n - x.k) - 1) ((t.L : Int) + 1 - t.opt (t.n - x.k))

/-- The lambdas of `main` (examples/gruler.cpp:88-124); `ub` is what the generator reads as
`(int)bnds.getPrimal()`, `none` leaves all limits out except that the ruler ends at `L + 1`.  The set
`labels` passed to `makeDD` stops at `L` but the engine does not use it. -/
def Gol.mdl (t : Gol) (ub : Option Int) : Mdl GolS where
  sense := .min
  sti := ⟨1, 0, 1, 0⟩
  stt := t.target
  lgf := fun x => ((List.range (t.L + 2)).map (fun i : Nat => (i : Int))).filter fun l =>
    match ub with
    | none => decide ((x.e : Int) + 1 ≤ l)
    | some p => decide ((t.lb x : Int) ≤ l ∧ l ≤ t.ub p x)
  stf := fun x l => if legal x.m x.d l.toNat then
      if x.k + 1 = t.n then some t.target
      else some ⟨x.m ||| 2 ^ l.toNat, diffs l.toNat x.m ||| x.d, x.k + 1, l.toNat⟩
    else none
  stc := fun x l => l - x.e
  smf := fun a b => if a.k = b.k ∧ a.e = b.e then some ⟨a.m &&& b.m, a.d &&& b.d, a.k, min a.e b.e⟩ else none
  eqs := fun x => decide (x.k = t.n)
  loc := none
  sdom := none

/-- The problem without the limits of the generator. -/
def Gol.full (t : Gol) : Mdl GolS := t.mdl none

/-- What the generator shows at primal bound `p`. -/
def Gol.fam (t : Gol) (p : Int) : Mdl GolS := t.mdl (some p)

/-- Rank of a state: marks made. -/
def Gol.rank (_ : Gol) (x : GolS) : Nat := x.k

/-- `equal_to<SGRuler>` (examples/gruler.cpp:28-32): the distances are not compared.  The engine model
compares whole states; see `gruler_eq` and `gruler_eq_false`. -/
def GolS.eqC (a b : GolS) : Bool := a.k = b.k && a.e = b.e && a.m = b.m

/-- `hash<GRSet>` (src/util.hpp:401-406, 862-866) of a mask of 256 bits. -/
def hash256 (m : Nat) : BitVec 64 :=
  BitVec.ofNat 64 m ^^^ BitVec.ofNat 64 (m >>> 64) ^^^ BitVec.ofNat 64 (m >>> 128) ^^^ BitVec.ofNat 64 (m >>> 192)

/-- `hash<SGRuler>` (examples/gruler.cpp:34-41), for non-negative `k` and `e` below 2^31. -/
def GolS.hash (x : GolS) : BitVec 64 :=
  (hash256 x.m).rotateLeft 20 ||| (hash256 x.d).rotateLeft 10 ||| (BitVec.ofNat 64 x.k).rotateLeft 8 ||| BitVec.ofNat 64 x.e

end Verif.Ex
