import Verif.Gruler
/-!
# Golomb rulers with the middle mark bounded (examples/gruler_mid.cpp, examples/gruler_midlb.cpp)

Both generators keep the marks of the first half below half of the bound, which hides every ruler whose
mirror image they show.
-/
namespace Verif.Ex
open Verif.DD

/-- `ub` of the generator (examples/gruler_mid.cpp:97-102, examples/gruler_midlb.cpp:90-95).  The bound is never negative, so
rounding down and rounding towards zero agree. -/
def Gol.ubMid (t : Gol) (p : Int) (k : Nat) : Int :=
  if k < t.n / 2 then min (p / 2 - t.opt (t.n / 2 - k)) (((t.L : Int) + 1) / 2 - t.opt (t.n / 2 - k))
  else min (p - 1 - t.opt (t.n - k)) ((t.L : Int) + 1 - t.opt (t.n - k))

/-- The lambdas of `main` (examples/gruler_mid.cpp:90-132): only `lgf` differs from
examples/gruler.cpp.  `p` is what the generator reads as `(int)bnds.getPrimal()`.  The sets are
`NatSet<13>` there. -/
def Gol.mid (t : Gol) (p : Int) : Mdl GolS :=
  { t.full with
    lgf := fun x => ((List.range (t.L + 2)).map (fun i : Nat => (i : Int))).filter fun l =>
      decide ((t.lb x : Int) ≤ l ∧ l ≤ t.ubMid p x.k) }

/-! ### With the smallest unused distance (examples/gruler_midlb.cpp) -/

/-- `SGRuler` (examples/gruler_midlb.cpp:17-26): the state of examples/gruler.cpp and the smallest unused
distance. -/
structure GolB where
  g : GolS
  sm : Nat
deriving DecidableEq

/-- `OPT` of that program (examples/gruler_midlb.cpp:55-76): it stops at 19 marks, a missing entry reads as 0. -/
def optTable19 : Nat → Nat := fun j => if j ≤ 19 then optTable j else 0

/-- The loop that looks for the next unused distance (examples/gruler_midlb.cpp:116-117). -/
def advLoop (d : Nat) : Nat → Nat → Nat
  | 0, s => s
  | f + 1, s => if d.testBit s then advLoop d f (s + 1) else s

/-- No distance beyond the largest one is used, so the loop ends. -/
def adv (d s : Nat) : Nat := advLoop d (d.log2 + 1) s

/-- The sink (examples/gruler_midlb.cpp:86-88, 113). -/
def Gol.targetB (t : Gol) : GolB := ⟨t.target, t.L + 1⟩

/-- `lb` of the generator (examples/gruler_midlb.cpp:96-100). -/
def Gol.lbB (t : Gol) (x : GolB) : Nat :=
  max (max (x.g.e + x.sm) (x.g.k * (x.g.k - 1) / 2)) (if x.g.k + 1 < t.n then t.opt (x.g.k + 1) else t.opt x.g.k + 1)

/-- The legality test, now in the generator (examples/gruler_midlb.cpp:104-105). -/
def GolB.legal (x : GolB) (l : Int) : Bool := x.g.d &&& diffs l.toNat x.g.m = 0

/-- The lambdas of `main` (examples/gruler_midlb.cpp:83-133); `lim` are the limits of the loop of the
generator. -/
def Gol.mdlB (t : Gol) (lim : GolB → Int → Bool) : Mdl GolB where
  sense := .min
  sti := ⟨⟨1, 0, 1, 0⟩, 1⟩
  stt := t.targetB
  lgf := fun x => ((List.range (t.L + 2)).map (fun i : Nat => (i : Int))).filter fun l => lim x l && x.legal l
  stf := fun x l => if x.g.k + 1 = t.n then some t.targetB
    else
      let dn := diffs l.toNat x.g.m ||| x.g.d
      some ⟨⟨x.g.m ||| 2 ^ l.toNat, dn, x.g.k + 1, l.toNat⟩, adv dn x.sm⟩
  stc := fun x l => l - x.g.e
  smf := fun a b => if a.g.k = b.g.k ∧ a.g.e = b.g.e then
      some ⟨⟨a.g.m &&& b.g.m, a.g.d &&& b.g.d, a.g.k, min a.g.e b.g.e⟩, min a.sm b.sm⟩ else none
  eqs := fun x => decide (x.g.k = t.n)
  loc := none
  sdom := none

/-- The problem without the other limits of the generator. -/
def Gol.fullB (t : Gol) : Mdl GolB := t.mdlB fun x l => decide (((x.g.e + x.sm : Nat) : Int) ≤ l)

/-- What the generator shows at primal bound `p` (examples/gruler_midlb.cpp:89-110). -/
def Gol.midB (t : Gol) (p : Int) : Mdl GolB := t.mdlB fun x l => decide ((t.lbB x : Int) ≤ l ∧ l ≤ t.ubMid p x.g.k)

/-- Rank of a state: marks made. -/
def Gol.rankB (_ : Gol) (x : GolB) : Nat := x.g.k

/-- `equal_to<SGRuler>` (examples/gruler_midlb.cpp:28-33): neither the distances nor the smallest unused
one are compared. -/
def GolB.eqC (a b : GolB) : Bool := a.g.eqC b.g

/-- `hash<GRSet>` (src/util.hpp:401-406, 862-866) of a mask of 384 bits. -/
def hash384 (m : Nat) : BitVec 64 :=
  hash256 m ^^^ BitVec.ofNat 64 (m >>> 256) ^^^ BitVec.ofNat 64 (m >>> 320)

/-- `hash<SGRuler>` (examples/gruler_midlb.cpp:35-43), for non-negative `k`, `e` and `sm` below 2^31. -/
def GolB.hash (x : GolB) : BitVec 64 :=
  (hash384 x.g.m).rotateLeft 20 ||| (hash384 x.g.d).rotateLeft 10 ||| (BitVec.ofNat 64 x.g.k).rotateLeft 8 ||| BitVec.ofNat 64 x.g.e |||
    BitVec.ofNat 64 x.sm

end Verif.Ex
