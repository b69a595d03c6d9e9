import Verif.Istream
import Verif.Knapsack2
import Verif.MSort
/-!
# `readFile` of the two knapsack examples (examples/knapsack.cpp:48-68, examples/knapsack2.cpp:57-84)
-/
namespace Verif.Ex
open Verif.IO

/-- What a reader comes to: a value, undefined behaviour, or not done within the fuel. -/
inductive Res (α : Type) where
  | ok (a : α)
  | ub
  | more
deriving DecidableEq, Repr

/-- What knapsack.cpp reads: `I`, `capa`, `profit`, `weight` (examples/knapsack.cpp:39-46). -/
structure KFile where
  I : Int
  capa : Int
  profit : List Int
  weight : List Int
deriving DecidableEq, Repr

/-- The loop of `readFile` (examples/knapsack.cpp:54-62).  Pushing a variable the extraction left unset is
undefined; the count is compared before it is pushed. -/
def knapLoop (I : Int) : Nat → Strm → Nat → List Int → List Int → Res (List Int × List Int)
  | 0, _, _, _, _ => .more
  | fuel + 1, s, count, ps, ws =>
    if s.eof then .ok (ps, ws)
    else
      let r1 := s.int
      let r2 := r1.1.int
      if (count : Int) ≥ I then .ok (ps, ws)
      else
        match r1.2, r2.2 with
        | some p, some w => knapLoop I fuel r2.1 (count + 1) (ps ++ [p]) (ws ++ [w])
        | _, _ => .ub

/-- `readFile` (examples/knapsack.cpp:48-66). -/
def readKnap (fuel : Nat) (f : Strm) : Res KFile :=
  let r1 := f.int
  let r2 := r1.1.int
  match r1.2, r2.2 with
  | some I, some capa =>
    match knapLoop I fuel r2.1 0 [] [] with
    | .ok (ps, ws) => .ok ⟨I, capa, ps, ws⟩
    | .ub => .ub
    | .more => .more
  | _, _ => .ub

/-- `Item` (examples/knapsack2.cpp:25-28). -/
structure Item where
  w : Int
  p : Int
deriving DecidableEq, Repr

/-- The loop of `readFile` (examples/knapsack2.cpp:64-71): the item is written to `items[count]`, an array of `I`
items, before the count is compared. -/
def knapLoop2 (I : Int) : Nat → Strm → Nat → List Item → Res (List Item)
  | 0, _, _, _ => .more
  | fuel + 1, s, count, its =>
    if s.eof then .ok its
    else
      let r1 := s.int
      let r2 := r1.1.int
      if (count : Int) ≥ I then .ub
      else
        match r1.2, r2.2 with
        | some p, some w => knapLoop2 I fuel r2.1 (count + 1) (its ++ [⟨w, p⟩])
        | _, _ => .ub

/-- `(double)p / (double)w` for 0 ≤ p, 0 < w, both below 2^31, as `m / 2^k`. -/
def rate (x : Item) : Nat × Nat := if x.p ≤ 0 then (0, 0) else fdiv x.p.toNat x.w.toNat

/-- `a ≤ b` on such doubles. -/
def dle (a b : Nat × Nat) : Bool := decide (a.1 * 2 ^ b.2 ≤ b.1 * 2 ^ a.2)

/-- The comparator (examples/knapsack2.cpp:73-77): rates are negated. -/
def cmpItem (a b : Item) : Bool :=
  if dle (rate a) (rate b) && dle (rate b) (rate a) then decide (a.p ≤ b.p) else dle (rate b) (rate a)

/-- The sort and the two vectors (examples/knapsack2.cpp:73-82), of items that fill the array. -/
def sortItems (its : List Item) : List Item :=
  MSort.seg (MSort.mergeSort cmpItem (fun i => its.getD i ⟨1, 0⟩) its.length) 0 its.length

/-- `readFile` (examples/knapsack2.cpp:57-84).  Sorting cells that were not read is undefined, and so is a negative size. -/
def readKnap2 (fuel : Nat) (f : Strm) : Res (Int × Int × List Item) :=
  let r1 := f.int
  let r2 := r1.1.int
  match r1.2, r2.2 with
  | some I, some capa =>
    match knapLoop2 I fuel r2.1 0 [] with
    | .ok its => if (its.length : Int) = I then .ok (I, capa, sortItems its) else .ub
    | .ub => .ub
    | .more => .more
  | _, _ => .ub

/-- The instance the models of the two examples run on. -/
def KFile.knap (f : KFile) : Knap where
  I := f.I.toNat
  capa := f.capa
  w := fun i => f.weight.getD i 1
  p := fun i => f.profit.getD i 0

/-- The same from sorted items. -/
def Knap.ofItems (capa : Int) (its : List Item) : Knap where
  I := its.length
  capa := capa
  w := fun i => (its.getD i ⟨1, 0⟩).w
  p := fun i => (its.getD i ⟨1, 0⟩).p

end Verif.Ex
