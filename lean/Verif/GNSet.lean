import Verif.NatSet
/-!
# Model of `GNSet` (src/util.hpp:420-748) and of the functions over it (751-846)

`none` is undefined behaviour (a null or out-of-range access, a `short` loop counter running over)
or a loop that does not end.  Arguments are naturals; a negative argument of `remove` or
`removeBelow` does nothing in the code, of `insert` and `contains` it is out of range.  Copies of
word arrays are written as one function instead of a loop.
-/
namespace Verif.GNSet
open Verif.Bits

/-- `_mxw`, `_nbp` (16-bit), whether `_t` is null, and the words. -/
structure G where
  mxw : Nat
  nbp : Nat
  nul : Bool
  t : Nat → W

/-- A loop `for(short i=0;i < n;i++)`: the counter wraps to a negative index from 2^15 words on. -/
def sh {β : Type} (n : Nat) (x : β) : Option β := if n < 2 ^ 15 then some x else none

/-- Words needed for the values below `nb`. -/
def ceil64 (nb : Nat) : Nat := nb / 64 + (if nb % 64 ≠ 0 then 1 else 0)

/-- `GNSet(nb)` (src/util.hpp:425-432). -/
def new (nb : Nat) : G := ⟨ceil64 nb, nb, ceil64 nb = 0, fun _ => 0⟩

/-- Copy constructor (src/util.hpp:433-439): the new array is never null. -/
def copy (g : G) : Option G := if g.nul ∧ g.mxw ≠ 0 then none else some { g with nul := false }

/-- Move (src/util.hpp:440-445, 519-526): what is left of the source. -/
def moved (g : G) : G := { g with nul := true }

/-- Copy assignment (src/util.hpp:507-518). -/
def assign (g s : G) : Option G :=
  let nul := if s.mxw ≠ g.mxw then false else g.nul
  if s.mxw ≠ 0 ∧ (nul ∨ s.nul) then none else some { s with nul := nul }

/-- `GNSet(NatSet)` (src/util.hpp:446-451). -/
def ofNatSet (n : Nat) (t : Nat → W) : G := ⟨n, ((NatSet.largest n t) % 2 ^ 16).toNat, false, t⟩

/-- Growth loop `while(i >= _mxw) _mxw <<= 1` on the 16-bit counter (src/util.hpp:549, 494). -/
def grow (i : Nat) : Nat → Nat → Option Nat
  | 0, _ => none
  | f + 1, m => if m ≤ i then grow i f (m * 2 % 2 ^ 16) else some m

/-- `insert` (src/util.hpp:544-562); 17 rounds of the growth loop decide (`grow_none`). -/
def insert (g : G) (p : Nat) : Option G :=
  let i := p / 64
  (if g.mxw ≤ i then (grow i 17 g.mxw).map (fun m => ({ g with mxw := m, nul := false, t := fun j => if j < g.mxw then g.t j else 0 } : G))
   else if g.nul then none else some g).map fun h =>
    { h with t := upd h.t i (h.t i ||| bit (p % 64)), nbp := max h.nbp (p % 2 ^ 16) }

def insertAll : List Nat → G → Option G
  | [], g => some g
  | p :: ps, g => (insert g p).bind (insertAll ps)

/-- The values of a `Range(f,e)` in the order of its iterator (`Verif/Range.lean`). -/
def rangeL (f e : Nat) : List Nat := if f ≤ e then List.range' f (e - f) else (List.range' (e + 1) (f - e)).reverse

/-- `GNSet(Range)` (src/util.hpp:452-468), for non-negative bounds. -/
def ofRange (f e : Nat) : Option G :=
  if f = e then some ⟨0, 0, true, fun _ => 0⟩
  else
    let m := ceil64 (max f e) % 2 ^ 16
    insertAll (rangeL f e) ⟨m, m * 64 % 2 ^ 16, false, fun _ => 0⟩

/-- Loop of `GNSet(lb,ub)` (src/util.hpp:485-489), `k` rounds. -/
def fillLoop (m lb : Nat) : Nat → Option (Nat → W)
  | 0 => some fun _ => 0
  | k + 1 => (fillLoop m lb k).bind fun t => NatSet.insert m t (lb + k)

/-- `GNSet(lb,ub)` (src/util.hpp:469-490). -/
def interval (lb ub : Nat) : Option G :=
  if ub < lb then some ⟨0, 0, true, fun _ => 0⟩
  else
    let m := ceil64 (ub + 1) % 2 ^ 16
    (fillLoop m lb (ub + 1 - lb)).map fun t => ⟨m, m * 64 % 2 ^ 16, false, t⟩

/-- `GNSet{...}` (src/util.hpp:491-502). -/
def ofList (l : List Nat) : Option G :=
  (grow (l.length / 64) 17 1).bind fun m => insertAll l ⟨m, l.length / 64 * 64 % 2 ^ 16, false, fun _ => 0⟩

/-- `clear` (src/util.hpp:528-531). -/
def clear (g : G) : Option G := sh g.mxw { g with t := each (fun _ _ => 0) g.mxw g.t }

/-- `empty` (src/util.hpp:532-537): stops at the first non-zero word. -/
def emptyLoop (t : Nat → W) (n : Nat) : Nat → Nat → Bool
  | 0, _ => true
  | f + 1, i => if i < n then (if t i ≠ 0 then false else emptyLoop t n f (i + 1)) else true
def empty (g : G) : Option Bool := sh g.mxw (emptyLoop g.t g.mxw (g.mxw + 1) 0)

/-- `size` (src/util.hpp:538-543). -/
def size (g : G) : Option Nat := sh g.mxw (popAll g.t g.mxw)

/-- `remove` (src/util.hpp:563-568). -/
def remove (g : G) (p : Nat) : G :=
  if p / 64 < g.mxw then { g with t := upd g.t (p / 64) (g.t (p / 64) &&& ~~~ (bit (p % 64))) } else g

/-- `complement` (src/util.hpp:569-573). -/
def complement (g : G) : Option G := sh g.mxw { g with t := each (fun _ w => ~~~ w) g.mxw g.t }

/-- `contains` (src/util.hpp:574-579). -/
def contains (g : G) (p : Nat) : Bool := if g.mxw ≤ p / 64 then false else decide (g.t (p / 64) &&& bit (p % 64) ≠ 0)

/-- `unionWith` (src/util.hpp:580-596). -/
def unionWith (g s : G) : Option G :=
  let t1 := each (fun i w => w ||| s.t i) (min g.mxw s.mxw) g.t
  if g.mxw < s.mxw then
    sh s.mxw { mxw := s.mxw, nbp := s.nbp, nul := false, t := fun i => if i < g.mxw then t1 i else s.t i }
  else sh (min g.mxw s.mxw) { g with t := t1 }

/-- `interWith` (src/util.hpp:597-604). -/
def interWith (g s : G) : Option G :=
  let t1 := each (fun i w => w &&& s.t i) (min g.mxw s.mxw) g.t
  sh g.mxw { g with t := fun i => if min g.mxw s.mxw ≤ i ∧ i < g.mxw then 0 else t1 i }

/-- `diffWith` (src/util.hpp:605-609). -/
def diffWith (g s : G) : Option G :=
  sh (min g.mxw s.mxw) { g with t := each (fun i w => w &&& ~~~ s.t i) (min g.mxw s.mxw) g.t }

/-- `removeAbove` (src/util.hpp:610-619). -/
def removeAbove (g : G) (p : Nat) : Option G :=
  let w := (p + 1) / 64
  if g.nbp < p + 1 then some g
  else if w < g.mxw then
    some { g with t := fun i => if i = w then g.t w &&& low ((p + 1) % 64) else if w < i ∧ i < g.mxw then 0 else g.t i }
  else none

/-- `removeBelow` (src/util.hpp:620-623); the rest of the function is not reached. -/
def removeBelow (g : G) : Nat → G
  | 0 => g
  | p + 1 => remove (removeBelow g p) p

/-- `operator==` (src/util.hpp:697-718): agreement on the first `k` words. -/
def sameTo (s t : Nat → W) (k : Nat) : Bool := (List.range k).all (fun i => s i == t i)
/-- Words `a, ..., b - 1` are zero. -/
def zeroTo (s : Nat → W) (a b : Nat) : Bool := (List.range' a (b - a)).all (fun i => s i == 0)

def eq (a b : G) : Bool :=
  if a.mxw = b.mxw then sameTo a.t b.t a.mxw
  else if !sameTo a.t b.t (min a.mxw b.mxw) then false
  else if a.mxw < b.mxw then zeroTo b.t a.mxw b.mxw
  else zeroTo a.t b.mxw a.mxw

/-- `operator!=` (src/util.hpp:718-738). -/
def ne (a b : G) : Bool :=
  if a.mxw = b.mxw then (List.range a.mxw).any (fun i => a.t i != b.t i)
  else if (List.range (min a.mxw b.mxw)).any (fun i => a.t i != b.t i) then true
  else if a.mxw < b.mxw then (List.range' a.mxw (b.mxw - a.mxw)).any (fun i => b.t i != 0)
  else (List.range' b.mxw (a.mxw - b.mxw)).any (fun i => a.t i != 0)

/-- `hash` (src/util.hpp:739-744). -/
def hash (t : Nat → W) : Nat → W
  | 0 => 0
  | n + 1 => (hash t n).rotateLeft 2 ^^^ t n

/-- Iterator at word `at` (src/util.hpp:643-646); `none` reads through a null pointer. -/
def iterAt (g : G) (i : Nat) : Option (Nat × W) :=
  if i < g.mxw then (if g.nul then none else some (adv g.t g.mxw (g.mxw + 1) i (g.t i)))
  else if g.nul then some (i, 0) else some (adv g.t g.mxw (g.mxw + 1) i 0)

/-- `for(auto v : s)`. -/
def iter (g : G) : Option (List Int) := (iterAt g 0).bind (iterL (next g.t g.mxw) g.mxw (64 * g.mxw + 1))

/-- Loop of `rbegin` (src/util.hpp:684-687) from `c`: the last iterator with word index `lw`. -/
def rloop (g : G) (lw : Nat) : Nat → Nat × W → Nat × W → Option (Nat × W)
  | 0, _, _ => none
  | f + 1, c, found => if c.1 = lw then rloop g lw f (next g.t g.mxw c) c else some found

/-- `*rbegin()` (src/util.hpp:678-689). -/
def rbegin (g : G) : Option Int :=
  (lastWord g.t g.mxw).bind fun lw => (iterAt g lw).bind fun c =>
    (rloop g c.1 66 c c).map fun it => toShort (64 * it.1 + ctz it.2)

/-- `min(s)` (src/util.hpp:751-756). -/
def minS (g : G) : Option Int :=
  (size g).bind fun k => if 0 < k then (iterAt g 0).map (fun it => toShort (64 * it.1 + ctz it.2)) else some (2 ^ 31 - 1)

/-- `max(s)` (src/util.hpp:757-762). -/
def maxS (g : G) : Option Int :=
  (size g).bind fun k => if 0 < k then rbegin g else some (- 2 ^ 31)

/-! ### Functions over sets -/

/-- `filter(s,p)` (src/util.hpp:763-770); a negative value coming out of the iterator is out of range. -/
def filterLoop (p : Int → Bool) : List Int → G → Option G
  | [], g => some g
  | v :: vs, g => if p v then (if v < 0 then none else (insert g v.toNat).bind (filterLoop p vs)) else filterLoop p vs g
def filterS (g : G) (p : Int → Bool) : Option G := (iter g).bind fun l => filterLoop p l (new 64)

/-- `sum(s,t)` (src/util.hpp:791-797); `int` overflow is not modelled. -/
def sumS (g : G) (f : Int → Int) : Option Int := (iter g).map fun l => l.foldl (fun a v => a + f v) 0

/-- `min(s,f,t)` (src/util.hpp:807-816). -/
def minF (g : G) (p : Int → Bool) (f : Int → Int) : Option Int :=
  (iter g).map fun l => l.foldl (fun a v => if p v then (if a < f v then a else f v) else a) (2 ^ 31 - 1)

/-- `max(s,f,t)` (src/util.hpp:818-827). -/
def maxF (g : G) (p : Int → Bool) (f : Int → Int) : Option Int :=
  (iter g).map fun l => l.foldl (fun a v => if p v then (if a > f v then a else f v) else a) (- 2 ^ 31)

end Verif.GNSet
