import Verif.Bits
/-!
# Model of `NatSet<nbw>` (src/util.hpp:120-409)

`n` is `nbw`, the state the word array `_t`.  The loops over words count in a `short`: word counts
of 2^15 and more are outside the model.  Negative arguments of `insert` and `contains` are outside
the model too (they index before the array).
-/
namespace Verif.NatSet
open Verif.Bits

/-- Default constructor (src/util.hpp:132-135) and `clear` (274-277). -/
def zeros : Nat → W := fun _ => 0

/-- `insert` (src/util.hpp:299); `none` writes outside the array. -/
def insert (n : Nat) (t : Nat → W) (p : Nat) : Option (Nat → W) :=
  if p / 64 < n then some (upd t (p / 64) (t (p / 64) ||| bit (p % 64))) else none

/-- `contains` (src/util.hpp:300); `none` reads outside the array. -/
def contains (n : Nat) (t : Nat → W) (p : Nat) : Option Bool :=
  if p / 64 < n then some (decide (t (p / 64) &&& bit (p % 64) ≠ 0)) else none

/-- Loop of the range constructor (src/util.hpp:154-158), `k` rounds from `lb`. -/
def rangeLoop (n lb : Nat) : Nat → Option (Nat → W)
  | 0 => some zeros
  | k + 1 => (rangeLoop n lb k).bind fun t => insert n t (lb + k)

/-- `NatSet(lb,ub)` (src/util.hpp:143-159), for non-negative `lb`. -/
def range (n lb ub : Nat) : Option (Nat → W) := if ub < lb then some zeros else rangeLoop n lb (ub + 1 - lb)

/-- `NatSet{...}` (src/util.hpp:260-267). -/
def ofList (n : Nat) : List Nat → (Nat → W) → Option (Nat → W)
  | [], t => some t
  | p :: ps, t => (insert n t p).bind (ofList n ps)

/-- `complement` (src/util.hpp:301-305). -/
def complement (n : Nat) (t : Nat → W) : Nat → W := each (fun _ w => ~~~ w) n t
/-- `unionWith` (src/util.hpp:306-310). -/
def unionWith (n : Nat) (t s : Nat → W) : Nat → W := each (fun i w => w ||| s i) n t
/-- `interWith` (src/util.hpp:311-315). -/
def interWith (n : Nat) (t s : Nat → W) : Nat → W := each (fun i w => w &&& s i) n t

/-- `size` (src/util.hpp:279-284). -/
def size (n : Nat) (t : Nat → W) : Nat := popAll t n

/-- `empty` (src/util.hpp:285-290). -/
def empty (t : Nat → W) : Nat → Bool
  | 0 => true
  | n + 1 => empty t n && decide (t n = 0)

/-- `largest` (src/util.hpp:291-298). -/
def largest (n : Nat) (t : Nat → W) : Int :=
  match lastWord t n with
  | none => -1
  | some lw => 64 * lw + top (t lw)

/-- Words in which two sets agree (src/util.hpp:393-395). -/
def agree (s1 s2 : Nat → W) : Nat → Nat
  | 0 => 0
  | n + 1 => agree s1 s2 n + (if s1 n = s2 n then 1 else 0)

/-- `operator==` (src/util.hpp:392-397). -/
def eq (n : Nat) (s1 s2 : Nat → W) : Bool := agree s1 s2 n = n

/-- `hash` (src/util.hpp:401-406). -/
def hash (t : Nat → W) : Nat → W
  | 0 => 0
  | n + 1 => hash t n ^^^ t n

/-- `_cw = (_cwi < nbw) * _cw` (src/util.hpp:326, 343). -/
def mask (n : Nat) (it : Nat × W) : Nat × W := (it.1, if it.1 < n then it.2 else 0)

/-- `iterator` (src/util.hpp:316-350): the values visited by `for(v : s)`. -/
def iter (n : Nat) (t : Nat → W) : Option (List Int) :=
  iterL (fun it => mask n (next t n it)) n (64 * n + 1) (mask n (adv t n (n + 1) 0 (if 0 < n then t 0 else 0)))

/-- `citerator` (src/util.hpp:351-379), used for printing. -/
def citer (n : Nat) (t : Nat → W) : Option (List Int) :=
  iterL (next t n) n (64 * n + 1) (adv t n (n + 1) 0 (if 0 < n then t 0 else 0))

/-! ### `ofs - S` (src/util.hpp:160-259) -/

/-- The reversed words (src/util.hpp:190-192). -/
def flip (t : Nat → W) (lw : Nat) : Nat → W := fun i => if i ≤ lw then revLong (t (lw - i)) else 0

/-- `(w(i) >> x) | ((w(i+1) & ((1ull << (x+1))-1)) << (64-x))`, the second part 0 in the last word
(src/util.hpp:213-214, 231-232). -/
def down (n x : Nat) (t : Nat → W) (i : Nat) : W :=
  (t i >>> x) ||| ((if i + 1 = n then 0 else t (i + 1) &&& low (x + 1)) <<< (64 - x))

/-- Loop "MOVE Down" (src/util.hpp:212-216), `k` rounds. -/
def downLoop (n x : Nat) (r : Nat → W) : Nat → (Nat → W)
  | 0 => zeros
  | k + 1 => upd (downLoop n x r k) k (down n x r k)

/-- Loop "moving bits DOWN" (src/util.hpp:230-234), `k` rounds: the source words, of which the loop
clears some, and the destination. -/
def clearLoop (n x delta : Nat) (r : Nat → W) : Nat → (Nat → W) × (Nat → W)
  | 0 => (r, zeros)
  | k + 1 =>
    let p := clearLoop n x delta r k
    (fun j => if k ≤ j ∧ j < k + delta then 0 else p.1 j, upd p.2 (k + delta) (down n x p.1 k))

/-- Loop "moving bits UP" (src/util.hpp:241-245), `k` rounds: the destination and `next`. -/
def upLoop (y : Nat) (r : Nat → W) : Nat → (Nat → W) × W
  | 0 => (zeros, 0)
  | k + 1 =>
    let p := upLoop y r k
    (upd p.1 k ((r k <<< y) ||| p.2), (r k &&& ~~~ (low (64 - y))) >>> (64 - y))

/-- `NatSet(ofs, s)`; `none`: a shift by 64 or more bits or a write outside the arrays.  The shift
`1ull << (x+1)` is evaluated for some word exactly when `nbw` is not 1. -/
def minus (n : Nat) (t : Nat → W) (ofs : Int) : Option (Nat → W) :=
  match lastWord t n with
  | none => some zeros
  | some lw =>
    let dec := ofs - (64 * lw + top (t lw) : Nat)
    let r := flip t lw
    let nbs := ctz (r 0)
    if (nbs : Int) > dec then
      let x := (nbs - dec).toNat
      if 64 ≤ x ∨ (64 ≤ x + 1 ∧ n ≠ 1) then none
      else some (downLoop n x r (min lw (n - 1) + 1))
    else
      let d := dec.toNat
      let delta := d / 64
      let moveUp := d % 64
      if moveUp < nbs then
        let x := nbs - moveUp
        if 64 ≤ x + 1 ∧ n ≠ 1 then none
        else if lw + delta < n then some (clearLoop n x delta r (lw + 1)).2
        else none
      else if nbs < moveUp then
        let u := (upLoop (moveUp - nbs) r (min (lw + 1) (n - 1) + 1)).1
        some (fun i => if i < delta then 0 else u (i - delta))
      else if delta ≠ 0 then some (fun i => if delta ≤ i ∧ i < n then r (i - delta) else 0)
      else some r

end Verif.NatSet
