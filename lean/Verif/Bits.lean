import Verif.Basic
/-!
# Words, bit reversal and the loops shared by `NatSet` and `GNSet` (src/util.hpp:51-77, 128-748)

A word is a 64-bit vector, an array of words a function of which the first `n` are storage.  The
compiler builtins are modelled by what their documentation says.
-/
namespace Verif.Bits

abbrev W := BitVec 64

/-! ### Bit reversal -/

/-- `revBitsOfByte` (src/util.hpp:51-54): 64-bit arithmetic, then narrowed to a byte. -/
def revByte (b : BitVec 8) : BitVec 8 :=
  (((((b.setWidth 64) * 0x80200802#64) &&& 0x0884422110#64) * 0x0101010101#64) >>> 32).setWidth 8

/-- Byte `i` of a word in memory, least significant first. -/
def byte (w : W) (i : Nat) : BitVec 8 := (w >>> (8 * i)).setWidth 8

/-- `revBitsOfWord` (src/util.hpp:55-62): bytes 0 to 6 of the result are written; `out` is what the
uninitialised local held.  Byte `i` of the result. -/
def revWordByte (out w : W) (i : Nat) : BitVec 8 := if i < 7 then revByte (byte w (7 - i)) else byte out i

/-- One exchange of `revBitsOfLong`: `((v >> k) & m) | ((v & m) << k)`. -/
def swap (k : Nat) (m v : W) : W := ((v >>> k) &&& m) ||| ((v &&& m) <<< k)

/-- `revBitsOfLong` (src/util.hpp:63-77). -/
def revLong (v : W) : W :=
  let v := swap 1 0x5555555555555555#64 v
  let v := swap 2 0x3333333333333333#64 v
  let v := swap 4 0x0F0F0F0F0F0F0F0F#64 v
  let v := swap 8 0x00FF00FF00FF00FF#64 v
  let v := swap 16 0x0000FFFF0000FFFF#64 v
  (v >>> 32) ||| (v <<< 32)

/-! ### Builtins -/

/-- `__builtin_popcountll`. -/
def pop (w : W) : Nat := (List.range 64).countP w.getLsbD
/-- `__builtin_ctzl` and `__builtin_ffsll - 1`: the lowest bit set (64 if there is none). -/
def ctz (w : W) : Nat := ((List.range 64).find? w.getLsbD).getD 64
/-- `63 - __builtin_clzll`: the highest bit set. -/
def top (w : W) : Nat := ((List.range 64).reverse.find? w.getLsbD).getD 64
/-- `1ull << k` for `k < 64`. -/
def bit (k : Nat) : W := 1#64 <<< k
/-- `(1ull << k) - 1` for `k < 64`. -/
def low (k : Nat) : W := bit k - 1#64
/-- Narrowing to `short`. -/
def toShort (x : Nat) : Int := Int.bmod x (2 ^ 16)

/-! ### Loops over words -/

/-- `for(i=0;i < n;i++) t[i] = f(i, t[i])`. -/
def each (f : Nat → W → W) : Nat → (Nat → W) → (Nat → W)
  | 0, t => t
  | n + 1, t => upd (each f n t) n (f n (each f n t n))

/-- Sum of the popcounts (src/util.hpp:279-284, 536-541). -/
def popAll (t : Nat → W) : Nat → Nat
  | 0 => 0
  | n + 1 => popAll t n + pop (t n)

/-- `while(lw >= 0 && t[lw]==0) lw--` from `lw = n - 1`; `none` is -1. -/
def lastWord (t : Nat → W) : Nat → Option Nat
  | 0 => none
  | n + 1 => if t n = 0 then lastWord t n else some n

/-! ### Iterators (src/util.hpp:316-375, 638-677)

An iterator is the word index and what is left of that word. -/

/-- `while (cw == 0 && ++cwi < n) cw = t[cwi]`. -/
def adv (t : Nat → W) (n : Nat) : Nat → Nat → W → Nat × W
  | 0, i, w => (i, w)
  | f + 1, i, w => if w = 0 then (if i + 1 < n then adv t n f (i + 1) (t (i + 1)) else (i + 1, w)) else (i, w)

/-- `operator++`. -/
def next (t : Nat → W) (n : Nat) (it : Nat × W) : Nat × W :=
  adv t n (n + 1) it.1 (it.2 ^^^ (it.2 &&& -it.2))

/-- The loop `for(auto v : s)` from an iterator to `end()`, which is `(n, 0)`, with the given
`operator++`; `none`: the loop is still running after `f` rounds. -/
def iterL (nx : Nat × W → Nat × W) (n : Nat) : Nat → Nat × W → Option (List Int)
  | 0, _ => none
  | f + 1, it =>
    if it = (n, 0) then some []
    else (iterL nx n f (nx it)).map (toShort (64 * it.1 + ctz it.2) :: ·)

end Verif.Bits
