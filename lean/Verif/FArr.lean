import Verif.Basic
/-!
# Models of `FArray` (src/util.hpp:911-1001) and `FMatrix` (src/util.hpp:1005-1146)

An `FArray` object is its pointer (null or an array of its own) and `_mx`.  Fresh storage holds the
default value `d`.  Not modelled: arrays of more than 2^32 elements in the copy loops, whose 32-bit
counter never reaches `_mx` (`==` is modelled for every size).
-/
namespace Verif.FArr
variable {α : Type}

structure F (α : Type) where
  tab : Option (Nat → α)
  mx : Nat

/-- `FArray(isz)` (src/util.hpp:917-921). -/
def mk' (d : α) (n : Nat) : F α := ⟨if 0 < n then some (fun _ => d) else none, n⟩

/-- `FArray(isz, value)` (src/util.hpp:922-926). -/
def fill (v : α) (n : Nat) : F α := ⟨some (fun _ => v), n⟩

/-- `operator[]` (src/util.hpp:954-955); `none` is a read through a null pointer or out of range. -/
def get (a : F α) (i : Nat) : Option α := if i < a.mx then a.tab.map (· i) else none

def set (a : F α) (i : Nat) (v : α) : Option (F α) :=
  if i < a.mx then a.tab.map (fun t => { a with tab := some (upd t i v) }) else none

/-- The copy loop `for(i..) dst[i] = src[i]` (src/util.hpp:929-930, 942-943). -/
def copyLoop (dst src : Nat → α) : Nat → (Nat → α)
  | 0 => dst
  | k + 1 => upd (copyLoop dst src k) k (src k)

/-- Source and destination cells of a copy of `n` elements; null is fine when there are none. -/
def copyInto (dst src : Option (Nat → α)) (n : Nat) : Option (Option (Nat → α)) :=
  if n = 0 then some dst else dst.bind fun t => src.map fun s => some (copyLoop t s n)

/-- Copy constructor (src/util.hpp:927-931). -/
def copy (d : α) (a : F α) : Option (F α) := (copyInto (some fun _ => d) a.tab a.mx).map (⟨·, a.mx⟩)

/-- Copy assignment (src/util.hpp:936-945). -/
def assign (d : α) (a t : F α) : Option (F α) :=
  let dst := if a.mx ≠ t.mx then some (fun _ => d) else a.tab
  (copyInto dst t.tab t.mx).map (⟨·, t.mx⟩)

/-- Move constructor and move assignment to another object (src/util.hpp:932-934, 946-952): the new
object and what is left of the source. -/
def move (a : F α) : F α × F α := (a, { a with tab := none })

/-- Move assignment of an object to itself (src/util.hpp:946-952): the array is deleted, then the
pointer is nulled. -/
def moveSelf (a : F α) : F α := { a with tab := none }

/-- Loop of `operator==` (src/util.hpp:978-981).  `c` is the `int` counter; `none` is undefined
behaviour: reading outside the arrays, a null pointer or decrementing the least `int`. -/
def eqLoop (eq : α → α → Bool) (a b : F α) : Nat → Int → Nat → Option Bool
  | 0, _, _ => none
  | f + 1, c, i =>
    if c = -2 ^ 31 then none
    else if c ≠ 0 then
      (get a i).bind fun x => (get b i).bind fun y =>
        if eq x y then eqLoop eq a b f (c - 1) (i + 1) else some (decide (c - 1 < 0))
    else some (decide (c - 1 < 0))

/-- `operator==` (src/util.hpp:976-983); `int c = a1._mx` keeps the low 32 bits. -/
def eqA (eq : α → α → Bool) (a b : F α) : Option Bool :=
  if a.mx = b.mx then eqLoop eq a b (a.mx + 2) (Int.bmod a.mx (2 ^ 32)) 0 else some false

/-- `std::hash<FArray<T>>` (src/util.hpp:994-1001), with the hash of the elements. -/
def hashLoop (h : α → BitVec 64) (t : Nat → α) : Nat → BitVec 64
  | 0 => 0
  | k + 1 => (hashLoop h t k).rotateLeft 3 ^^^ h (t k)

def hash (h : α → BitVec 64) (a : F α) : Option (BitVec 64) :=
  if a.mx = 0 then some 0 else a.tab.map (fun t => hashLoop h t a.mx)

/-! ### `FMatrix` -/

/-- An `int` result, `none` on overflow. -/
def int? (x : Int) : Option Int := if -2 ^ 31 ≤ x ∧ x < 2 ^ 31 then some x else none

/-- `prodOf` (src/util.hpp:1043-1048), in `size_t`. -/
def prodOf : List Int → Nat → Nat
  | [], acc => acc
  | d :: ds, acc => prodOf ds (((acc : Int) * d % 2 ^ 64).toNat)

/-- Proxies (src/util.hpp:1008-1041): `acc * *sfx + idx` along the rest of the dimensions. -/
def proxy : Int → List Int → List Int → Option Int
  | acc, [], [] => some acc
  | acc, d :: ds, i :: is => (int? (acc * d)).bind fun p => (int? (p + i)).bind fun a => proxy a ds is
  | _, _, _ => none

/-- `m[i0][i1]...` (src/util.hpp:1101-1111): offset in the flat array. -/
def offset : List Int → List Int → Option Int
  | _ :: ds, i :: is => proxy i ds is
  | _, _ => none

/-- `print` (src/util.hpp:1113-1128): the offsets visited, in order; the recursion is over the
remaining dimensions, `ofs` starts at 0 and the first level multiplies by 0. -/
def printRest : List Nat → Nat → List Nat
  | [], ofs => [ofs]
  | d :: ds, ofs => (List.range d).flatMap (fun k => printRest ds (ofs * d + k))

def print : List Nat → List Nat
  | [] => [0]
  | d :: ds => (List.range d).flatMap (fun k => printRest ds (0 * 0 + k))

end Verif.FArr
