import Verif.Istream
import Verif.FArr
/-!
# Helpers over `std::set<int>` and `std::vector<int>` (src/util.hpp)

A `std::set<int>` is the list of its elements in the order of iteration, strictly increasing; that `insert`, `contains` and
iteration of the standard container are these functions is trusted.  The element type is `int`.  Results of type `int` that
leave the range are undefined behaviour (`none`).
-/
namespace Verif.StdSet
open Verif.IO

/-- `std::set<int>::insert`. -/
def ins (v : Int) : List Int → List Int
  | [] => [v]
  | a :: s => if v < a then v :: a :: s else if a < v then a :: ins v s else a :: s

/-- `std::min(set)` (src/util.hpp:19-24). -/
def min (s : List Int) : Int := s.head?.getD 2147483647

/-- `std::max(set)` (src/util.hpp:25-30). -/
def max (s : List Int) : Int := s.getLast?.getD (-2147483648)

/-- `std::filter(set,p)` (src/util.hpp:31-38). -/
def filter (s : List Int) (p : Int → Bool) : List Int := s.foldl (fun o v => if p v then ins v o else o) []

/-- `std::member(cont,p)` (src/util.hpp:39-44). -/
def member {α : Type} : List α → (α → Bool) → Bool
  | [], _ => false
  | v :: c, p => if p v then true else member c p

/-- `std::foldl` (src/util.hpp:45-50). -/
def foldl {α β : Type} (c : List α) (op : β → α → β) (acc : β) : β := c.foldl op acc

/-- `ttl += t(v)` along a container (src/util.hpp:772-778, 799-805), in `int`. -/
def sum {α : Type} (t : α → Int) : List α → Int → Option Int
  | [], a => some a
  | v :: c, a => (FArr.int? (a + t v)).bind (sum t c)

/-- `operator|` (src/util.hpp:874-880). -/
def union (s t : List Int) : List Int := t.foldl (fun r v => ins v r) s

/-- `operator&` (src/util.hpp:882-890). -/
def inter (s t : List Int) : List Int := s.foldl (fun r e => if t.contains e then ins e r else r) []

/-- `remove` (src/util.hpp:892-900). -/
def remove (s : List Int) (v : Int) : List Int := s.foldl (fun r e => if e = v then r else ins e r) []

/-- `std::hash<std::vector<int>>` (src/util.hpp:844-851); `std::hash<int>` is the conversion to `size_t`. -/
def hashVec (l : List Int) : BitVec 64 := l.foldl (fun h e => h.rotateLeft 3 ^^^ BitVec.ofInt 64 e) 0

/-- `std::hash<std::set<int>>` (src/util.hpp:853-860). -/
def hashSet (l : List Int) : BitVec 64 := l.foldl (fun h e => (h <<< 3) ||| BitVec.ofInt 64 e) 0

/-- The digits of a number. -/
def digs (n : Nat) : List Char := if n < 10 then [Char.ofNat (48 + n)] else digs (n / 10) ++ [Char.ofNat (48 + n % 10)]
termination_by n

/-- `os << v` for an `int`. -/
def put (v : Int) : List Char := if v < 0 then '-' :: digs v.natAbs else digs v.natAbs

/-- The loop of `operator<<` for sets (src/util.hpp:829-835): a comma after each element but the one numbered `size-1`. -/
def putFrom (size : Nat) : Nat → List Int → List Char
  | _, [] => []
  | k, v :: s => put v ++ (if k = size - 1 then [] else [',']) ++ putFrom size (k + 1) s
def putSet (s : List Int) : List Char := '{' :: putFrom s.length 0 s ++ ['}']

/-- `operator<<` for vectors (src/util.hpp:837-842). -/
def putVec (l : List Int) : List Char := '(' :: digs l.length ++ [')', '['] ++ l.flatMap (fun v => put v ++ [' ']) ++ [']']

end Verif.StdSet
