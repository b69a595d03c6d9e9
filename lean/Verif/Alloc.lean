import Verif.Basic
/-!
# Models of `LPool` (src/pool.hpp:7-26), `CoreAlloc` and `StackAdapter` (src/stlAllocAdapter.hpp:24-73)

`LPool::_mem` is the arena of `Verif/Pool.lean` and is not repeated here.
-/
namespace Verif.Alloc

/-! ### `LPool` -/

/-- `_id` (32-bit unsigned) and the stack `_free`, top first. -/
structure LP where
  id : Nat
  free : List Nat

def LP.mk' : LP := ⟨0, []⟩

/-- `grabId` (src/pool.hpp:14). -/
def grabId (p : LP) : LP × Nat := ({ p with id := (p.id + 1) % 2 ^ 32 }, p.id)

/-- `claimNode` (src/pool.hpp:16-24); `none` is a null pointer. -/
def claim (p : LP) : LP × Option Nat :=
  match p.free with
  | [] => (p, none)
  | n :: r => ({ p with free := r }, some n)

/-- `release` (src/pool.hpp:25). -/
def release (p : LP) (n : Nat) : LP := { p with free := n :: p.free }

inductive Op where
  | grab
  | claim
  | release (n : Nat)

inductive Out where
  | unit
  | id (n : Nat)
  | node (o : Option Nat)
deriving DecidableEq

def step (p : LP) : Op → LP × Out
  | .grab => ((grabId p).1, .id (grabId p).2)
  | .claim => ((claim p).1, .node (claim p).2)
  | .release n => (release p n, .unit)

def run : LP → List Op → LP × List Out
  | p, [] => (p, [])
  | p, o :: os => ((run (step p o).1 os).1, (step p o).2 :: (run (step p o).1 os).2)

/-! ### `CoreAlloc` -/

/-- `_sp - _buf` and `N`. -/
structure CA where
  cap : Nat
  sp : Nat

/-- `CoreAlloc::allocate` (src/stlAllocAdapter.hpp:30-39): the offset of the block, `none` is
`bad_alloc`.  `free` does nothing. -/
def allocate (c : CA) (n : Nat) : CA × Option Nat :=
  if n ≤ c.cap - c.sp then ({ c with sp := c.sp + n }, some c.sp) else (c, none)

def allocs : CA → List Nat → CA × List (Option Nat)
  | c, [] => (c, [])
  | c, n :: ns => ((allocs (allocate c n).1 ns).1, (allocate c n).2 :: (allocs (allocate c n).1 ns).2)

/-- `StackAdapter<T>::allocate` (src/stlAllocAdapter.hpp:62-66): `n * sizeof(T)` in 64 bits. -/
def adapt (c : CA) (size n : Nat) : CA × Option Nat := allocate c (n * size % 2 ^ 64)

end Verif.Alloc
