import Verif.Basic
/-!
# Model of `Vec` (src/vec.hpp)

Storage is a function from positions; `none` is a cell that was never written.  The pool never
frees, so growing leaves no dangling storage.  `b` is the number of bits of the size type `SZT`.
An operation that yields `none` reads or writes outside the vector, or never ends.  Moves are in
`Verif/VecM.lean` (a move construction leaves two vectors sharing storage).  Not modelled: the
32-bit loop counter of the copies (src/vec.hpp:76, 86, 98), which matters beyond 2^32 elements.
-/
namespace Verif.Vec
variable {α : Type}

structure V (α : Type) where
  sz : Nat
  msz : Nat
  data : Nat → Option α

/-- `while (p >= newSize) newSize = newSize << 1` (src/vec.hpp:32-33) on a `b`-bit type.  After `b`
rounds the value is 0 for ever, so `b + 1` rounds decide. -/
def growTo (b p : Nat) : Nat → Nat → Option Nat
  | 0, _ => none
  | f + 1, n => if p ≥ n then growTo b p f ((n * 2) % 2 ^ b) else some n

/-- `makeValid` (src/vec.hpp:30-41). -/
def makeValid (b : Nat) (v : V α) (p : Nat) : Option (V α) :=
  (growTo b p (b + 1) (if v.msz = 0 then 1 else v.msz)).map fun n =>
    if n ≠ v.msz then { v with msz := n, data := fun i => if i < v.msz then v.data i else none } else v

/-- `Vec(mem,s)` (src/vec.hpp:79-82). -/
def mk' (s : Nat) : V α := ⟨0, s, fun _ => none⟩

/-- `at(i,nv)` (src/vec.hpp:141). -/
def setAt (v : V α) (i : Nat) (x : α) : V α := { v with data := upd v.data i (some x) }

/-- `push_back` (src/vec.hpp:118-122): new vector and the index returned. -/
def push (b : Nat) (v : V α) (x : α) : Option (V α × Nat) :=
  (makeValid b v v.sz).map fun v1 => ({ setAt v1 v1.sz x with sz := v1.sz + 1 }, v1.sz)

/-- `pop_back` (src/vec.hpp:123-127). -/
def pop (v : V α) : Option (V α × α) :=
  if v.sz = 0 then none else (v.data (v.sz - 1)).map fun x => ({ v with sz := v.sz - 1 }, x)

/-- `clear` (src/vec.hpp:114-116). -/
def clear (v : V α) : V α := { v with sz := 0 }

/-- `remove(i,rl)` (src/vec.hpp:128-137): new vector, element handed to `rl`, size returned. -/
def remove (v : V α) (i : Nat) : Option (V α × α × Nat) :=
  if i < v.sz then
    (v.data (v.sz - 1)).bind fun l =>
      let v1 := if i < v.sz - 1 then setAt v i l else v
      (v1.data i).map fun x => ({ v1 with sz := v1.sz - 1 }, x, v1.sz - 1)
  else none

/-- `get(i)`, `operator[](i) const` (src/vec.hpp:138-139). -/
def get (v : V α) (i : Nat) : Option α := if i < v.sz then v.data i else none

/-- Copy construction (src/vec.hpp:74-78, 83-87). -/
def copy (v : V α) : V α := ⟨v.sz, v.msz, fun i => if i < v.sz then v.data i else none⟩

/-- `operator=(const Vec&)` (src/vec.hpp:93-102). -/
def assign (d s : V α) : V α :=
  let d1 := if d.msz < s.msz then { d with msz := s.msz, data := fun _ => none } else d
  { d1 with sz := s.sz, data := fun i => if i < s.sz then s.data i else d1.data i }

/-- Iteration `begin()..end()` (src/vec.hpp:142-182). -/
def iter (v : V α) : List (Option α) := (List.range v.sz).map v.data

/-- `v[i] = x` through `TVecSetter` (src/vec.hpp:54-65). -/
def store (b : Nat) (v : V α) (i : Nat) (x : α) : Option (V α) :=
  (makeValid b v i).map fun v1 => { setAt v1 i x with sz := i + 1 }

/-! ### Several vectors -/

inductive Op (α : Type) where
  | make (r s : Nat)
  | push (r : Nat) (x : α)
  | pop (r : Nat)
  | clear (r : Nat)
  | remove (r i : Nat)
  | get (r i : Nat)
  | size (r : Nat)
  | iter (r : Nat)
  | copy (r s : Nat)
  | assign (r s : Nat)

inductive Out (α : Type) where
  | unit
  | nat (n : Nat)
  | val (x : α)
  | rem (x : α) (n : Nat)
  | list (l : List (Option α))

/-- One call on a family of vectors. -/
def step (b : Nat) (e : Nat → V α) : Op α → Option ((Nat → V α) × Out α)
  | .make r s => some (upd e r (mk' s), .unit)
  | .push r x => (push b (e r) x).map fun p => (upd e r p.1, .nat p.2)
  | .pop r => (pop (e r)).map fun p => (upd e r p.1, .val p.2)
  | .clear r => some (upd e r (clear (e r)), .unit)
  | .remove r i => (remove (e r) i).map fun p => (upd e r p.1, .rem p.2.1 p.2.2)
  | .get r i => (get (e r) i).map fun x => (e, .val x)
  | .size r => some (e, .nat (e r).sz)
  | .iter r => some (e, .list (iter (e r)))
  | .copy r s => some (upd e r (copy (e s)), .unit)
  | .assign r s => some (upd e r (assign (e r) (e s)), .unit)

def run (b : Nat) : (Nat → V α) → List (Op α) → Option ((Nat → V α) × List (Out α))
  | e, [] => some (e, [])
  | e, o :: os => (step b e o).bind fun p => (run b p.1 os).map fun q => (q.1, p.2 :: q.2)

end Verif.Vec
