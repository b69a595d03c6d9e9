import Verif.Vec
/-!
# `Vec` with its storage (src/vec.hpp)

`Verif/Vec.lean` gives each vector its own storage.  Here a vector is what the object holds, sizes and the pointer
`_data`, and the arrays lie in the pool; this is what moves need, since they pass pointers on.  Arrays are numbered in the
order of allocation; the pool never frees.  `none` is an access through a null pointer, or what is `none` in
`Verif/Vec.lean`.  `_mem` is left out: all vectors are of one pool, and a moved `handle_ptr` keeps its pointer
(src/handle.hpp:55, 60).
-/
namespace Verif.VecM
open Verif.Vec
variable {α : Type}

/-- `_sz`, `_msz`, `_data` (src/vec.hpp:26-29). -/
structure W where
  sz : Nat
  msz : Nat
  blk : Option Nat

/-- The pool and the vectors. -/
structure St (α : Type) where
  nxt : Nat
  cell : Nat → Nat → Option α
  w : Nat → W

/-- `_data[i]`. -/
def St.at (s : St α) (r i : Nat) : Option α := (s.w r).blk.bind fun k => s.cell k i

/-- What a vector is in `Verif/Vec.lean`. -/
def St.view (s : St α) (r : Nat) : V α := ⟨(s.w r).sz, (s.w r).msz, s.at r⟩

/-- `_data = new (_mem) T[msz]`, the new array filled with `f`. -/
def St.fresh (s : St α) (r sz msz : Nat) (f : Nat → Option α) : St α :=
  { nxt := s.nxt + 1, cell := upd s.cell s.nxt f, w := upd s.w r ⟨sz, msz, some s.nxt⟩ }

/-- Change the array of `r`. -/
def St.fill (s : St α) (r : Nat) (f : (Nat → Option α) → Nat → Option α) : Option (St α) :=
  (s.w r).blk.map fun k => { s with cell := upd s.cell k (f (s.cell k)) }

/-- `_sz = n`. -/
def St.resize (s : St α) (r n : Nat) : St α := { s with w := upd s.w r ⟨n, (s.w r).msz, (s.w r).blk⟩ }

/-- `makeValid` (src/vec.hpp:30-41). -/
def makeValid (b : Nat) (s : St α) (r p : Nat) : Option (St α) :=
  (growTo b p (b + 1) (if (s.w r).msz = 0 then 1 else (s.w r).msz)).map fun n =>
    if n ≠ (s.w r).msz then s.fresh r (s.w r).sz n (fun i => if i < (s.w r).msz then s.at r i else none) else s

/-- The constructors `Vec(mem,s)` (src/vec.hpp:79-82). -/
def make (s : St α) (r c : Nat) : St α :=
  if 0 < c then s.fresh r 0 c (fun _ => none) else { s with w := upd s.w r ⟨0, 0, none⟩ }

/-- `push_back` (src/vec.hpp:118-122). -/
def push (b : Nat) (s : St α) (r : Nat) (x : α) : Option (St α × Nat) :=
  (makeValid b s r (s.w r).sz).bind fun s1 => (s1.fill r fun a => upd a (s1.w r).sz (some x)).map fun s2 =>
    (s2.resize r ((s2.w r).sz + 1), (s2.w r).sz)

/-- `pop_back` (src/vec.hpp:123-127). -/
def pop (s : St α) (r : Nat) : Option (St α × α) :=
  if (s.w r).sz = 0 then none else (s.at r ((s.w r).sz - 1)).map fun x => (s.resize r ((s.w r).sz - 1), x)

/-- `remove(i,rl)` (src/vec.hpp:128-137). -/
def remove (s : St α) (r i : Nat) : Option (St α × α × Nat) :=
  if i < (s.w r).sz then
    (s.at r ((s.w r).sz - 1)).bind fun l =>
      (if i < (s.w r).sz - 1 then s.fill r fun a => upd a i (some l) else some s).bind fun s1 =>
        (s1.at r i).map fun x => (s1.resize r ((s1.w r).sz - 1), x, (s1.w r).sz - 1)
  else none

/-- Copy construction of `r` from `q` (src/vec.hpp:74-78, 83-87). -/
def copy (s : St α) (r q : Nat) : St α :=
  if 0 < (s.w q).msz then s.fresh r (s.w q).sz (s.w q).msz (fun i => if i < (s.w q).sz then s.at q i else none)
  else { s with w := upd s.w r ⟨(s.w q).sz, (s.w q).msz, none⟩ }

/-- `operator=(const Vec&)` (src/vec.hpp:93-102); the loop writes nothing when `q` is empty. -/
def assign (s : St α) (r q : Nat) : Option (St α) :=
  let s1 := if (s.w r).msz < (s.w q).msz then s.fresh r (s.w r).sz (s.w q).msz (fun _ => none) else s
  (if (s.w q).sz = 0 then some s1 else s1.fill r fun a i => if i < (s.w q).sz then s.at q i else a i).map fun s2 => s2.resize r (s.w q).sz

/-- `Vec(Vec&&)` (src/vec.hpp:88-91): the source keeps its fields. -/
def moveC (s : St α) (r q : Nat) : St α := { s with w := upd s.w r (s.w q) }

/-- `operator=(Vec&&)` (src/vec.hpp:103-112). -/
def moveA (s : St α) (r q : Nat) : St α := { s with w := upd (upd s.w r (s.w q)) q ⟨0, 0, none⟩ }

inductive OpM (α : Type) where
  | base (o : Op α)
  | moveC (r q : Nat)
  | moveA (r q : Nat)

/-- One call. -/
def step (b : Nat) (s : St α) : OpM α → Option (St α × Out α)
  | .base (.make r c) => some (make s r c, .unit)
  | .base (.push r x) => (push b s r x).map fun p => (p.1, .nat p.2)
  | .base (.pop r) => (pop s r).map fun p => (p.1, .val p.2)
  | .base (.clear r) => some (s.resize r 0, .unit)
  | .base (.remove r i) => (remove s r i).map fun p => (p.1, .rem p.2.1 p.2.2)
  | .base (.get r i) => (if i < (s.w r).sz then s.at r i else none).map fun x => (s, .val x)
  | .base (.size r) => some (s, .nat (s.w r).sz)
  | .base (.iter r) => some (s, .list ((List.range (s.w r).sz).map (s.at r)))
  | .base (.copy r q) => some (copy s r q, .unit)
  | .base (.assign r q) => (assign s r q).map fun s => (s, .unit)
  | .moveC r q => some (moveC s r q, .unit)
  | .moveA r q => some (moveA s r q, .unit)

def run (b : Nat) : St α → List (OpM α) → Option (St α × List (Out α))
  | s, [] => some (s, [])
  | s, o :: os => (step b s o).bind fun p => (run b p.1 os).map fun q => (q.1, p.2 :: q.2)

/-- No vectors yet. -/
def none_ : St α := ⟨0, fun _ _ => none, fun _ => ⟨0, 0, none⟩⟩

end Verif.VecM
