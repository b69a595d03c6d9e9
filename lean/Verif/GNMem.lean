import Verif.GNSet
/-!
# Memory of `GNSet` (src/util.hpp:420-596)

`Verif/GNSet.lean` treats a set as a value.  Here a set is an object with a pointer to an array that is
allocated, copied and deleted as in the code; `none` is undefined behaviour (a null, deleted or out-of-range access, a
second `delete[]`) or a loop that does not end.
-/
namespace Verif.GNMem
open Verif.Bits
open Verif.GNSet (G ceil64 grow)

/-- `_mxw`, `_nbp`, `_t` (src/util.hpp:421-423); `ptr = none` is the null pointer. -/
structure Obj where
  mxw : Nat
  nbp : Nat
  ptr : Option Nat

/-- Variables in scope and arrays not deleted: number of words and contents. -/
structure St where
  obj : Nat → Option Obj
  mem : Nat → Option (Nat × (Nat → W))
  next : Nat

def put {β : Type} (f : Nat → Option β) (k : Nat) (x : Option β) : Nat → Option β := fun i => if i = k then x else f i

/-- The program before its first declaration. -/
def St.empty : St := ⟨fun _ => none, fun _ => none, 0⟩

/-- `new unsigned long long[n]` filled with `t`. -/
def alloc (s : St) (n : Nat) (t : Nat → W) : St × Nat := (⟨s.obj, put s.mem s.next (some (n, t)), s.next + 1⟩, s.next)

/-- `delete[] p`; a null pointer is fine. -/
def del (s : St) : Option Nat → Option St
  | none => some s
  | some a => if (s.mem a).isSome then some { s with mem := put s.mem a none } else none

/-- The first `n` words at `p`, as a loop over them reads: a loop of no rounds reads nothing. -/
def rd (s : St) (p : Option Nat) (n : Nat) : Option (Nat → W) :=
  if n = 0 then some fun _ => 0
  else p.bind fun a => (s.mem a).bind fun x => if n ≤ x.1 then some x.2 else none

/-- A loop that overwrites the first `n` words at `p`. -/
def wr (s : St) (p : Option Nat) (n : Nat) (t : Nat → W) : Option St :=
  if n = 0 then some s
  else p.bind fun a => (s.mem a).bind fun x => if n ≤ x.1 then some { s with mem := put s.mem a (some (x.1, fun i => if i < n then t i else x.2 i)) } else none

def setObj (s : St) (v : Nat) (o : Option Obj) : St := { s with obj := put s.obj v o }

/-- What a set does to its own words, possibly reading another set: these functions only read and write the first
`_mxw` words at `_t`.  A moved-from set with words counts as misused even where the code would not get to touch a word
(`remove` of a value beyond the words, `removeAbove` beyond `_nbp`, an operand with no word in common). -/
inductive In where
  | clear | complement | remove (p : Nat) | inter | diff | removeAbove (p : Nat)

/-- The new value (functions of `Verif/GNSet.lean`). -/
def In.val : In → G → G → Option G
  | .clear, g, _ => GNSet.clear g
  | .complement, g, _ => GNSet.complement g
  | .remove p, g, _ => some (GNSet.remove g p)
  | .inter, g, s => GNSet.interWith g s
  | .diff, g, s => GNSet.diffWith g s
  | .removeAbove p, g, _ => GNSet.removeAbove g p

/-- Statements of a program over variables that are numbers. -/
inductive Op where
  | new (v nb : Nat)
  | copy (v u : Nat)
  | move (v u : Nat)
  | copyAsg (v u : Nat)
  | moveAsg (v u : Nat)
  | insert (v p : Nat)
  | inpl (v u : Nat) (f : In)
  | union (v u : Nat)
  | free (v : Nat)

/-- `GNSet(nb)` (425-432), the copy constructor (433-439), the move constructor (440-445), the assignments (507-526), `insert`
(544-562), functions in place, `unionWith` (580-596: its `short` counter needs fewer than 2^15 words), the destructor
(504-506).  A declaration needs a name not in use; everything else a variable in scope. -/
def step (s : St) : Op → Option St
  | .new v nb =>
    if (s.obj v).isSome then none
    else if ceil64 nb = 0 then some (setObj s v (some ⟨0, nb, none⟩))
    else
      let (s, a) := alloc s (ceil64 nb) (fun _ => 0)
      some (setObj s v (some ⟨ceil64 nb, nb, some a⟩))
  | .copy v u =>
    if (s.obj v).isSome then none
    else (s.obj u).bind fun o =>
      let (s1, a) := alloc s o.mxw (fun _ => 0)
      (rd s1 o.ptr o.mxw).bind fun t => (wr s1 (some a) o.mxw t).map fun s2 => setObj s2 v (some ⟨o.mxw, o.nbp, some a⟩)
  | .move v u =>
    if (s.obj v).isSome then none
    else (s.obj u).map fun o => setObj (setObj s v (some o)) u (some { o with ptr := none })
  | .copyAsg v u =>
    (s.obj v).bind fun o => (s.obj u).bind fun q =>
      (if q.mxw ≠ o.mxw then (del s o.ptr).map (fun s1 =>
          let (s2, a) := alloc s1 q.mxw (fun _ => 0)
          (s2, some a)) else some (s, o.ptr)).bind fun x =>
        (rd x.1 q.ptr q.mxw).bind fun t => (wr x.1 x.2 q.mxw t).map fun s3 => setObj s3 v (some ⟨q.mxw, q.nbp, x.2⟩)
  | .moveAsg v u =>
    (s.obj v).bind fun o => (del s o.ptr).bind fun s1 => (s1.obj u).map fun q =>
      let s2 := setObj s1 v (some q)
      setObj s2 u (some { q with ptr := none })
  | .insert v p =>
    (s.obj v).bind fun o =>
      (if o.mxw ≤ p / 64 then (grow (p / 64) 17 o.mxw).bind fun m =>
          let (s1, a) := alloc s m (fun _ => 0)
          (rd s1 o.ptr o.mxw).bind fun t => (wr s1 (some a) m (fun i => if i < o.mxw then t i else 0)).bind fun s2 =>
            (del s2 o.ptr).map fun s3 => (s3, (⟨m, o.nbp, some a⟩ : Obj))
        else some (s, o)).bind fun x =>
        (rd x.1 x.2.ptr x.2.mxw).bind fun t => (wr x.1 x.2.ptr x.2.mxw (upd t (p / 64) (t (p / 64) ||| bit (p % 64)))).map fun s4 =>
          setObj s4 v (some { x.2 with nbp := max x.2.nbp (p % 2 ^ 16) })
  | .inpl v u f =>
    (s.obj v).bind fun o => (s.obj u).bind fun q =>
      (rd s o.ptr o.mxw).bind fun t => (rd s q.ptr q.mxw).bind fun t' =>
        (f.val ⟨o.mxw, o.nbp, o.ptr.isNone, t⟩ ⟨q.mxw, q.nbp, q.ptr.isNone, t'⟩).bind fun g => wr s o.ptr o.mxw g.t
  | .union v u =>
    (s.obj v).bind fun o => (s.obj u).bind fun q =>
      (rd s o.ptr o.mxw).bind fun t => (rd s q.ptr q.mxw).bind fun t' =>
        if q.mxw < 2 ^ 15 then
          (wr s o.ptr (min o.mxw q.mxw) (fun i => t i ||| t' i)).bind fun s1 =>
            if o.mxw < q.mxw then
              let (s2, a) := alloc s1 q.mxw (fun _ => 0)
              (rd s2 o.ptr o.mxw).bind fun t1 => (wr s2 (some a) q.mxw (fun i => if i < o.mxw then t1 i else t' i)).bind fun s3 =>
                (del s3 o.ptr).map fun s4 => setObj s4 v (some ⟨q.mxw, q.nbp, some a⟩)
            else some s1
        else none
  | .free v => (s.obj v).bind fun o => (del s o.ptr).map fun s1 => setObj s1 v none

def run (s : St) : List Op → Option St
  | [] => some s
  | o :: os => (step s o).bind fun s => run s os

end Verif.GNMem
