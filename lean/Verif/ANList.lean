import Verif.Basic
/-!
# Model of `ANList` (src/node.hpp:101-186)

The list is intrusive: the links live in the nodes.  Nodes are numbers; `next` and `prev` are the
fields `_next` and `_prev` of all nodes, whether in the list or not.  Asserts are off.
-/
namespace Verif.ANList

structure L where
  head : Option Nat
  tail : Option Nat
  next : Nat → Option Nat
  prev : Nat → Option Nat

/-- Write a field of a node if the pointer is not null. -/
def updO (f : Nat → Option Nat) (o : Option Nat) (v : Option Nat) : Nat → Option Nat :=
  match o with
  | none => f
  | some k => upd f k v

/-- `push_back` (src/node.hpp:116-127). -/
def pushBack (l : L) (n : Nat) : L :=
  if l.head = none then { head := some n, tail := some n, next := upd l.next n none, prev := upd l.prev n none }
  else { l with prev := upd l.prev n l.tail, next := updO (upd l.next n none) l.tail (some n), tail := some n }

/-- `pop_back` (src/node.hpp:130-138); `none` dereferences a null pointer. -/
def popBack (l : L) : Option L :=
  l.tail.map fun d =>
    let t := l.prev d
    let nx := updO l.next t none
    { head := if t = none then none else l.head, tail := t, next := upd nx d none, prev := upd l.prev d none }

/-- `remove` (src/node.hpp:139-145). -/
def remove (l : L) (n : Nat) : L :=
  let pv := l.prev n
  let nx := l.next n
  { head := if pv = none then nx else l.head, tail := if nx = none then pv else l.tail,
    next := upd (updO l.next pv nx) n none, prev := upd (updO l.prev nx pv) n none }

/-- `clear` (src/node.hpp:152-154). -/
def clear (l : L) : L := { l with head := none, tail := none }

/-- Following `_next` from a node: iteration (src/node.hpp:155-175), `size` (106-114) and
`confirmMembership` (146-151).  `none`: more than `f` steps. -/
def walk (l : L) : Nat → Option Nat → Option (List Nat)
  | _, none => some []
  | 0, some _ => none
  | f + 1, some n => (walk l f (l.next n)).map (n :: ·)

inductive Op where
  | push (n : Nat)
  | pop
  | remove (n : Nat)
  | clear
  | front
  | back
  | iter

inductive Out where
  | unit
  | node (o : Option Nat)
  | list (l : List Nat)
deriving DecidableEq

def step (f : Nat) (l : L) : Op → Option (L × Out)
  | .push n => some (pushBack l n, .unit)
  | .pop => (popBack l).map (·, .unit)
  | .remove n => some (remove l n, .unit)
  | .clear => some (clear l, .unit)
  | .front => some (l, .node l.head)
  | .back => some (l, .node l.tail)
  | .iter => (walk l f l.head).map fun x => (l, .list x)

def run (f : Nat) : L → List Op → Option (L × List Out)
  | l, [] => some (l, [])
  | l, o :: os => (step f l o).bind fun p => (run f p.1 os).map fun q => (q.1, p.2 :: q.2)

end Verif.ANList
