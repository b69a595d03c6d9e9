import Verif.Heap
import Verif.MSort
/-!
# Model of the decision-diagram engine (src/dd.hpp, src/dd.cpp, src/node.hpp, src/node.cpp)

One compilation of a diagram (`compute` / `apply`) is a function on an arena `G`: nodes and
edges are naturals and every field is an array.  User lambdas are pure functions, collected
in `Mdl`.  `double` values are integers.  The state-to-node hash table is "the node with that
state" (C37 justifies this).  `CQueue`, `std::list`, `Vec` and the node list are Lean lists
(C27-C29, C32, C42).  `while` loops over queues take fuel; `none` means fuel ran out.
-/
namespace Verif.DD

/-! ### Objective sense -/

/-- `Minimize` / `Maximize` (src/dd.hpp:321-344). -/
inductive Sense where
  | min
  | max
deriving DecidableEq

/-- `better` / `isBetter` (src/dd.hpp:323, 336, 415). -/
def Sense.better : Sense → Int → Int → Bool
  | .min, a, b => decide (a < b)
  | .max, a, b => decide (a > b)

/-- `betterEQ` / `isBetterEQ` (src/dd.hpp:326, 339, 418). -/
def Sense.betterEQ : Sense → Int → Int → Bool
  | .min, a, b => decide (a ≤ b)
  | .max, a, b => decide (a ≥ b)

/-- `bestValue` / `initialBest` (src/dd.hpp:329, 342, 426): the value every solution beats. -/
def Sense.best0 : Sense → Int
  | .min => 2147483647
  | .max => -2147483647

/-- `worstValue` / `initialWorst` (src/dd.hpp:330, 343, 427). -/
def Sense.worst0 : Sense → Int
  | .min => -2147483647
  | .max => 2147483647

/-- `DD::better` (src/dd.hpp:421-423). -/
def Sense.pick (s : Sense) (a b : Int) : Int := if s.better a b then a else b

/-- `LocalContext` (src/dd.hpp:65). -/
inductive Ctx where
  | bb
  | dd
deriving DecidableEq

/-- The functions a user passes to `DD` (src/dd.hpp:546-569).  `lgf` is the label set in
iteration order (`getLabels`, src/dd.hpp:475-483). -/
structure Mdl (σ : Type) where
  sense : Sense
  sti : σ
  stt : σ
  lgf : σ → List Int
  stf : σ → Int → Option σ
  stc : σ → Int → Int
  smf : σ → σ → Option σ
  eqs : σ → Bool
  loc : Option (σ → Ctx → Int)
  sdom : Option (σ → σ → Bool)

variable {σ : Type}

/-! ### The arena -/

/-- Fields of `ANode`/`Node` (src/node.hpp:44-51, 192), `Edge` (28-33) and `AbstractDD`
(src/dd.hpp:69-75).  Node and edge ids below `nn` and `ne` exist. -/
structure G (σ : Type) where
  st : Nat → σ
  lab : Nat → List Int
  bound : Nat → Int
  bb : Nat → Int
  layer : Nat → Nat
  ex : Nat → Bool
  par : Nat → List Nat
  kids : Nat → List Nat
  nn : Nat
  es : Nat → Nat
  ed : Nat → Nat
  el : Nat → Int
  eo : Nat → Int
  efix : Nat → Nat
  etix : Nat → Nat
  ne : Nat
  an : List Nat
  exact : Bool
  root : Nat
  trg : Nat

/-- `ANode::addArc` (src/node.cpp:57-63). -/
def addArcNode (g : G σ) (e n : Nat) : G σ :=
  if g.es e = n then
    { g with efix := upd g.efix e (g.kids n).length, kids := upd g.kids n (g.kids n ++ [e]) }
  else if g.ed e = n then
    { g with etix := upd g.etix e (g.par n).length, par := upd g.par n (g.par n ++ [e]) }
  else g

/-- `AbstractDD::addArc` (src/dd.cpp:41-45). -/
def addArc (g : G σ) (e : Nat) : G σ :=
  let g1 := addArcNode g e (g.es e)
  addArcNode g1 e (g1.ed e)

/-- `new Edge(p,c,l); e->_obj = o; addArc(e)` (src/node.hpp:34-35, src/dd.cpp:434-436). -/
def addEdge (g : G σ) (p c : Nat) (l o : Int) : G σ :=
  addArc { g with
    es := upd g.es g.ne p, ed := upd g.ed g.ne c, el := upd g.el g.ne l, eo := upd g.eo g.ne o,
    ne := g.ne + 1 } g.ne

/-- `Vec::remove` (src/vec.hpp:128-137): the last element fills the hole. -/
def vecRemove (l : List Nat) (i : Nat) : List Nat := (l.set i (l.getLastD 0)).dropLast

/-- One step of the first loop of `disconnect` (src/node.cpp:67-70): remove `e` from its
source's children at index `_fix` and relink the element that moved there. -/
def unlinkKid (g : G σ) (e : Nat) : G σ :=
  let f := g.es e
  let l := g.kids f
  { g with
    efix := upd g.efix ((l.set (g.efix e) (l.getLastD 0)).getD (g.efix e) 0) (g.efix e)
    kids := upd g.kids f (vecRemove l (g.efix e)) }

/-- One step of the second loop (src/node.cpp:72-75). -/
def unlinkPar (g : G σ) (e : Nat) : G σ :=
  let t := g.ed e
  let l := g.par t
  { g with
    etix := upd g.etix ((l.set (g.etix e) (l.getLastD 0)).getD (g.etix e) 0) (g.etix e)
    par := upd g.par t (vecRemove l (g.etix e)) }

/-- `ANode::disconnect` (src/node.cpp:65-77). -/
def disconnect (g : G σ) (n : Nat) : G σ :=
  let g1 := (g.par n).foldl unlinkKid g
  let g2 := { g1 with par := upd g1.par n [] }
  let g3 := (g2.kids n).foldl unlinkPar g2
  { g3 with kids := upd g3.kids n [] }

/-- `Relaxed::transferArcs` (src/dd.cpp:467-481). -/
def transferArcs (g : G σ) (d r : Nat) : G σ :=
  let g1 := (g.par d).foldl (fun g e => addArc { g with ed := upd g.ed e r } e) g
  let g2 := (g1.kids d).foldl (fun g e => addArc { g with es := upd g.es e r } e) g1
  disconnect g2 d

/-- When the hash table finds one state for another: same bucket and equal by the user's `std::equal_to`
(src/lighthash.hpp:87-100).  For most states this is equality; see `Verif/Same.lean` for others. -/
class Same (σ : Type) where
  same : σ → σ → Bool

instance instSameEq [DecidableEq σ] : Same σ := ⟨fun a b => decide (a = b)⟩

@[simp] theorem same_eq [DecidableEq σ] (a b : σ) : Same.same a b = decide (a = b) := rfl

theorem same_iff [DecidableEq σ] (a b : σ) : Same.same a b = true ↔ a = b := by simp

section
variable [Same σ]

/-- `_nmap.getLoc(state,..)` (src/dd.hpp:447): the node holding a state. -/
def findNode (g : G σ) (s : σ) : Option Nat := (List.range g.nn).find? (fun i => Same.same (g.st i) s)

/-- `makeNode` (src/dd.hpp:445-462). -/
def makeNode (m : Mdl σ) (g : G σ) (s : σ) (pe : Bool) : G σ × Nat :=
  match findNode g s with
  | some a =>
    let g1 := { g with ex := upd g.ex a (g.ex a && pe) }
    if (g1.par a).isEmpty ∧ a ≠ g1.root ∧ a ≠ g1.trg then
      ({ g1 with an := g1.an ++ [a], bound := upd g1.bound a m.sense.best0 }, a)
    else (g1, a)
  | none =>
    let a := g.nn
    ({ g with
      st := upd g.st a s, lab := upd g.lab a [], bound := upd g.bound a m.sense.best0,
      bb := upd g.bb a 0, layer := upd g.layer a 0, ex := upd g.ex a pe,
      par := upd g.par a [], kids := upd g.kids a [], nn := a + 1, an := g.an ++ [a] }, a)

/-- What `duplicate(src)` / the initial closure take over from the source node
(src/dd.hpp:564-568, 586-608; src/node.cpp:33-44). -/
structure Src (σ : Type) where
  st : σ
  lab : List Int
  bound : Int
  bb : Int

/-- `reset` + `duplicate` + `init` (src/dd.hpp:463-471, 586-619): an arena holding the root
only.  The root is exact and in layer 0. -/
def start (r : Src σ) : G σ :=
  { st := fun _ => r.st, lab := fun _ => r.lab, bound := fun _ => r.bound, bb := fun _ => r.bb,
    layer := fun _ => 0, ex := fun _ => true, par := fun _ => [], kids := fun _ => [], nn := 1,
    es := fun _ => 0, ed := fun _ => 0, el := fun _ => 0, eo := fun _ => 0, efix := fun _ => 0,
    etix := fun _ => 0, ne := 0, an := [0], exact := true, root := 0, trg := 0 }

/-- The root a diagram starts from when `compute` is called directly (src/dd.hpp:564-568). -/
def Mdl.src0 (m : Mdl σ) : Src σ := ⟨m.sti, [], 0, 0⟩

/-- `init()` then `target()` (src/dd.hpp:469-474, src/dd.cpp:310-311, 411-412, 689-690). -/
def start2 (m : Mdl σ) (r : Src σ) : G σ :=
  let p := makeNode m (start r) m.stt true
  { p.1 with trg := p.2 }

/-- `transition` (src/dd.hpp:484-504). -/
def transition (m : Mdl σ) (primal : Int) (g : G σ) (p : Nat) (l : Int) : G σ × Option Nat :=
  match m.stf (g.st p) l with
  | none => (g, none)
  | some s' =>
    match m.loc with
    | some f =>
      let c := m.stc (g.st p) l
      let d := f s' .dd
      if m.sense.better (g.bound p + c + d) primal then
        let r := makeNode m g s' (g.ex p)
        (if m.sense.better (c + d) (r.1.bound r.2) then r.1
         else { r.1 with bb := upd r.1.bb r.2 (c + d) }, some r.2)
      else (g, none)
    | none =>
      let r := makeNode m g s' (g.ex p)
      (r.1, some r.2)

/-- `copyBoundAndLabels` (src/node.hpp:89-94). -/
def copyBL (g : G σ) (dst src : Nat) : G σ :=
  { g with
    bound := upd g.bound dst (g.bound src), bb := upd g.bb dst (g.bb src),
    lab := upd g.lab dst (g.lab src), ex := upd g.ex dst false }

/-- The merged state is already held by a node of a lower layer (src/dd.hpp:520-525). -/
def mergeLow (g : G σ) (c : σ) (f s : Nat) : Bool :=
  match findNode g c with
  | some a => decide (g.layer a < max (g.layer f) (g.layer s))
  | none => false

/-- `merge` (src/dd.hpp:517-539). -/
def merge (m : Mdl σ) (g : G σ) (f s : Nat) : G σ × Option Nat :=
  match m.smf (g.st f) (g.st s) with
  | none => (g, none)
  | some c =>
    if mergeLow g c f s then (g, none)
    else
      let r := makeNode m g c true
      let g1 := if m.sense.better (r.1.bound f) (r.1.bound r.2) then copyBL r.1 r.2 f else r.1
      let g2 := if m.sense.better (g1.bound s) (g1.bound r.2) then copyBL g1 r.2 s else g1
      (g2, some r.2)

/-! ### One transition out of an expanded node, shared by Restricted and Relaxed -/

/-- `checkDominance` (src/dd.cpp:396-404 and 640-649): first candidate that dominates. -/
def findDom (m : Mdl σ) (g : G σ) (cands : List Nat) (n : Nat) (nObj : Int) : Option Nat :=
  match m.sdom with
  | none => none
  | some sd => cands.find? (fun o => m.sense.betterEQ (g.bound o) nObj && sd (g.st o) (g.st n))

/-- Body of the label loop (src/dd.cpp:421-443 and 700-726).  Returns the child if it has to
be enqueued. -/
def visit (m : Mdl σ) (primal : Int) (cands : List Nat) (g : G σ) (p : Nat) (l : Int) :
    G σ × Option Nat :=
  match transition m primal g p l with
  | (g1, none) => (g1, none)
  | (g1, some c) =>
    let isNew := (g1.par c).isEmpty
    let cost := m.stc (g1.st p) l
    let ep := g1.bound p + cost
    let dom := if isNew then findDom m g1 cands c ep else none
    let g2 := if dom.isSome then { g1 with an := g1.an.dropLast } else g1
    let c2 := dom.getD c
    let g3 := addEdge g2 p c2 l cost
    let g4 := if m.sense.better ep (g3.bound c2) then
        { g3 with bound := upd g3.bound c2 ep, lab := upd g3.lab c2 (g3.lab p ++ [l]) }
      else g3
    let g5 := { g4 with layer := upd g4.layer c2 (max (g4.layer c2) (g4.layer p + 1)) }
    (g5, if dom.isNone && isNew && !(m.eqs (g5.st c2)) then some c2 else none)

/-- `tighten` (src/dd.cpp:367-380). -/
def tightenLoop (m : Mdl σ) (g : G σ) : List Nat → Int → List Int → Int × List Int
  | [], cur, lb => (cur, lb)
  | e :: es, cur, lb =>
    let ep := g.bound (g.es e) + g.eo e
    if m.sense.better ep cur then tightenLoop m g es ep (g.lab (g.es e) ++ [g.el e])
    else tightenLoop m g es cur lb

def tighten (m : Mdl σ) (g : G σ) (n : Nat) : G σ :=
  let cur := if (g.par n).isEmpty ∧ n ≠ g.trg then g.bound n else m.sense.best0
  let r := tightenLoop m g (g.par n) cur (g.lab n)
  { g with bound := upd g.bound n r.1, lab := upd g.lab n r.2 }

/-! ### Restricted (src/dd.cpp:407-462) -/

/-- `_mxw - 1` on a 32-bit unsigned (src/dd.cpp:448). -/
def wm1 (w : Nat) : Nat := if w = 0 then 4294967295 else w - 1

/-- `estimate` (src/dd.cpp:354-365). -/
def estimate (g : G σ) (q : List Nat) : Nat :=
  match q with
  | [] => 0
  | n :: _ => q.countP (fun i => g.layer i = g.layer n)

/-- Label loop (src/dd.cpp:420-456); the flag says that `goto next` was taken. -/
def resLabels (m : Mdl σ) (primal : Int) (w : Nat) (p : Nat) :
    List Int → G σ → List Nat → G σ × List Nat × Bool
  | [], g, q => (g, q, false)
  | l :: ls, g, q =>
    match visit m primal q g p l with
    | (g1, none) => resLabels m primal w p ls g1 q
    | (g1, some c) =>
      let q1 := q ++ [c]
      if estimate g1 q1 > wm1 w then ({ g1 with exact := false }, q1, true)
      else resLabels m primal w p ls g1 q1

/-- Loop over the layer (src/dd.cpp:418-457). -/
def resNodes (m : Mdl σ) (primal : Int) (w : Nat) : List Nat → G σ → List Nat → G σ × List Nat
  | [], g, q => (g, q)
  | p :: ps, g, q =>
    match resLabels m primal w p (m.lgf (g.st p)) g q with
    | (g1, q1, true) => (g1, q1)
    | (g1, q1, false) => resNodes m primal w ps g1 q1

/-- `WidthBounded::pullLayer` (src/dd.cpp:336-352): the layer, sorted, and the rest. -/
def pullLayer (m : Mdl σ) (g : G σ) (q : List Nat) : List Nat × List Nat :=
  match q with
  | [] => ([], [])
  | n :: _ =>
    (MSort.msortL (fun a b => m.sense.better (g.bound a) (g.bound b))
      (q.takeWhile (fun i => g.layer i = g.layer n)),
     q.dropWhile (fun i => g.layer i = g.layer n))

def resLoop (m : Mdl σ) (primal : Int) (w : Nat) : Nat → G σ → List Nat → Option (G σ)
  | 0, _, _ => none
  | f + 1, g, q =>
    if q.isEmpty then some g
    else
      let lk := pullLayer m g q
      let r := resNodes m primal w lk.1 g lk.2
      resLoop m primal w f r.1 r.2

/-- `Restricted::compute` on a diagram rooted at `r`. -/
def restricted (m : Mdl σ) (primal : Int) (w fuel : Nat) (r : Src σ) : Option (G σ) :=
  let g := start2 m r
  (resLoop m primal w fuel g [g.root]).map (fun g => tighten m g g.trg)

/-! ### Relaxed (src/dd.cpp:467-741) -/

/-- `std::list::sort` with `!isBetter(a,b)` (src/dd.cpp:660-662): worst first; libstdc++'s merge
prefers the later element on ties, so ties come out reversed. -/
def relIns (m : Mdl σ) (g : G σ) (x : Nat) : List Nat → List Nat
  | [] => [x]
  | y :: ys => if m.sense.better (g.bound x) (g.bound y) then y :: relIns m g x ys else x :: y :: ys
def relSort (m : Mdl σ) (g : G σ) (l : List Nat) : List Nat := l.foldl (fun acc x => relIns m g x acc) []

/-- `NDAction` (src/dd.hpp:295-299). -/
inductive Act where
  | delay
  | inFront
  | noop
deriving DecidableEq

/-- One donor of `mergePair` (src/dd.cpp:499-503). -/
def absorb (g : G σ) (d mn : Nat) : G σ :=
  if d ≠ mn then
    let g1 := transferArcs g d mn
    { g1 with an := g1.an.erase d }
  else g

/-- `mergePair` (src/dd.cpp:483-508). -/
def mergePair (g : G σ) (mn a b : Nat) : G σ × Act :=
  let newNode := (g.par mn).isEmpty
  let ly := if newNode then upd g.layer mn (g.layer a) else g.layer
  let sameLayer := decide (ly mn = ly a)
  let g1 := { g with
    layer := upd ly mn (max (ly mn) (ly a)), ex := upd g.ex mn false, exact := false }
  let g2 := absorb (absorb g1 a mn) b mn
  (g2, if sameLayer then (if newNode || a = mn || b = mn then .inFront else .noop) else .delay)

/-- Inner search of `mergeOne` (src/dd.cpp:523-548): first partner that merges; `pre` are the
nodes passed over.  Returns arena, merged node, partner, and the list without the partner. -/
def mergeFind (m : Mdl σ) (g : G σ) (n1 : Nat) (pre : List Nat) :
    List Nat → Option (G σ × Nat × Nat × List Nat)
  | [] => none
  | n2 :: r =>
    if (g.kids n2).isEmpty ∧ g.layer n1 = g.layer n2 then
      match merge m g n1 n2 with
      | (g1, some mn) => some (g1, mn, n2, pre ++ r)
      | (_, none) => mergeFind m g n1 (pre ++ [n2]) r
    else mergeFind m g n1 (pre ++ [n2]) r

/-- `adjustBounds` (src/dd.cpp:597-610); the fuel bounds the depth of the recursion. -/
def adjustBounds (m : Mdl σ) : Nat → G σ → Nat → G σ
  | 0, g, _ => g
  | f + 1, g, n =>
    (g.kids n).foldl (fun g e =>
      let ep := g.bound n + g.eo e
      if m.sense.better ep (g.bound (g.ed e)) then
        adjustBounds m f
          { g with bound := upd g.bound (g.ed e) ep, lab := upd g.lab (g.ed e) (g.lab n ++ [g.el e]) }
          (g.ed e)
      else g) g

/-- `mergeOne` (src/dd.cpp:510-569) followed by the callback on a delayed node (584, 663-670). -/
def mergeOne (m : Mdl σ) (g : G σ) (n1 : Nat) (rest skip : List Nat) : G σ × List Nat × List Nat :=
  if (g.kids n1).isEmpty then
    match mergeFind m g n1 [] rest with
    | some (g1, mn, n2, rest') =>
      match mergePair g1 mn n1 n2 with
      | (g2, .delay) => (adjustBounds m g2.nn g2 mn, rest', skip)
      | (g2, .inFront) => (g2, mn :: rest', skip)
      | (g2, .noop) => (g2, rest', skip)
    | none => (g, rest, skip ++ [n1])
  else (g, rest, skip ++ [n1])

/-- `mergeLayer` (src/dd.cpp:572-595).  Each round shortens `layer`, so its length is
enough fuel. -/
def mergeLoop (m : Mdl σ) (w : Nat) : Nat → G σ → List Nat → List Nat → G σ × List Nat
  | 0, g, layer, skip => (g, skip ++ layer)
  | f + 1, g, layer, skip =>
    if skip.length + layer.length > w then
      match layer with
      | [] => (g, skip)
      | n1 :: rest =>
        let r := mergeOne m g n1 rest skip
        mergeLoop m w f r.1 r.2.1 r.2.2
    else (g, skip ++ layer)

def mergeLayer (m : Mdl σ) (w : Nat) (g : G σ) (layer : List Nat) : G σ × List Nat :=
  mergeLoop m w (layer.length + 1) g layer []

/-- `LQueue` (src/dd.cpp:613-682). -/
structure LQ where
  next : List Nat
  rest : List Nat

/-- `enQueue` (src/dd.cpp:622-639; the eager branch is disabled by `0 &&`). -/
def LQ.enQueue (g : G σ) (q : LQ) (n : Nat) : LQ :=
  match q.next with
  | [] => { q with next := [n] }
  | a :: _ => if g.layer a = g.layer n then { q with next := n :: q.next } else { q with rest := q.rest ++ [n] }

/-- `LQueue::pullLayer` (src/dd.cpp:656-681). -/
def LQ.pull (m : Mdl σ) (w : Nat) (g : G σ) (q : LQ) : G σ × List Nat × LQ :=
  let r := mergeLayer m w g (relSort m g q.next)
  match q.rest with
  | [] => (r.1, r.2, ⟨[], []⟩)
  | n :: _ =>
    (r.1, r.2, ⟨q.rest.takeWhile (fun i => r.1.layer i = r.1.layer n),
                q.rest.dropWhile (fun i => r.1.layer i = r.1.layer n)⟩)

/-- Label loop (src/dd.cpp:699-731). -/
def relLabels (m : Mdl σ) (primal : Int) (p : Nat) : List Int → G σ → LQ → G σ × LQ
  | [], g, q => (g, q)
  | l :: ls, g, q =>
    match visit m primal q.next g p l with
    | (g1, none) => relLabels m primal p ls g1 q
    | (g1, some c) => relLabels m primal p ls g1 (q.enQueue g1 c)

/-- Loop over the layer (src/dd.cpp:697-732). -/
def relNodes (m : Mdl σ) (primal : Int) : List Nat → G σ → LQ → G σ × LQ
  | [], g, q => (g, q)
  | p :: ps, g, q =>
    let r := relLabels m primal p (m.lgf (g.st p)) g q
    relNodes m primal ps r.1 r.2

def relLoop (m : Mdl σ) (primal : Int) (w : Nat) : Nat → G σ → LQ → Option (G σ)
  | 0, _, _ => none
  | f + 1, g, q =>
    if q.next.isEmpty ∧ q.rest.isEmpty then some g
    else
      let pl := q.pull m w g
      let r := relNodes m primal pl.2.1 pl.1 pl.2.2
      relLoop m primal w f r.1 r.2

end

/-! ### Topological passes (src/dd.cpp:88-302) -/

/-- `DNode`: node and degree (src/dd.cpp:88-98). -/
abbrev DH := Heap.H (Nat × Nat)
/-- Order of the degree heap (src/dd.cpp:204). -/
def dord (a b : Nat × Nat) : Bool := decide (a.2 < b.2)
/-- `operator--` on a 32-bit unsigned (src/dd.cpp:94-98). -/
def ddec (a : Nat × Nat) : Nat × Nat := (a.1, if a.2 = 0 then 4294967295 else a.2 - 1)

/-- First loop of `computeBest`/`computeBestBackward` (src/dd.cpp:210-215, 256-261): fill the
heap and the location table; `deg` is `nbParents` or `nbChildren`. -/
def topoFill (deg : Nat → Nat) : List Nat → DH → (Nat → Option Nat) → DH × (Nat → Option Nat)
  | [], h, nl => (h, nl)
  | n :: ns, h, nl =>
    let r := Heap.insert h (n, deg n)
    topoFill deg ns r.1 (upd nl n (some r.2))

/-- `decrease` the locations of a list of nodes (src/dd.cpp:233-238, 292-297); `none` is a null
location, undefined behaviour. -/
def topoDec (nl : Nat → Option Nat) : List Nat → DH → Option DH
  | [], h => some h
  | n :: ns, h =>
    match nl n with
    | none => none
    | some l => topoDec nl ns (Heap.decrease dord ddec h l)

/-- Best parent edge (src/dd.cpp:219-230); same loop as `tightenLoop`. -/
def bestPar (m : Mdl σ) (g : G σ) (n : Nat) : Int × List Int :=
  let rec go : List Nat → Int → List Int → Int × List Int
    | [], cur, lb => (cur, lb)
    | e :: es, cur, lb =>
      let ep := g.bound (g.es e) + g.eo e
      if m.sense.better ep cur then go es ep (g.lab (g.es e) ++ [g.el e]) else go es cur lb
  go (g.par n) (if (g.par n).isEmpty then g.bound n else m.sense.best0) (g.lab n)

/-- Main loop of `computeBest` (src/dd.cpp:217-239); the fuel is the heap size. -/
def cbLoop (m : Mdl σ) (nl : Nat → Option Nat) : Nat → DH → G σ → Option (G σ)
  | 0, _, g => some g
  | k + 1, h, g =>
    let x := Heap.extractMax dord h
    let n := x.2.1
    let r := bestPar m g n
    let g1 := { g with bound := upd g.bound n r.1, lab := upd g.lab n r.2 }
    match topoDec nl ((g1.kids n).map g1.ed) x.1 with
    | none => none
    | some h1 => cbLoop m nl k h1 g1

/-- `computeBest` (src/dd.cpp:200-246). -/
def computeBest (m : Mdl σ) (g : G σ) : Option (G σ) :=
  let t := topoFill (fun n => (g.par n).length) g.an (Heap.mk' (0, 0) 1000) (fun _ => none)
  let g1 := { g with bound := fun n => if n ∈ g.an ∧ n ≠ g.root then m.sense.best0 else g.bound n }
  cbLoop m t.2 g.an.length (Heap.buildHeap dord t.1) g1

/-- Best child edge (src/dd.cpp:265-278). -/
def bestKid (m : Mdl σ) (g : G σ) (n : Nat) : Int :=
  (g.kids n).foldl (fun cur e =>
    let ep := g.bb (g.ed e) + g.eo e
    if m.sense.better ep cur then ep else cur)
    (if (g.kids n).isEmpty then g.bb n else m.sense.best0)

/-- Main loop of `computeBestBackward` (src/dd.cpp:263-298). -/
def cbbLoop (m : Mdl σ) (nl : Nat → Option Nat) : Nat → DH → G σ → Option (G σ)
  | 0, _, g => some g
  | k + 1, h, g =>
    let x := Heap.extractMax dord h
    let n := x.2.1
    let g1 := { g with bb := upd g.bb n (bestKid m g n) }
    match topoDec nl ((g1.par n).map g1.es) x.1 with
    | none => none
    | some h1 => cbbLoop m nl k h1 g1

/-- `computeBestBackward` (src/dd.cpp:248-302). -/
def computeBestBackward (m : Mdl σ) (g : G σ) : Option (G σ) :=
  let t := topoFill (fun n => (g.kids n).length) g.an (Heap.mk' (0, 0) 1000) (fun _ => none)
  let g1 := { g with bb := fun n =>
    if n ∈ g.an then (if n = g.trg then 0 else m.sense.best0) else g.bb n }
  cbbLoop m t.2 g.an.length (Heap.buildHeap dord t.1) g1

section
variable [Same σ]

/-- `Relaxed::compute` (src/dd.cpp:684-741); `none`: fuel ran out or undefined behaviour. -/
def relaxed (m : Mdl σ) (primal : Int) (w fuel : Nat) (r : Src σ) : Option (G σ) :=
  let g := start2 m r
  (relLoop m primal w fuel g (LQ.enQueue g ⟨[], []⟩ g.root)).bind
    (fun g => computeBestBackward m (tighten m g g.trg))

/-! ### Exact (src/dd.cpp:308-334) -/

def exLabels (m : Mdl σ) (primal : Int) (p : Nat) : List Int → G σ → List Nat → G σ × List Nat
  | [], g, q => (g, q)
  | l :: ls, g, q =>
    match transition m primal g p l with
    | (g1, none) => exLabels m primal p ls g1 q
    | (g1, some c) =>
      let newNode := (g1.par c).isEmpty
      let g2 := addEdge g1 p c l (m.stc (g1.st p) l)
      exLabels m primal p ls g2 (if !(m.eqs (g2.st c)) && newNode then q ++ [c] else q)

def exLoop (m : Mdl σ) (primal : Int) : Nat → G σ → List Nat → Option (G σ)
  | 0, _, _ => none
  | _ + 1, g, [] => some g
  | f + 1, g, p :: q =>
    let r := exLabels m primal p (m.lgf (g.st p)) g q
    exLoop m primal f r.1 r.2

/-- `Exact::compute`. -/
def exactDD (m : Mdl σ) (primal : Int) (fuel : Nat) (r : Src σ) : Option (G σ) :=
  let g := start2 m r
  (exLoop m primal fuel g [g.root]).bind (computeBest m)

end

/-! ### Cut set (src/dd.cpp:743-792) -/

/-- Are all non-sink kids exact? (src/dd.cpp:758-777) -/
def allKidsExact (g : G σ) (n : Nat) : Bool :=
  (g.kids n).all (fun e => g.ed e = g.trg || g.ex (g.ed e))

/-- The main loop; `inq` is `inQueue`. -/
def cutLoop (g : G σ) : Nat → List Nat → List Nat → List Nat → Option (List Nat)
  | 0, _, _, _ => none
  | _ + 1, [], _, cs => some cs
  | f + 1, n :: q, inq, cs =>
    if g.ex n then
      if allKidsExact g n then
        let r := (g.kids n).foldl (fun (acc : List Nat × List Nat) e =>
          if g.ed e ∈ acc.2 ∨ g.ed e = g.trg then acc else (acc.1 ++ [g.ed e], acc.2 ++ [g.ed e])) (q, inq)
        cutLoop g f r.1 r.2 cs
      else cutLoop g f q inq (cs ++ [n])
    else cutLoop g f q inq cs

/-- `Relaxed::computeCutSet`.  Every node is queued at most once, so `nn + 1` rounds suffice. -/
def cutSet (g : G σ) : Option (List Nat) := cutLoop g (g.nn + 1) [g.root] [g.root] []

end Verif.DD
