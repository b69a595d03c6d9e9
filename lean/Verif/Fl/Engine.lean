import Verif.BB
/-!
# The engine over the numbers of a machine (src/dd.hpp, src/dd.cpp, src/search.cpp)

`Verif/DD.lean` and `Verif/BB.lean` take `double` values for integers and `+` for their sum.  Here is the same
engine for any numbers that are ordered and can be added: `P.add` is the machine's addition and nothing is
assumed about it.  An `Int` stands for a `double` other than NaN by its place in the order; for instance
as a multiple of the smallest positive `double`, with the two infinities outside all others.  `P.top` is `INT_MAX` in
that count.  Functions of the other model that neither add nor use `INT_MAX` are used as they are.
-/
namespace Verif.Fl
open Verif.DD
variable {σ : Type}

/-- Addition of `double`s and the constant `std::numeric_limits<int>::max()` (src/dd.hpp:321-344). -/
structure Num where
  add : Int → Int → Int
  top : Int

/-- `bestValue` / `initialBest` (src/dd.hpp:329, 342, 426). -/
def Num.best0 (P : Num) : Sense → Int
  | .min => P.top
  | .max => -P.top

/-- `worstValue` / `initialWorst` (src/dd.hpp:330, 343, 427). -/
def Num.worst0 (P : Num) : Sense → Int
  | .min => -P.top
  | .max => P.top

section
variable [Same σ]

/-- `makeNode` (src/dd.hpp:445-462). -/
def makeNode (P : Num) (m : Mdl σ) (g : G σ) (s : σ) (pe : Bool) : G σ × Nat :=
  match findNode g s with
  | some a =>
    let g1 := { g with ex := upd g.ex a (g.ex a && pe) }
    if (g1.par a).isEmpty ∧ a ≠ g1.root ∧ a ≠ g1.trg then
      ({ g1 with an := g1.an ++ [a], bound := upd g1.bound a (P.best0 m.sense) }, a)
    else (g1, a)
  | none =>
    let a := g.nn
    ({ g with
      st := upd g.st a s, lab := upd g.lab a [], bound := upd g.bound a (P.best0 m.sense),
      bb := upd g.bb a 0, layer := upd g.layer a 0, ex := upd g.ex a pe,
      par := upd g.par a [], kids := upd g.kids a [], nn := a + 1, an := g.an ++ [a] }, a)

/-- `init()` then `target()` (src/dd.hpp:469-474, src/dd.cpp:310-311, 411-412, 689-690). -/
def start2 (P : Num) (m : Mdl σ) (r : Src σ) : G σ :=
  let p := makeNode P m (start r) m.stt true
  { p.1 with trg := p.2 }

/-- `transition` (src/dd.hpp:484-504): `src->getBound() + cVal + dual` is two additions from the left. -/
def transition (P : Num) (m : Mdl σ) (primal : Int) (g : G σ) (p : Nat) (l : Int) : G σ × Option Nat :=
  match m.stf (g.st p) l with
  | none => (g, none)
  | some s' =>
    match m.loc with
    | some f =>
      let c := m.stc (g.st p) l
      let d := f s' .dd
      if m.sense.better (P.add (P.add (g.bound p) c) d) primal then
        let r := makeNode P m g s' (g.ex p)
        (if m.sense.better (P.add c d) (r.1.bound r.2) then r.1
         else { r.1 with bb := upd r.1.bb r.2 (P.add c d) }, some r.2)
      else (g, none)
    | none =>
      let r := makeNode P m g s' (g.ex p)
      (r.1, some r.2)

/-- `merge` (src/dd.hpp:517-539). -/
def merge (P : Num) (m : Mdl σ) (g : G σ) (f s : Nat) : G σ × Option Nat :=
  match m.smf (g.st f) (g.st s) with
  | none => (g, none)
  | some c =>
    if mergeLow g c f s then (g, none)
    else
      let r := makeNode P m g c true
      let g1 := if m.sense.better (r.1.bound f) (r.1.bound r.2) then copyBL r.1 r.2 f else r.1
      let g2 := if m.sense.better (g1.bound s) (g1.bound r.2) then copyBL g1 r.2 s else g1
      (g2, some r.2)

/-- Body of the label loop (src/dd.cpp:421-443 and 700-726). -/
def visit (P : Num) (m : Mdl σ) (primal : Int) (cands : List Nat) (g : G σ) (p : Nat) (l : Int) :
    G σ × Option Nat :=
  match transition P m primal g p l with
  | (g1, none) => (g1, none)
  | (g1, some c) =>
    let isNew := (g1.par c).isEmpty
    let cost := m.stc (g1.st p) l
    let ep := P.add (g1.bound p) cost
    let dom := if isNew then findDom m g1 cands c ep else none
    let g2 := if dom.isSome then { g1 with an := g1.an.dropLast } else g1
    let c2 := dom.getD c
    let g3 := addEdge g2 p c2 l cost
    let g4 := if m.sense.better ep (g3.bound c2) then
        { g3 with bound := upd g3.bound c2 ep, lab := upd g3.lab c2 (g3.lab p ++ [l]) }
      else g3
    let g5 := { g4 with layer := upd g4.layer c2 (max (g4.layer c2) (g4.layer p + 1)) }
    (g5, if dom.isNone && isNew && !(m.eqs (g5.st c2)) then some c2 else none)

/-- `tighten` (src/dd.cpp:367-380). -/
def tightenLoop (P : Num) (m : Mdl σ) (g : G σ) : List Nat → Int → List Int → Int × List Int
  | [], cur, lb => (cur, lb)
  | e :: es, cur, lb =>
    let ep := P.add (g.bound (g.es e)) (g.eo e)
    if m.sense.better ep cur then tightenLoop P m g es ep (g.lab (g.es e) ++ [g.el e])
    else tightenLoop P m g es cur lb

/-- `tighten` (src/dd.cpp:367-380). -/
def tighten (P : Num) (m : Mdl σ) (g : G σ) (n : Nat) : G σ :=
  let cur := if (g.par n).isEmpty ∧ n ≠ g.trg then g.bound n else P.best0 m.sense
  let r := tightenLoop P m g (g.par n) cur (g.lab n)
  { g with bound := upd g.bound n r.1, lab := upd g.lab n r.2 }

/-- Label loop of `Restricted` (src/dd.cpp:420-456). -/
def resLabels (P : Num) (m : Mdl σ) (primal : Int) (w : Nat) (p : Nat) :
    List Int → G σ → List Nat → G σ × List Nat × Bool
  | [], g, q => (g, q, false)
  | l :: ls, g, q =>
    match visit P m primal q g p l with
    | (g1, none) => resLabels P m primal w p ls g1 q
    | (g1, some c) =>
      let q1 := q ++ [c]
      if estimate g1 q1 > wm1 w then ({ g1 with exact := false }, q1, true)
      else resLabels P m primal w p ls g1 q1

/-- Loop over the layer (src/dd.cpp:418-457). -/
def resNodes (P : Num) (m : Mdl σ) (primal : Int) (w : Nat) : List Nat → G σ → List Nat → G σ × List Nat
  | [], g, q => (g, q)
  | p :: ps, g, q =>
    match resLabels P m primal w p (m.lgf (g.st p)) g q with
    | (g1, q1, true) => (g1, q1)
    | (g1, q1, false) => resNodes P m primal w ps g1 q1

/-- Main loop of `Restricted` (src/dd.cpp:415-459). -/
def resLoop (P : Num) (m : Mdl σ) (primal : Int) (w : Nat) : Nat → G σ → List Nat → Option (G σ)
  | 0, _, _ => none
  | f + 1, g, q =>
    if q.isEmpty then some g
    else
      let lk := pullLayer m g q
      let r := resNodes P m primal w lk.1 g lk.2
      resLoop P m primal w f r.1 r.2

/-- `Restricted::compute` (src/dd.cpp:407-462). -/
def restricted (P : Num) (m : Mdl σ) (primal : Int) (w fuel : Nat) (r : Src σ) : Option (G σ) :=
  let g := start2 P m r
  (resLoop P m primal w fuel g [g.root]).map (fun g => tighten P m g g.trg)

/-- Inner search of `mergeOne` (src/dd.cpp:523-548): first partner that merges; `pre` are the
nodes passed over.  Returns arena, merged node, partner, and the list without the partner. -/
def mergeFind (P : Num) (m : Mdl σ) (g : G σ) (n1 : Nat) (pre : List Nat) :
    List Nat → Option (G σ × Nat × Nat × List Nat)
  | [] => none
  | n2 :: r =>
    if (g.kids n2).isEmpty ∧ g.layer n1 = g.layer n2 then
      match merge P m g n1 n2 with
      | (g1, some mn) => some (g1, mn, n2, pre ++ r)
      | (_, none) => mergeFind P m g n1 (pre ++ [n2]) r
    else mergeFind P m g n1 (pre ++ [n2]) r

/-- `adjustBounds` (src/dd.cpp:597-610). -/
def adjustBounds (P : Num) (m : Mdl σ) : Nat → G σ → Nat → G σ
  | 0, g, _ => g
  | f + 1, g, n =>
    (g.kids n).foldl (fun g e =>
      let ep := P.add (g.bound n) (g.eo e)
      if m.sense.better ep (g.bound (g.ed e)) then
        adjustBounds P m f
          { g with bound := upd g.bound (g.ed e) ep, lab := upd g.lab (g.ed e) (g.lab n ++ [g.el e]) }
          (g.ed e)
      else g) g

/-- `mergeOne` (src/dd.cpp:510-569) followed by the callback on a delayed node (584, 663-670). -/
def mergeOne (P : Num) (m : Mdl σ) (g : G σ) (n1 : Nat) (rest skip : List Nat) : G σ × List Nat × List Nat :=
  if (g.kids n1).isEmpty then
    match mergeFind P m g n1 [] rest with
    | some (g1, mn, n2, rest') =>
      match mergePair g1 mn n1 n2 with
      | (g2, .delay) => (adjustBounds P m g2.nn g2 mn, rest', skip)
      | (g2, .inFront) => (g2, mn :: rest', skip)
      | (g2, .noop) => (g2, rest', skip)
    | none => (g, rest, skip ++ [n1])
  else (g, rest, skip ++ [n1])

/-- `mergeLayer` (src/dd.cpp:572-595). -/
def mergeLoop (P : Num) (m : Mdl σ) (w : Nat) : Nat → G σ → List Nat → List Nat → G σ × List Nat
  | 0, g, layer, skip => (g, skip ++ layer)
  | f + 1, g, layer, skip =>
    if skip.length + layer.length > w then
      match layer with
      | [] => (g, skip)
      | n1 :: rest =>
        let r := mergeOne P m g n1 rest skip
        mergeLoop P m w f r.1 r.2.1 r.2.2
    else (g, skip ++ layer)

/-- `mergeLayer` (src/dd.cpp:572-595). -/
def mergeLayer (P : Num) (m : Mdl σ) (w : Nat) (g : G σ) (layer : List Nat) : G σ × List Nat :=
  mergeLoop P m w (layer.length + 1) g layer []

/-- `LQueue::pullLayer` (src/dd.cpp:656-681). -/
def pull (P : Num) (m : Mdl σ) (w : Nat) (g : G σ) (q : LQ) : G σ × List Nat × LQ :=
  let r := mergeLayer P m w g (relSort m g q.next)
  match q.rest with
  | [] => (r.1, r.2, ⟨[], []⟩)
  | n :: _ =>
    (r.1, r.2, ⟨q.rest.takeWhile (fun i => r.1.layer i = r.1.layer n),
                q.rest.dropWhile (fun i => r.1.layer i = r.1.layer n)⟩)

/-- Label loop of `Relaxed` (src/dd.cpp:699-731). -/
def relLabels (P : Num) (m : Mdl σ) (primal : Int) (p : Nat) : List Int → G σ → LQ → G σ × LQ
  | [], g, q => (g, q)
  | l :: ls, g, q =>
    match visit P m primal q.next g p l with
    | (g1, none) => relLabels P m primal p ls g1 q
    | (g1, some c) => relLabels P m primal p ls g1 (q.enQueue g1 c)

/-- Loop over the layer (src/dd.cpp:697-732). -/
def relNodes (P : Num) (m : Mdl σ) (primal : Int) : List Nat → G σ → LQ → G σ × LQ
  | [], g, q => (g, q)
  | p :: ps, g, q =>
    let r := relLabels P m primal p (m.lgf (g.st p)) g q
    relNodes P m primal ps r.1 r.2

/-- Main loop of `Relaxed` (src/dd.cpp:694-733). -/
def relLoop (P : Num) (m : Mdl σ) (primal : Int) (w : Nat) : Nat → G σ → LQ → Option (G σ)
  | 0, _, _ => none
  | f + 1, g, q =>
    if q.next.isEmpty ∧ q.rest.isEmpty then some g
    else
      let pl := pull P m w g q
      let r := relNodes P m primal pl.2.1 pl.1 pl.2.2
      relLoop P m primal w f r.1 r.2

/-- Best child edge (src/dd.cpp:265-278). -/
def bestKid (P : Num) (m : Mdl σ) (g : G σ) (n : Nat) : Int :=
  (g.kids n).foldl (fun cur e =>
    let ep := P.add (g.bb (g.ed e)) (g.eo e)
    if m.sense.better ep cur then ep else cur)
    (if (g.kids n).isEmpty then g.bb n else P.best0 m.sense)

/-- Main loop of `computeBestBackward` (src/dd.cpp:263-298). -/
def cbbLoop (P : Num) (m : Mdl σ) (nl : Nat → Option Nat) : Nat → DH → G σ → Option (G σ)
  | 0, _, g => some g
  | k + 1, h, g =>
    let x := Heap.extractMax dord h
    let n := x.2.1
    let g1 := { g with bb := upd g.bb n (bestKid P m g n) }
    match topoDec nl ((g1.par n).map g1.es) x.1 with
    | none => none
    | some h1 => cbbLoop P m nl k h1 g1

/-- `computeBestBackward` (src/dd.cpp:248-302). -/
def computeBestBackward (P : Num) (m : Mdl σ) (g : G σ) : Option (G σ) :=
  let t := topoFill (fun n => (g.kids n).length) g.an (Heap.mk' (0, 0) 1000) (fun _ => none)
  let g1 := { g with bb := fun n =>
    if n ∈ g.an then (if n = g.trg then 0 else P.best0 m.sense) else g.bb n }
  cbbLoop P m t.2 g.an.length (Heap.buildHeap dord t.1) g1

/-- `Relaxed::compute` (src/dd.cpp:684-741). -/
def relaxed [Same σ] (P : Num) (m : Mdl σ) (primal : Int) (w fuel : Nat) (r : Src σ) : Option (G σ) :=
  let g := start2 P m r
  (relLoop P m primal w fuel g (LQ.enQueue g ⟨[], []⟩ g.root)).bind
    (fun g => computeBestBackward P m (tighten P m g g.trg))

open Verif.BB

/-- Queue key of a new node (src/search.cpp:170-174). -/
def insKey (P : Num) (lc : Option (σ → Ctx → Int)) (g : G σ) (n : Nat) : Int :=
  P.add (g.bound n) (match lc with
    | some f => f (g.st n) .bb
    | none => g.bb n)

/-- Body of the loop over the cut set (src/search.cpp:121-184). -/
def cutStep (P : Num) (m : Mdl σ) (lc : Option (σ → Ctx → Int)) (g : G σ) (cur : Nat) (s0 : BS σ) (n : Nat) : BS σ :=
  let s := if n = g.root then { s0 with wrel := s0.wrel + 1 } else s0
  if m.sense.better (P.add (g.bound n) (g.bb n)) s.primal then
    match domStep m s (g.st n) (g.bound n) with
    | (true, s1) => { s1 with log := s1.log ++ [(cur, n, .dominated)] }
    | (false, s1) =>
      match findPool s1 (g.st n) with
      | some o => { s1 with log := s1.log ++ [(cur, n, .deduped o)] }
      | none =>
        let s2 := clone s1 (g.st n) (g.lab n) (g.bound n) (g.bb n)
        let key := insKey P lc g n
        if m.sense.better key s2.primal then
          { s2 with
            pq := (Heap.insertHeap (qord m) s2.pq (s1.pn, key)).1, log := s2.log ++ [(cur, n, .queued)] }
        else { s2 with log := s2.log ++ [(cur, n, .weak)] }
  else { s with log := s.log ++ [(cur, n, .bounded)] }

/-- Processing of one extracted node that survives pruning (src/search.cpp:107-186). -/
def expandP (P : Num) (m : Mdl σ) (M : Int → Mdl σ) (lc : Int → Option (σ → Ctx → Int)) (wres fuel : Nat) (s : BS σ) (cur : Nat) : Option (BS σ) :=
  (relaxed P (M s.primal) s.primal s.wrel fuel (s.src cur)).bind fun g =>
    if m.sense.better (g.bound g.trg) s.primal then
      let s1 := if g.exact then setPrimal m s (g.bound g.trg) (g.lab g.trg) else s
      (restricted P (M s1.primal) s1.primal wres fuel (s1.src cur)).bind fun r =>
        let s2 := if m.sense.better (r.bound r.trg) s1.primal then
          setPrimal m s1 (r.bound r.trg) (r.lab r.trg) else s1
        if !r.exact && !g.exact then
          (cutSet g).map (fun cs => cs.foldl (cutStep P m (lc s2.primal) g cur) s2)
        else some s2
    else some s

/-- Main loop (src/search.cpp:59-189). -/
def loopP (P : Num) (m : Mdl σ) (M : Nat → Int → Mdl σ) (lc : Nat → Int → Option (σ → Ctx → Int)) (wres dfuel : Nat) (lim : Nat → Bool) : Nat → Nat → BS σ → Option (BS σ)
  | 0, _, _ => none
  | f + 1, k, s =>
    if Heap.empty s.pq then some s
    else
      let x := Heap.extractMax (qord m) s.pq
      let s1 := { s with pq := x.1 }
      if lim k then some { s1 with stopped := true }
      else if m.sense.better x.2.2 s1.primal then
        (expandP P m (M k) (lc k) wres dfuel s1 x.2.1).bind (loopP P m M lc wres dfuel lim f (k + 1))
      else loopP P m M lc wres dfuel lim f (k + 1) s1

/-- State before the loop (src/search.cpp:23-58).  `p0` is the primal bound after `attach`
(`initialBest` unless the user set one). -/
def init (P : Num) (m : Mdl σ) (w : Nat) (p0 : Int) : BS σ :=
  let h : Heap.H (Nat × Int) := Heap.mk' (0, 0) 64000
  let bb := match m.loc with
    | some f => f m.sti .bb
    | none => 0
  let key := match m.loc with
    | some f => f m.sti .bb
    | none => P.worst0 m.sense
  { pst := fun _ => m.sti, plab := fun _ => [], pbound := fun _ => 0, pbb := fun _ => bb, pn := 1,
    pq := (Heap.insertHeap (qord m) h (0, key)).1, primal := p0, inc := [], sols := [], wrel := w,
    stopped := false, log := [] }

/-- `BAndB::search` (src/search.cpp:23-189) for labels and local bounds that may change as in `searchT`. -/
def searchT (P : Num) (m : Mdl σ) (M : Nat → Int → Mdl σ) (lc : Nat → Int → Option (σ → Ctx → Int)) (w dfuel : Nat) (lim : Nat → Bool) (fuel : Nat) (p0 : Int) :
    Option (BS σ) :=
  loopP P m M lc w dfuel lim fuel 0 (init P m w p0)

/-- `BAndB::search` for a model that does not depend on the primal bound. -/
def search (P : Num) (m : Mdl σ) (w dfuel : Nat) (lim : Nat → Bool) (fuel : Nat) (p0 : Int) : Option (BS σ) :=
  searchT P m (fun _ _ => m) (fun _ _ => m.loc) w dfuel lim fuel p0

end
end Verif.Fl
