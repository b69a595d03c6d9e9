import Verif.KnapRead
import Verif.FArr
import Verif.Tsp
import Verif.Tsp4
/-!
# The readers of the TSP examples

`readFile` of tsp.cpp (examples/tsp.cpp:54-95; the same text in tsp_test2.cpp:58-99 and tsp_test3.cpp:60-101) and of
tsp_test4.cpp (examples/tsp_test4.cpp:77-147).  An `int` becomes a `double` without loss.  Running out of memory is not
modelled.  `return rv` is taken to build the instance in place.
-/
namespace Verif.Ex
open Verif.IO

/-- `num_get` for `size_t`: as for a signed type, but a minus sign negates modulo 2^64, and only too many digits are out of range. -/
def getSize (r : List Char) : Strm × Nat :=
  let neg := r.head? == some '-'
  let r1 := if neg || r.head? == some '+' then r.tail else r
  let ds := r1.takeWhile isDig
  let r2 := r1.dropWhile isDig
  if ds.isEmpty then (⟨r2, r2.isEmpty, true⟩, 0)
  else if 2 ^ 64 ≤ digVal 0 ds then (⟨r2, r2.isEmpty, true⟩, 2 ^ 64 - 1)
  else (⟨r2, r2.isEmpty, false⟩, if neg then (2 ^ 64 - digVal 0 ds) % 2 ^ 64 else digVal 0 ds)

/-- `f >> n` for a `size_t`; `none` leaves the variable as it was. -/
def _root_.Verif.IO.Strm.size (s : Strm) : Strm × Option Nat :=
  match s.sentry with
  | (s', false) => (s', none)
  | (s', true) => ((getSize s'.rest).1, some (getSize s'.rest).2)

/-- The distance matrix: `none` is a `double` nobody set. -/
abbrev DMat := FArr.F (Option Int)

/-- `Matrix<double,2>(nv,nv)` (examples/tsp.cpp:85, src/util.hpp:1043-1048, 1139-1146): `size_t` to `int` keeps the low 32 bits. -/
def dimOf (n : Nat) : Int := Int.bmod n (2 ^ 32)
def newMat (n : Nat) : DMat := FArr.mk' none (FArr.prodOf [dimOf n, dimOf n] 1)

/-- Where `d[i][j]` is (src/util.hpp:1028-1029, 1101-1111). -/
def cellAt (n i j : Nat) : Option Nat := (FArr.offset [dimOf n, dimOf n] [i, j]).bind fun o => if 0 ≤ o then some o.toNat else none

/-- `d[i][j] = val` (examples/tsp.cpp:90); `none` is undefined behaviour. -/
def putCell (n : Nat) (m : DMat) (p : Nat × Nat) (v : Int) : Option DMat := (cellAt n p.1 p.2).bind fun o => FArr.set m o (some v)

/-- `d[i][j]`; `none` if it is out of range or was never set. -/
def dist (n : Nat) (m : DMat) (i j : Nat) : Option Int := ((cellAt n i j).bind (FArr.get m)).join

/-- The same value to several cells in turn. -/
def putCells (n : Nat) (v : Int) : List (Nat × Nat) → DMat → Option DMat
  | [], m => some m
  | p :: ps, m => (putCell n m p v).bind (putCells n v ps)

/-- The loops over the matrix: each round reads an `int` that had no value and stores it in some cells. -/
def fillCells (n : Nat) : List (List (Nat × Nat)) → Strm → DMat → Res DMat
  | [], _, m => .ok m
  | ps :: pss, s, m =>
    let r := s.int
    match r.2 with
    | none => .ub
    | some v =>
      match putCells n v ps m with
      | none => .ub
      | some m' => fillCells n pss r.1 m'

/-- The rounds for a full matrix (examples/tsp.cpp:86-91, tsp_test4.cpp:123-128). -/
def fullRounds (n : Nat) : List (List (Nat × Nat)) := (List.range n).flatMap fun i => (List.range n).map fun j => [(i, j)]

/-- The rounds for a lower triangle with its diagonal (examples/tsp_test4.cpp:131-141). -/
def lowerRounds (n : Nat) : List (List (Nat × Nat)) :=
  (List.range n).flatMap fun i => (List.range i).map (fun j => [(i, j), (j, i)]) ++ [[(i, i)]]

/-- What a reader fills in: `nv` and `d`. -/
structure TFile where
  nv : Nat
  d : DMat

/-- Every distance is set. -/
def allSet (n : Nat) (m : DMat) : Bool := (List.range n).all fun i => (List.range n).all fun j => (dist n m i j).isSome

/-- The end of `readFile` (examples/tsp.cpp:92-94, tsp_test4.cpp:144-146): printing a distance nobody set is undefined. -/
def finish (n : Nat) : Res DMat → Res TFile
  | .ok m => if allSet n m then .ok ⟨n, m⟩ else .ub
  | .ub => .ub
  | .more => .more

/-- The matrix part, with the dimension read; a dimension nobody set is undefined. -/
def readMat (rounds : Nat → List (List (Nat × Nat))) (n : Option Nat) (s : Strm) : Res TFile :=
  match n with
  | none => .ub
  | some n => finish n (fillCells n (rounds n) s (newMat n))

/-- The text "EDGE_WEIGHT_SECTION". -/
def kSection : List Char := ['E','D','G','E','_','W','E','I','G','H','T','_','S','E','C','T','I','O','N']
/-- The text "EDGE_WEIGHT_TYPE". -/
def kType : List Char := ['E','D','G','E','_','W','E','I','G','H','T','_','T','Y','P','E']
/-- The text "EDGE_WEIGHT_FORMAT". -/
def kFormat : List Char := ['E','D','G','E','_','W','E','I','G','H','T','_','F','O','R','M','A','T']
/-- The text "LOWER_DIAG_ROW". -/
def kLower : List Char := ['L','O','W','E','R','_','D','I','A','G','_','R','O','W']
/-- The text "FULL_MATRIX". -/
def kFull : List Char := ['F','U','L','L','_','M','A','T','R','I','X']

/-- The loop looking for the matrix (examples/tsp.cpp:68-72). -/
def tspSection : Nat → Strm → List Char → Res Strm
  | 0, _, _ => .more
  | fuel + 1, s, lab =>
    let r := s.word
    let lab' := r.2.getD lab
    let s' := r.1.line.1
    if lab' = kSection then .ok s' else tspSection fuel s' lab'

/-- `readFile` (examples/tsp.cpp:54-95).  The last character of an empty label is out of range. -/
def readTsp (fuel : Nat) (f : Strm) : Res TFile :=
  match f.word with
  | (_, none) => .ub
  | (s, some lab) =>
    if lab.getLast? = some ':' then
      let s1 := s.line.1
      let r2 := s1.word
      let s2 := r2.1.line.1
      let r3 := s2.word
      let s3 := r3.1.line.1
      let r4 := s3.word
      let r5 := r4.1.size
      match tspSection fuel r5.1 (r4.2.getD (r3.2.getD (r2.2.getD lab))) with
      | .ok s5 => readMat fullRounds r5.2 s5
      | .ub => .ub
      | .more => .more
    else
      let s1 := s.word.1.word.1
      let s2 := s1.word.1.word.1.line.1
      let s3 := s2.word.1.word.1.line.1
      let r4 := s3.word.1.word.1.size
      let s5 := r4.1.word.1.word.1.line.1
      readMat fullRounds r4.2 s5.word.1

/-! ### tsp_test4 -/

/-- `WeightFormat` (examples/tsp_test4.cpp:60-61), as far as `convertWF` (69-75) returns it. -/
inductive WF where
  | full
  | lower
  | fna
deriving DecidableEq

/-- `convertWF` (examples/tsp_test4.cpp:69-75). -/
def convertWF (s : List Char) : WF := if s = kLower then .lower else if s = kFull then .full else .fna

/-- A character `readLabel` goes on after. -/
def inLabel (c : Char) : Bool := !isWs c && c != ':'

/-- `readLabel` (examples/tsp_test4.cpp:77-88); `none` if it never ends.  The end of the file puts a character -1 in the label.
Characters above 127 count as no white space. -/
def readLabel (s : Strm) : Option (List Char × Strm) :=
  if s.eof then some ([Char.ofNat 255], { s with fail := true })
  else if s.fail then none
  else
    match s.rest.dropWhile inLabel with
    | [] => some (s.rest.takeWhile inLabel ++ [Char.ofNat 255], ⟨[], true, true⟩)
    | r => some (s.rest.takeWhile inLabel, ⟨r, false, false⟩)

/-- A label and the rest of its line. -/
def skipLine (s : Strm) : Option Strm := (readLabel s).map fun r => r.2.line.1

/-- The loop over the further entries (examples/tsp_test4.cpp:106-117).  The weight type is only printed. -/
def sect4 : Nat → Strm → WF → Res (Strm × WF)
  | 0, _, _ => .more
  | fuel + 1, s, wf =>
    match readLabel s with
    | none => .more
    | some (lab, s1) =>
      if lab = kType then sect4 fuel s1.word.1.word.1 wf
      else if lab = kFormat then
        let r := s1.word.1.word
        sect4 fuel r.1 (convertWF (r.2.getD []))
      else if lab = kSection then .ok (s1.line.1, wf)
      else sect4 fuel s1.line.1 wf

/-- The switch (examples/tsp_test4.cpp:121-143). -/
def rounds4 : WF → Nat → List (List (Nat × Nat))
  | .full, n => fullRounds n
  | .lower, n => lowerRounds n
  | .fna, _ => []

/-- `readFile` (examples/tsp_test4.cpp:90-147). -/
def readTsp4 (fuel : Nat) (f : Strm) : Res TFile :=
  match ((skipLine f).bind skipLine).bind skipLine with
  | none => .more
  | some s3 =>
    match readLabel s3 with
    | none => .more
    | some (_, s4) =>
      let r := s4.word.1.size
      match sect4 fuel r.1 .fna with
      | .ok (s5, wf) => readMat (rounds4 wf) r.2 s5
      | .ub => .ub
      | .more => .more

/-- The instance of tsp.cpp (examples/tsp.cpp:105-110). -/
def TFile.tsp (F : TFile) : Tsp := ⟨F.nv, fun i j => (dist F.nv F.d i j).getD 0⟩

/-- The instance of the other programs (examples/tsp_test4.cpp:201-203). -/
def TFile.tsp4 (F : TFile) : Tsp4 := ⟨F.nv, fun i j => (dist F.nv F.d i j).getD 0⟩

end Verif.Ex
