import Verif.TspRead
/-!
# The reader of tsptw (examples/tsptw.cpp:27-86)

Distances are doubles.  A distance is modelled when it is an integer of at most 2^53 in absolute value, which a double holds
without loss; the outcome `Res.more` stands for the others, about which nothing is said.  Characters above 127 count as no white
space.  What `readFile` prints is left out, except that printing a distance nobody set is undefined.
-/
namespace Verif.Ex
open Verif.IO

/-- `f.get()`: one character, white space or not; `none` is the value -1 at the end of the file or on a stream that is not good. -/
def _root_.Verif.IO.Strm.get (s : Strm) : Strm × Option Char :=
  if s.eof || s.fail then ({ s with fail := true }, none)
  else
    match s.rest with
    | [] => (⟨[], true, true⟩, none)
    | c :: r => (⟨r, false, false⟩, some c)

/-- The loop of `skip` with the `unget` behind it (examples/tsptw.cpp:48-56).  Taking back the last character gives the stream before `get`;
on a stream that failed it changes nothing.  Each round takes a character, so that the text bounds the rounds (`skip_unfold`). -/
def skipLoop : Nat → Strm → Strm
  | 0, s => s
  | k + 1, s =>
    match s.get with
    | (s', none) => s'
    | (s', some c) =>
      if c = '#' then
        let s'' := s'.line.1
        if s''.eof then s'' else skipLoop k s''
      else if isWs c then skipLoop k s'
      else s

/-- `skip` (examples/tsptw.cpp:45-57). -/
def _root_.Verif.IO.Strm.skip (s : Strm) : Strm := skipLoop (s.rest.length + 1) s

/-- The number `m * 10^e` as an integer a double holds without loss. -/
def decInt (m e : Int) : Option Int :=
  let v : Option Int :=
    if 0 ≤ e then some (m * 10 ^ e.toNat)
    else if m % 10 ^ (-e).toNat = 0 then some (m / 10 ^ (-e).toNat) else none
  v.bind fun v => if v.natAbs ≤ 2 ^ 53 then some v else none

/-- `num_get` for `double`: a sign, digits with at most one point, and after a digit an exponent.  Without a digit, or
without one in an exponent begun, the value is 0 with `failbit`.  The value is `m * 10^e`. -/
def getDbl (r : List Char) : Strm × Int × Int :=
  let neg := r.head? == some '-'
  let r1 := if neg || r.head? == some '+' then r.tail else r
  let ip := r1.takeWhile isDig
  let r2 := r1.dropWhile isDig
  let dot := r2.head? == some '.'
  let fp := if dot then r2.tail.takeWhile isDig else []
  let r3 := if dot then r2.tail.dropWhile isDig else r2
  if (ip ++ fp).isEmpty then (⟨r3, r3.isEmpty, true⟩, 0, 0)
  else
    let m : Int := if neg then -(digVal 0 (ip ++ fp) : Int) else digVal 0 (ip ++ fp)
    if r3.head? == some 'e' || r3.head? == some 'E' then
      let r4 := r3.tail
      let xneg := r4.head? == some '-'
      let r5 := if xneg || r4.head? == some '+' then r4.tail else r4
      let xs := r5.takeWhile isDig
      let r6 := r5.dropWhile isDig
      if xs.isEmpty then (⟨r6, r6.isEmpty, true⟩, 0, 0)
      else (⟨r6, r6.isEmpty, false⟩, m, (if xneg then -(digVal 0 xs : Int) else digVal 0 xs) - fp.length)
    else (⟨r3, r3.isEmpty, false⟩, m, -(fp.length : Int))

/-- `f >> d` for a `double`; `none` leaves the variable as it was. -/
def _root_.Verif.IO.Strm.dbl (s : Strm) : Strm × Option (Int × Int) :=
  match s.sentry with
  | (s', false) => (s', none)
  | (s', true) => ((getDbl s'.rest).1, some (getDbl s'.rest).2)

/-- The loops over the matrix (examples/tsptw.cpp:69-75): each round reads a `double` that had no value. -/
def fillDbl (n : Nat) : List (List (Nat × Nat)) → Strm → DMat → Res (DMat × Strm)
  | [], s, m => .ok (m, s)
  | ps :: pss, s, m =>
    let r := s.dbl
    match r.2 with
    | none => .ub
    | some x =>
      match decInt x.1 x.2 with
      | none => .more
      | some v =>
        match putCells n v ps m with
        | none => .ub
        | some m' => fillDbl n pss r.1 m'

/-- The loop over the time windows (examples/tsptw.cpp:77-81): each round reads two `int` that had no value and stores them. -/
def readWins : Nat → Strm → Res (List (Int × Int))
  | 0, _ => .ok []
  | k + 1, s =>
    let ra := s.int
    let rb := ra.1.int
    match ra.2, rb.2 with
    | some a, some b =>
      match readWins k rb.1 with
      | .ok ws => .ok ((a, b) :: ws)
      | .ub => .ub
      | .more => .more
    | _, _ => .ub

/-- `Instance` (examples/tsptw.cpp:34-43): `nv`, `d`, `twin`. -/
structure TwFile where
  nv : Nat
  d : DMat
  twin : List (Int × Int)

/-- `readFile` (examples/tsptw.cpp:59-86). -/
def readTw (f : Strm) : Res TwFile :=
  let r := f.skip.size
  match r.2 with
  | none => .ub
  | some n =>
    match fillDbl n (fullRounds n) r.1.skip (newMat n) with
    | .ub => .ub
    | .more => .more
    | .ok (m, s) =>
      match readWins n s.skip with
      | .ub => .ub
      | .more => .more
      | .ok ws => if allSet n m then .ok ⟨n, m, ws⟩ else .ub

/-- What `main` gives to its lambdas (examples/tsptw.cpp:115-119): the cities and the distances; the time windows are bound to a name no lambda uses. -/
def TwFile.tsp4 (F : TwFile) : Tsp4 := (TFile.mk F.nv F.d).tsp4

end Verif.Ex
