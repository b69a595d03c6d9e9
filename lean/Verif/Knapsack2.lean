import Verif.Knapsack
/-!
# The second knapsack example (examples/knapsack2.cpp)

Same instances as the first (`Knap`), with a local bound, a dominance rule and an initial primal bound.
-/
namespace Verif.Ex
open Verif.DD

/-! ### `double` arithmetic of the local bound -/

/-- `a / b` to the nearest integer, ties to even. -/
def rne (a b : Nat) : Nat :=
  if 2 * (a % b) < b ∨ (2 * (a % b) = b ∧ a / b % 2 = 0) then a / b else a / b + 1

/-- `m / 2^k` to 53 significant bits. -/
def rnd53 (m k : Nat) : Nat × Nat :=
  let s := Nat.log2 m + 1 - 53
  if s = 0 then (m, k) else (rne m (2 ^ s), k - s)

/-- `(double)a / b` for 0 < a < b, as `m / 2^k` with `m` of 53 bits; IEEE-754 binary64, round to
nearest even. -/
def fdiv (a b : Nat) : Nat × Nat :=
  let k0 := 53 + Nat.log2 b - Nat.log2 a
  let k := if a * 2 ^ k0 / b < 2 ^ 53 then k0 else k0 - 1
  (rne (a * 2 ^ k) b, k)

/-- `std::floor(((double)rc / w) * p)` (examples/knapsack2.cpp:129), for 0 ≤ rc < w < 2^53, 0 ≤ p. -/
def floorF (rc w p : Int) : Int :=
  if rc ≤ 0 ∨ p ≤ 0 then 0
  else
    let q := fdiv rc.toNat w.toNat
    let x := rnd53 (q.1 * p.toNat) q.2
    ((x.1 / 2 ^ x.2 : Nat) : Int)

/-- The same over the rationals. -/
def floorQ (rc w p : Int) : Int := rc * p / w

/-! ### The model -/

/-- Loop of `local` (examples/knapsack2.cpp:121-133) from item `i` with capacity `rc`; `fl` is the
rounded last term. -/
def Knap.locL (k : Knap) (fl : Int → Int → Int → Int) : Nat → Nat → Int → Int
  | 0, _, _ => 0
  | d + 1, i, rc => if k.w i ≤ rc then k.p i + k.locL fl d (i + 1) (rc - k.w i) else fl rc (k.w i) (k.p i)

/-- `local` (examples/knapsack2.cpp:121-133). -/
def Knap.loc2 (k : Knap) (fl : Int → Int → Int → Int) (s : Nat × Int) : Int := k.locL fl (k.I - s.1) s.1 s.2

/-- The lambdas of `main` (examples/knapsack2.cpp:110-143).  The code is `k.mdl2 floorF`. -/
def Knap.mdl2 (k : Knap) (fl : Int → Int → Int → Int) : Mdl (Nat × Int) where
  sense := .max
  sti := (0, k.capa)
  stt := (k.I, 0)
  lgf := fun s => if s.2 ≥ k.w s.1 then [0, 1] else [0]
  stf := fun s l => if s.1 + 1 < k.I then some (s.1 + 1, s.2 - l * k.w s.1) else some (k.I, 0)
  stc := fun s l => k.p s.1 * l
  smf := fun a b => if (a.2 - b.2).natAbs ≤ 1 then some (max a.1 b.1, max a.2 b.2) else none
  eqs := fun s => s.1 == k.I
  loc := some fun s _ => k.loc2 fl s
  sdom := some fun a b => decide (a.2 ≥ b.2)

/-- `getUB` (examples/knapsack2.cpp:41-53) from item `cnt`; `none` reads behind the vector. -/
def Knap.ubLoop (k : Knap) : Nat → Nat → Int → Int → Option Int
  | 0, _, _, _ => none
  | d + 1, cnt, rC, val =>
    if 0 ≤ rC then
      if k.w cnt ≤ rC then k.ubLoop d (cnt + 1) (rC - k.w cnt) (val + k.p cnt) else some val
    else some val

/-- `getUB`. -/
def Knap.getUB (k : Knap) : Option Int := k.ubLoop k.I 0 k.capa 0

end Verif.Ex
