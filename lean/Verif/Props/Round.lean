import Verif.RoundSearch
import Verif.Props.BB
import Verif.Props.Misp5S
import Verif.Props.Wide
/-!
# C136: what rounding of `double` does to the search

Costs, bounds and labels' costs are `double` in /repo (src/node.hpp:32, 47-48, src/dd.hpp:24, 98-99, src/search.cpp); the model
adds integers.  Here every addition is rounded by a function `fl`, and the theorems say when that makes no difference.
-/
namespace Verif
open DD BB

/-- The specification of a format: integers up to 2^53 in magnitude are represented exactly (IEEE 754 binary64). -/
def Exact53 (fl : Int → Int) : Prop := ∀ x : Int, x.natAbs ≤ 2 ^ 53 → fl x = x

/-- Rounding a natural number to 53 significant bits, to nearest, ties to even. -/
def dblNat (n : Nat) : Nat :=
  if n ≤ 2 ^ 53 then n
  else
    let e := n.log2 - 52
    let q := n / 2 ^ e
    let r := n % 2 ^ e
    (if 2 ^ e < 2 * r ∨ (2 * r = 2 ^ e ∧ q % 2 = 1) then q + 1 else q) * 2 ^ e

/-- The default rounding of a `double` addition whose exact result is the integer `x` (overflow to infinity, from 2^1024
on, left out). -/
def dbl (x : Int) : Int := if 0 ≤ x then (dblNat x.natAbs : Int) else -(dblNat x.natAbs : Int)

theorem dbl_exact : Exact53 dbl := by
  intro x hx
  unfold dbl dblNat
  rw [if_pos hx]
  split <;> omega

/-- The rounded value is at most half a unit in the last place away. -/
theorem dblNat_near (n : Nat) : 2 * ((dblNat n : Int) - n).natAbs ≤ 2 ^ (n.log2 - 52) := by
  unfold dblNat
  by_cases h : n ≤ 2 ^ 53
  · rw [if_pos h]; simp
  rw [if_neg h]
  dsimp only
  generalize hd : 2 ^ (n.log2 - 52) = d
  have hpos : 0 < d := by rw [← hd]; exact Nat.pow_pos (by omega)
  have hn := Nat.div_add_mod n d
  have hr := Nat.mod_lt n hpos
  generalize n / d = q at *
  generalize n % d = r at *
  rw [Nat.mul_comm] at hn
  generalize hk : q * d = k at *
  split
  · rw [Nat.add_mul, hk, Nat.one_mul]; omega
  · rw [hk]; omega

namespace BB
variable {σ : Type} [DecidableEq σ] {m : Mdl σ} {rank : σ → Nat}

/-- C136: the search with rounded additions is, step by step, the search over the integers, whatever the rounding, as
soon as it is exact up to 2^53 and `C·(2N+3) + L + INT_MAX ≤ 2^53`. -/
theorem searchFl_eq {fl : Int → Int} (hfl : Exact53 fl) (H : Layered m rank m.sti 0) {C L N : Nat}
    (S : Small m rank (fun _ _ => m) (fun _ _ => m.loc) C L N) (hr : reach C L N ≤ 2 ^ 53) {p0 : Int}
    (hp0 : m.sense.betterEQ p0 m.sense.best0 = true) (w dfuel : Nat) (lim : Nat → Bool) (fuel : Nat) :
    searchFl fl m w dfuel lim fuel p0 = search m w dfuel lim fuel p0 :=
  searchT_round (fun _ => Fam.const H) H S (fun x hx => hfl x (Nat.le_trans hx hr)) hp0 w dfuel lim fuel

/-- Hence the vectors handed to the callbacks are solutions of exactly the cost printed. -/
theorem searchFl_sound {fl : Int → Int} (hfl : Exact53 fl) (H : Layered m rank m.sti 0) {C L N : Nat}
    (S : Small m rank (fun _ _ => m) (fun _ _ => m.loc) C L N) (hr : reach C L N ≤ 2 ^ 53) {p0 : Int}
    (hp0 : m.sense.betterEQ p0 m.sense.best0 = true) {w dfuel fuel : Nat} {lim : Nat → Bool} {s : BS σ}
    (h : searchFl fl m w dfuel lim fuel p0 = some s) :
    (∀ x, x ∈ s.sols → Sol m x.2 x.1) ∧ (s.sols ≠ [] → Sol m s.inc s.primal) :=
  search_sound H hp0 (by rw [← searchFl_eq hfl H S hr hp0]; exact h)

/-- And it ends. -/
theorem searchFl_ends {fl : Int → Int} (hfl : Exact53 fl) (H : Layered m rank m.sti 0) {C L N : Nat}
    (S : Small m rank (fun _ _ => m) (fun _ _ => m.loc) C L N) (hr : reach C L N ≤ 2 ^ 53) {p0 : Int}
    (hp0 : m.sense.betterEQ p0 m.sense.best0 = true) (w : Nat) {dfuel : Nat} (hf : N + 2 ≤ dfuel) (lim : Nat → Bool) :
    ∃ K, ∀ fuel, K < fuel → ∃ s, searchFl fl m w dfuel lim fuel p0 = some s ∧ (s.stopped = true ∨ Heap.empty s.pq = true) := by
  obtain ⟨K, hK⟩ := search_ends H hp0 S.rk w hf lim
  refine ⟨K, fun fuel hfu => ?_⟩
  rw [searchFl_eq hfl H S hr hp0]
  exact hK fuel hfu

/-- And with a width no layer exceeds its answer is the optimum. -/
theorem searchFl_room {fl : Int → Int} (hfl : Exact53 fl) (H : Layered m rank m.sti 0) {C L N : Nat}
    (S : Small m rank (fun _ _ => m) (fun _ _ => m.loc) C L N) (hr : reach C L N ≤ 2 ^ 53) {p0 : Int}
    (hp0 : m.sense.betterEQ p0 m.sense.best0 = true)
    (hW : m.loc = none → ∀ ls c, Sol m ls c → m.sense.betterEQ m.sense.worst0 c = true)
    {w dfuel fuel : Nat} (hR : Room m rank m.sti w) {lim : Nat → Bool} {s : BS σ}
    (h : searchFl fl m w dfuel lim fuel p0 = some s) (hns : s.stopped = false) :
    (∀ ls c, Sol m ls c → m.sense.betterEQ s.primal c = true) ∧
    (Sol m s.inc s.primal ∨ (s.primal = p0 ∧ ∀ ls c, Sol m ls c → m.sense.better c p0 = false)) :=
  search_room H hp0 hW hR (by rw [← searchFl_eq hfl H S hr hp0]; exact h) hns

omit [DecidableEq σ] in
/-- Labels determine the cost. -/
theorem path_det {a b : σ} {ls : List Int} {c : Int} (h : Path m a ls c b) : ∀ {b' : σ} {c' : Int}, Path m a ls c' b' → c = c' ∧ b = b' := by
  induction h with
  | nil s => intro b' c' h'; cases h'; exact ⟨rfl, rfl⟩
  | cons hs _ ih =>
    intro b' c' h'
    cases h' with
    | cons hs' h2 =>
      have := hs.2.2.symm.trans hs'.2.2
      simp at this
      subst this
      obtain ⟨rfl, rfl⟩ := ih h2
      exact ⟨rfl, rfl⟩

end BB

/-! ### misp5 -/
namespace Ex
variable (g : Misp)

theorem Misp.sum_le {W : Nat} (hw : ∀ i, 0 ≤ g.w i ∧ g.w i ≤ W) (s : Nat) : 0 ≤ g.sum s ∧ g.sum s ≤ g.top * W := by
  have key : ∀ ls : List Nat, 0 ≤ (ls.map g.w).sum ∧ (ls.map g.w).sum ≤ ls.length * W := by
    intro ls
    induction ls with
    | nil => simp
    | cons a t ih =>
      have := hw a
      simp only [List.map_cons, List.sum_cons, List.length_cons, Int.natCast_add, Int.add_mul]
      omega
  have hk := key ((List.range g.top).filter (fun i => s.testBit i))
  have hl : ((List.range g.top).filter (fun i => s.testBit i)).length ≤ g.top := by
    have := List.length_filter_le (fun i => s.testBit i) (List.range g.top)
    simpa using this
  have : ((((List.range g.top).filter (fun i => s.testBit i)).length : Nat) : Int) * W ≤ g.top * W :=
    Int.mul_le_mul_of_nonneg_right (by omega) (by omega)
  exact ⟨hk.1, Int.le_trans hk.2 this⟩

/-- The numbers of misp5: weights up to `W`, `top` vertices. -/
theorem Misp.small {W : Nat} (hw : ∀ i, 0 ≤ g.w i ∧ g.w i ≤ W) (ht : 0 < g.top) :
    BB.Small g.mdl g.rank (fun _ _ => g.mdl) (fun _ _ => g.mdl.loc) W (g.top * W) g.top := by
  have hl : ∀ s : Nat, (g.sum s).natAbs ≤ g.top * W := by
    intro s
    obtain ⟨a, b⟩ := g.sum_le hw s
    have : ((g.top * W : Nat) : Int) = g.top * W := Int.natCast_mul _ _
    omega
  refine ⟨?_, ?_, ?_, g.rankBound (fun i => (hw i).1) ht⟩
  · intro s v l _ _ hm
    have := hw s.n
    simp [Misp.mdl] at hm
    rcases hm with rfl | rfl <;> simp [Misp.mdl] <;> omega
  · intro k p f hf s v c _
    simp [Misp.mdl] at hf
    subst hf
    exact hl _
  · intro k p f hf s v _
    simp [Misp.mdl] at hf
    subst hf
    exact hl _

/-- C136 for misp5: with weights of at most `W` and `W·(3·top+3) + INT_MAX ≤ 2^53`, doubles behave as integers.  The
program's own weights are 1 (examples/misp5.cpp:105), so this holds for every graph of up to 10^15 vertices. -/
theorem misp_round {W : Nat} (hw : ∀ i, 0 ≤ g.w i ∧ g.w i ≤ W) (ht : 0 < g.top) (hr : W * (3 * g.top + 3) + 2147483647 ≤ 2 ^ 53)
    {fl : Int → Int} (hfl : Exact53 fl) (w dfuel : Nat) (lim : Nat → Bool) (fuel : Nat) :
    BB.searchFl fl g.mdl w dfuel lim fuel (-2147483647) = BB.search g.mdl w dfuel lim fuel (-2147483647) := by
  refine BB.searchFl_eq hfl (g.layered (fun i => (hw i).1) (g.live0 ht) (by omega)) (g.small hw ht) ?_ rfl w dfuel lim fuel
  unfold BB.reach
  have : W * (2 * g.top + 3) + g.top * W = W * (3 * g.top + 3) := by
    rw [Nat.mul_comm g.top W, ← Nat.mul_add]
    congr 1; omega
  omega

/-- Hence its sets are independent and weigh what is printed. -/
theorem misp_round_sound {W : Nat} (hw : ∀ i, 0 ≤ g.w i ∧ g.w i ≤ W) (ht : 0 < g.top) (hr : W * (3 * g.top + 3) + 2147483647 ≤ 2 ^ 53)
    {fl : Int → Int} (hfl : Exact53 fl) {w dfuel fuel : Nat} {lim : Nat → Bool} {s : BB.BS MispS}
    (h : BB.searchFl fl g.mdl w dfuel lim fuel (-2147483647) = some s) : ∀ x, x ∈ s.sols → g.Ind x.2 ∧ x.1 = g.wt 0 x.2 :=
  misp_search_sound g (fun i => (hw i).1) ht (by rw [← misp_round g hw ht hr hfl]; exact h)

/-- The pentagon with weights of a million million. -/
example : BB.searchFl dbl (⟨5, [(0, 1), (1, 2), (2, 3), (3, 4), (4, 0)], fun _ => 10 ^ 12⟩ : Misp).mdl 2 10 (fun _ => false) 50 (-2147483647) =
    BB.search (⟨5, [(0, 1), (1, 2), (2, 3), (3, 4), (4, 0)], fun _ => 10 ^ 12⟩ : Misp).mdl 2 10 (fun _ => false) 50 (-2147483647) :=
  misp_round _ (W := 10 ^ 12) (fun _ => ⟨show (0 : Int) ≤ 10 ^ 12 by decide, show (10 ^ 12 : Int) ≤ ((10 ^ 12 : Nat) : Int) by decide⟩) (by decide) (by decide) dbl_exact _ _ _ _

end Ex

namespace BB
/-- Two arcs: 2^53, then 1. -/
def rd : Mdl Nat := gm .max [(0,0,1,9007199254740992), (1,0,9,1)] [] 9
def rdrank (s : Nat) : Nat := [0, 1].getD s 0
theorem rd_layered : Layered rd rdrank 0 0 := layChk_sound 3 (closeR rd rdrank 3) (by decide +kernel)

/-- Two routes: 2^53, 1, 1, 1 and 2^53, 2, 0, 0. -/
def rd2 : Mdl Nat := gm .max [(0,0,1,9007199254740992), (0,1,4,9007199254740992), (1,0,2,1), (2,0,3,1), (3,0,9,1), (4,0,5,2), (5,0,6,0), (6,0,9,0)] [] 9
def rd2rank (s : Nat) : Nat := [0, 1, 2, 3, 1, 2, 3].getD s 0
theorem rd2_layered : Layered rd2 rd2rank 0 0 := layChk_sound 5 (closeR rd2 rd2rank 5) (by decide +kernel)

/-- Beyond 2^53 the theorem fails: the search prints a value its incumbent does not have, and prefers the worse of two
solutions. -/
theorem round_matters :
    (∃ s, searchFl dbl rd 4 50 (fun _ => false) 50 (-2147483647) = some s ∧ s.stopped = false ∧ s.inc = [0, 0] ∧
      s.primal = 9007199254740992 ∧ Sol rd [0, 0] 9007199254740993 ∧ ¬ Sol rd s.inc s.primal) ∧
    (∃ s, searchFl dbl rd2 4 50 (fun _ => false) 50 (-2147483647) = some s ∧ s.stopped = false ∧ s.inc = [1, 0, 0, 0] ∧
      Sol rd2 [1, 0, 0, 0] 9007199254740994 ∧ Sol rd2 [0, 0, 0, 0] 9007199254740995) := by
  have hsol : Sol rd [0, 0] 9007199254740993 :=
    (Path.cons (s' := 1) ⟨by decide, by decide, by decide⟩ (Path.cons (s' := 9) ⟨by decide, by decide, by decide⟩ (Path.nil 9)) :
      Path rd 0 [0, 0] (9007199254740992 + (1 + 0)) 9)
  constructor
  · have hv : (searchFl dbl rd 4 50 (fun _ => false) 50 (-2147483647)).map (fun s => (s.stopped, s.inc, s.primal)) =
        some (false, [0, 0], 9007199254740992) := by decide +kernel
    simp only [Option.map_eq_some_iff] at hv
    obtain ⟨s, h1, h2⟩ := hv
    simp at h2
    refine ⟨s, h1, h2.1, h2.2.1, h2.2.2, hsol, fun hc => ?_⟩
    rw [h2.2.1, h2.2.2] at hc
    have := (path_det hc hsol).1
    simp at this
  · have hv : (searchFl dbl rd2 4 50 (fun _ => false) 50 (-2147483647)).map (fun s => (s.stopped, s.inc)) =
        some (false, [1, 0, 0, 0]) := by decide +kernel
    simp only [Option.map_eq_some_iff] at hv
    obtain ⟨s, h1, h2⟩ := hv
    simp at h2
    refine ⟨s, h1, h2.1, h2.2, ?_, ?_⟩
    · exact (Path.cons (s' := 4) ⟨by decide, by decide, by decide⟩ (Path.cons (s' := 5) ⟨by decide, by decide, by decide⟩
        (Path.cons (s' := 6) ⟨by decide, by decide, by decide⟩ (Path.cons (s' := 9) ⟨by decide, by decide, by decide⟩ (Path.nil 9)))) :
        Path rd2 0 [1, 0, 0, 0] (9007199254740992 + (2 + (0 + (0 + 0)))) 9)
    · exact (Path.cons (s' := 1) ⟨by decide, by decide, by decide⟩ (Path.cons (s' := 2) ⟨by decide, by decide, by decide⟩
        (Path.cons (s' := 3) ⟨by decide, by decide, by decide⟩ (Path.cons (s' := 9) ⟨by decide, by decide, by decide⟩ (Path.nil 9)))) :
        Path rd2 0 [0, 0, 0, 0] (9007199254740992 + (1 + (1 + (1 + 0)))) 9)

end BB
end Verif
