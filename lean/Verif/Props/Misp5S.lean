import Verif.Props.Misp1
/-!
# C85: the search on the misp5 example; C86: the checker of misp.cpp
-/
namespace Verif.Ex
open Verif.DD

variable (g : Misp)

/-- `c` is the largest weight of an independent set given by a 0/1 label per vertex. -/
def Misp.Heaviest01 (g : Misp) (c : Int) : Prop :=
  (∃ ls, g.Ind ls ∧ g.wt 0 ls = c) ∧ ∀ ls, ls.length = g.top → g.Ind ls → g.wt 0 ls ≤ c

/-- C85: everything the search reports is an independent set with its weight. -/
theorem misp_search_sound (hw : ∀ i, 0 ≤ g.w i) (ht : 0 < g.top) {w dfuel fuel : Nat} {lim : Nat → Bool} {s : BB.BS MispS}
    (h : BB.search g.mdl w dfuel lim fuel (-2147483647) = some s) : ∀ x, x ∈ s.sols → g.Ind x.2 ∧ x.1 = g.wt 0 x.2 := by
  intro x hx
  exact g.sol_ind ht ((BB.search_sound (g.layered hw (g.live0 ht) (by omega)) rfl h).1 x hx)

theorem Misp.rankBound (hw : ∀ i, 0 ≤ g.w i) (ht : 0 < g.top) : RankBound g.mdl g.rank g.mdl.sti 0 g.top := by
  intro x v h _
  rcases (g.relx hw (g.live0 ht) h).1 with hx | rfl
  · exact Nat.le_of_lt hx.lt
  · exact Nat.le_refl _

/-- C85: the search ends. -/
theorem misp_search_ends (hw : ∀ i, 0 ≤ g.w i) (ht : 0 < g.top) (w : Nat) {dfuel : Nat} (hf : g.top + 2 ≤ dfuel) (lim : Nat → Bool) :
    ∃ N, ∀ fuel, N < fuel → ∃ s, BB.search g.mdl w dfuel lim fuel (-2147483647) = some s ∧ (s.stopped = true ∨ Heap.empty s.pq = true) :=
  BB.search_ends (g.layered hw (g.live0 ht) (by omega)) rfl (g.rankBound hw ht) w hf lim

theorem Misp.ind_zero : g.Ind (List.replicate g.top 0) := by
  have hz : ∀ i, (List.replicate g.top (0 : Int)).getD i 0 = 0 := by
    intro i
    rw [List.getD_eq_getElem?_getD]
    by_cases hi : i < g.top
    · rw [List.getElem?_eq_getElem (by simpa using hi)]; simp
    · rw [List.getElem?_eq_none (by simpa using hi)]; rfl
  refine ⟨by simp, fun l hl => .inl (List.eq_of_mem_replicate hl), fun i j _ hi => ?_⟩
  rw [hz] at hi
  omega

theorem Misp.wt_zero : ∀ (k n : Nat), g.wt n (List.replicate k 0) = 0 := by
  intro k
  induction k with
  | zero => intro n; rfl
  | succ k ih => intro n; simp [List.replicate_succ, Misp.wt, ih]

theorem Misp.answer (ht : 0 < g.top) {p : Int} {inc : List Int} (h1 : ∀ ls c, Sol g.mdl ls c → g.mdl.sense.betterEQ p c = true)
    (h2 : Sol g.mdl inc p ∨ (p = -2147483647 ∧ ∀ ls c, Sol g.mdl ls c → g.mdl.sense.better c (-2147483647) = false)) :
    g.Heaviest01 p ∧ g.Ind inc ∧ g.wt 0 inc = p := by
  have hle : ∀ ls, ls.length = g.top → g.Ind ls → g.wt 0 ls ≤ p := by
    intro ls hl hi
    obtain ⟨k, hk, _⟩ := g.ind_sol ht hl hi
    have := h1 _ _ hk
    simpa [Misp.mdl, Sense.betterEQ] using this
  rcases h2 with h2 | ⟨h2, _⟩
  · obtain ⟨a, b⟩ := g.sol_ind ht h2
    exact ⟨⟨⟨inc, a, b.symm⟩, hle⟩, a, b.symm⟩
  · have := hle _ (by simp) g.ind_zero
    rw [g.wt_zero] at this
    omega

/-- C85: with a width no layer exceeds, the search ends with a heaviest independent set. -/
theorem misp_search_room (hw : ∀ i, 0 ≤ g.w i) (ht : 0 < g.top) {w dfuel fuel : Nat} (hR : Room g.mdl g.rank g.mdl.sti w)
    {lim : Nat → Bool} {s : BB.BS MispS} (h : BB.search g.mdl w dfuel lim fuel (-2147483647) = some s) (hns : s.stopped = false) :
    g.Heaviest01 s.primal ∧ g.Ind s.inc ∧ g.wt 0 s.inc = s.primal := by
  obtain ⟨h1, h2⟩ := BB.search_room (g.layered hw (g.live0 ht) (by omega)) rfl (fun hl => by simp [Misp.mdl] at hl) hR h hns
  exact g.answer ht h1 h2

/-- C85, for any width: if along the run nothing was dropped for a bad reason (`okLoop`), the search ends
with a heaviest independent set. -/
theorem misp_search_partial (hw : ∀ i, 0 ≤ g.w i) (ht : 0 < g.top) {w dfuel fuel : Nat} {lim : Nat → Bool} {s : BB.BS MispS}
    (h : BB.search g.mdl w dfuel lim fuel (-2147483647) = some s)
    (hok : BB.okLoop g.mdl w dfuel lim fuel 0 (BB.init g.mdl w (-2147483647)) = true) (hns : s.stopped = false) :
    g.Heaviest01 s.primal ∧ g.Ind s.inc ∧ g.wt 0 s.inc = s.primal := by
  obtain ⟨h1, h2⟩ := BB.search_answer_partial (g.layered hw (g.live0 ht) (by omega)) (by intro sd hsd; simp [Misp.mdl] at hsd)
    rfl (fun hl => by simp [Misp.mdl] at hl) h hok hns
  exact g.answer ht h1 h2

/-- Twelve vertices, eleven edges, all weights 1. -/
def g12 : Misp := ⟨12, [(9, 11), (1, 11), (1, 10), (8, 9), (7, 8), (4, 7), (3, 6), (2, 5), (1, 4), (1, 3), (0, 2)], fun _ => 1⟩

/-- C85 is false for small widths: on this forest with width 2 the program ends with 6, although seven
vertices are independent. -/
theorem misp_search_false : ∃ s, BB.search g12.mdl 2 30 (fun _ => false) 200 (-2147483647) = some s ∧
    s.stopped = false ∧ Heap.empty s.pq = true ∧ s.primal = 6 ∧ g12.IndV [0, 3, 4, 5, 8, 10, 11] ∧ g12.wts [0, 3, 4, 5, 8, 10, 11] = 7 := by
  have hv : (BB.search g12.mdl 2 30 (fun _ => false) 200 (-2147483647)).map (fun s => (s.stopped, Heap.empty s.pq, s.primal)) =
      some (false, true, 6) := by decide +kernel
  simp only [Option.map_eq_some_iff] at hv
  obtain ⟨s, h1, h2⟩ := hv
  simp at h2
  exact ⟨s, h1, h2.1, h2.2.1, h2.2.2, ⟨by decide, by decide⟩, by decide⟩

/-- Three vertices and one edge suffice at width 1. -/
theorem misp_search_false1 : ∃ s, BB.search (⟨3, [(0, 1)], fun _ => 1⟩ : Misp).mdl 1 10 (fun _ => false) 20 (-2147483647) = some s ∧
    s.stopped = false ∧ Heap.empty s.pq = true ∧ s.primal = 1 ∧ (⟨3, [(0, 1)], fun _ => 1⟩ : Misp).IndV [0, 2] ∧
    (⟨3, [(0, 1)], fun _ => 1⟩ : Misp).wts [0, 2] = 2 := by
  have hv : (BB.search (⟨3, [(0, 1)], fun _ => 1⟩ : Misp).mdl 1 10 (fun _ => false) 20 (-2147483647)).map
      (fun s => (s.stopped, Heap.empty s.pq, s.primal)) = some (false, true, 1) := by decide +kernel
  simp only [Option.map_eq_some_iff] at hv
  obtain ⟨s, h1, h2⟩ := hv
  simp at h2
  exact ⟨s, h1, h2.1, h2.2.1, h2.2.2, ⟨by decide, by decide⟩, by decide⟩

/-- The weighted 5-cycle, width 2. -/
example : ∃ s, BB.search c5.mdl 2 20 (fun _ => false) 50 (-2147483647) = some s ∧ s.primal = 11 ∧ c5.Heaviest01 11 := by
  have hv : (BB.search c5.mdl 2 20 (fun _ => false) 50 (-2147483647)).map (fun s => (s.stopped, s.primal)) =
      some (false, 11) := by decide +kernel
  simp only [Option.map_eq_some_iff] at hv
  obtain ⟨s, h1, h2⟩ := hv
  simp at h2
  obtain ⟨a, _⟩ := misp_search_partial c5 c5_w (by decide) h1 (by decide +kernel) h2.1
  rw [h2.2] at a
  exact ⟨s, h1, h2.2, a⟩

/-- Room for every layer: the same cycle at width 16. -/
example : ∃ s, BB.search c5.mdl 16 20 (fun _ => false) 50 (-2147483647) = some s ∧ c5.Heaviest01 s.primal := by
  have hv : (BB.search c5.mdl 16 20 (fun _ => false) 50 (-2147483647)).map (fun s => (s.stopped, s.primal)) =
      some (false, 11) := by decide +kernel
  simp only [Option.map_eq_some_iff] at hv
  obtain ⟨s, h1, h2⟩ := hv
  simp at h2
  have hR := BB.room_level (c5.layered c5_w (c5.live0 (by decide)) (by omega)) (c5.rankBound c5_w (by decide)) (w := 16) (fun d hd => by
      have : ∀ d, d < 6 → (BB.level c5.mdl d).length ≤ 16 := by decide +kernel
      exact this d (by have : c5.top = 5 := rfl; omega))
  exact ⟨s, h1, (misp_search_room c5 c5_w (by decide) hR h1 h2.1).1⟩

/-! ### C86: the edge loop of the checkers -/

/-- The checker's loop (examples/misp.cpp:126-138, the same in misp5.cpp:109-119) reads its argument as one
0/1 label per vertex: it is right for such vectors. -/
theorem misp_checker (hs : ∀ i, (i, i) ∉ g.edges) {ls : List Int} (h01 : ∀ l, l ∈ ls → l = 0 ∨ l = 1) (hl : ls.length ≤ g.top) :
    g.chkEdges ls = true ↔ g.Ind ls := by
  have hin : ∀ i, (if i < ls.length then decide (ls.getD i 0 ≠ 0) else false) = decide (ls.getD i 0 = 1) := by
    intro i
    by_cases hi : i < ls.length
    · rw [if_pos hi, List.getD_eq_getElem?_getD, List.getElem?_eq_getElem hi]
      rcases h01 _ (List.getElem_mem hi) with h | h <;> simp [h]
    · rw [if_neg hi, List.getD_eq_getElem?_getD, List.getElem?_eq_none (by omega)]
      rfl
  unfold Misp.chkEdges Misp.Ind
  rw [List.all_eq_true]
  constructor
  · intro h
    refine ⟨hl, h01, fun i j _ hi hj he => ?_⟩
    have := h _ he
    rw [hin, hin, hi, hj] at this
    simp at this
  · rintro ⟨_, _, h⟩ ⟨i, j⟩ he
    rw [hin, hin]
    dsimp only
    by_cases e : i = j
    · subst e; exact absurd he (hs i)
    · by_cases hi : ls.getD i 0 = 1
      · by_cases hj : ls.getD j 0 = 1
        · exact absurd he (h i j e hi hj)
        · rw [decide_eq_false hj, Bool.and_false]; rfl
      · rw [decide_eq_false hi, Bool.false_and]; rfl

/-- C86 for misp5: the checker accepts every solution. -/
theorem misp_checker_ok (ht : 0 < g.top) (hs : ∀ i, (i, i) ∉ g.edges) {ls : List Int} {c : Int} (h : Sol g.mdl ls c) : g.chkEdges ls = true :=
  (misp_checker g hs (g.sol_ind ht h).1.2.1 (g.sol_ind ht h).1.1).2 (g.sol_ind ht h).1

example : c5.chkEdges [0, 1, 0, 0, 1] = true ∧ c5.chkEdges [0, 1, 0, 1, 1] = false := by decide

/-- Four vertices, two edges. -/
def g4e : Misp := ⟨4, [(0, 1), (0, 2)], fun _ => 1⟩

/-- C86 is false for misp.cpp, whose solutions list vertices: the checker reports failure (and with assertions
on stops the program) on the optimum of a graph with two edges, and it accepts the two ends of an edge. -/
theorem misp1_checker_false : (∃ s, BB.search g4e.mdl1 8 10 (fun _ => false) 20 (-2147483647) = some s ∧ s.stopped = false ∧
      s.inc = [1, 2, 3] ∧ s.primal = 3 ∧ g4e.chkEdges s.inc = false) ∧
    Sol g4e.mdl1 [1, 2, 3] 3 ∧ g4e.IndV [1, 2, 3] ∧ g4e.chkEdges [0, 1] = true ∧ ¬ g4e.IndV [0, 1] := by
  have hi : g4e.IndV [1, 2, 3] := ⟨by decide, by decide⟩
  refine ⟨?_, (misp1_sol g4e (by decide) _ _).2 ⟨[1, 2, 3], rfl, hi, ?_, by decide⟩, hi, by decide, fun h => ?_⟩
  · have hv : (BB.search g4e.mdl1 8 10 (fun _ => false) 20 (-2147483647)).map (fun s => (s.stopped, s.inc, s.primal)) =
        some (false, [1, 2, 3], 3) := by decide +kernel
    simp only [Option.map_eq_some_iff] at hv
    obtain ⟨s, h1, h2⟩ := hv
    simp at h2
    exact ⟨s, h1, h2.1, h2.2.1, h2.2.2, by rw [h2.2.1]; decide⟩
  · intro u hu h
    have := (h 3 (by simp)).1
    have hu' : u < 4 := hu
    omega
  · have := h.2
    revert this
    decide

end Verif.Ex
