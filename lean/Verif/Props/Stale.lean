import Verif.Props.BB
import Verif.Props.Exact
/-!
# C75: a state reached by label sequences of different lengths

`Relaxed::compute` raises the bound of a node it reaches again (src/dd.cpp:721-725) but expands a node
only once (727-730).  A node expanded before its last parent keeps its kids at the old bound.
The layered case is C11 (`relaxed_dual`); the exact diagram, which computes bounds in topological order
afterwards, is right on these models too (`exact_optimum`).
-/
namespace Verif.BB
open Verif.DD

/-- State 1 is reached directly at 1 and through 2 at 15.  No merge, local bound or dominance. -/
def f7 : Mdl Nat := gm .max [(0,0,1,1), (0,1,2,5), (2,0,1,10), (1,0,3,0), (3,0,9,0)] [] 9
def f7mu (s : Nat) : Nat := [0, 2, 1, 3].getD s 4

theorem f7_reach : ∀ s ls c, Path f7 0 ls c s → s ∈ [0, 1, 2, 3, 9] := by
  have : ∀ s, s ∈ [0, 1, 2, 3, 9] → ∀ ls c t, Path f7 s ls c t → t ∈ [0, 1, 2, 3, 9] := by
    intro s hs ls c t hp
    induction hp with
    | nil => exact hs
    | @cons s s' t l ls c h _ ih =>
      apply ih
      have hc : ∀ x, x ∈ [0, 1, 2, 3, 9] → (f7.lgf x).all (fun l => match f7.stf x l with
        | none => true
        | some y => decide (y ∈ [0, 1, 2, 3, 9])) = true := by decide
      have := hc s hs
      rw [List.all_eq_true] at this
      have := this l h.2.1
      rw [h.2.2] at this
      simpa using this
  intro s ls c hp
  exact this 0 (by simp) ls c s hp

theorem f7_acyc : Acyc f7 0 f7mu := by
  intro s ls c hp l s' h
  have hc : ∀ x, x ∈ [0, 1, 2, 3, 9] → (f7.lgf x).all (fun l => match f7.stf x l with
    | none => true
    | some y => decide (f7mu x < f7mu y)) = true := by decide
  have := hc s (f7_reach s ls c hp)
  rw [List.all_eq_true] at this
  have := this l h.2.1
  rw [h.2.2] at this
  simpa using this

theorem f7_sol : Sol f7 [1, 0, 0, 0] 15 :=
  (Path.cons (s' := 2) ⟨by decide, by decide, by decide⟩ (Path.cons (s' := 1) ⟨by decide, by decide, by decide⟩
    (Path.cons (s' := 3) ⟨by decide, by decide, by decide⟩ (Path.cons (s' := 9) ⟨by decide, by decide, by decide⟩
    (Path.nil 9)))) : Path f7 0 [1, 0, 0, 0] (5 + (10 + (0 + (0 + 0)))) 9)

/-- The value of a relaxed diagram that merged nothing is no dual bound on a finite acyclic model. -/
theorem stale_dual_false : ¬ ∀ (m : Mdl Nat) (μ : Nat → Nat) (prim : Int) (w f : Nat) (g : G Nat),
    Acyc m m.sti μ → m.eqs m.stt = true → m.eqs m.sti = false → m.loc = none → m.sdom = none → (∀ a b, m.smf a b = none) →
    relaxed m prim w f m.src0 = some g → g.exact = true →
    ∀ ls c, Sol m ls c → m.sense.better c prim = true → m.sense.betterEQ (g.bound g.trg) c = true := by
  intro H
  have hv : (relaxed f7 (-2147483647) 10 10 f7.src0).map (fun g => (g.exact, g.bound g.trg)) = some (true, 1) := by decide +kernel
  simp only [Option.map_eq_some_iff] at hv
  obtain ⟨g, h1, h2⟩ := hv
  simp at h2
  have := H f7 f7mu _ 10 10 g f7_acyc (by decide) (by decide) rfl rfl (fun _ _ => rfl) h1 h2.1 _ _ f7_sol (by decide)
  rw [h2.2] at this
  revert this; decide

/-- And the search then returns 1 as the optimum although 15 is possible. -/
theorem stale_search_false : ∃ s, Acyc f7 f7.sti f7mu ∧ search f7 1 50 (fun _ => false) 50 (-2147483647) = some s ∧
    s.stopped = false ∧ Heap.empty s.pq = true ∧ s.primal = 1 ∧ Sol f7 [1, 0, 0, 0] 15 := by
  have hv : (search f7 1 50 (fun _ => false) 50 (-2147483647)).map (fun s => (s.stopped, Heap.empty s.pq, s.primal)) =
      some (false, true, 1) := by decide +kernel
  simp only [Option.map_eq_some_iff] at hv
  obtain ⟨s, h1, h2⟩ := hv
  simp at h2
  exact ⟨s, f7_acyc, h1, h2.1, h2.2.1, h2.2.2, f7_sol⟩

end Verif.BB
