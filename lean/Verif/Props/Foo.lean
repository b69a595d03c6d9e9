import Verif.Foo
import Verif.Check
import Verif.Props.BB
/-!
# C63: the first example
-/
namespace Verif.Ex
open Verif.DD Verif.BB

/-- Three unconnected vertices of weight 1. -/
def e3 : Foo := ⟨4, fun i j => decide (i = j), fun _ => 1⟩

/-- C63 is false: the intersection merge is no relaxation.  Merging {2,3} with {3} gives {3}, whose completions are all lighter
than the completion 2,3 of {2,3}. -/
theorem foo_merge_false : ¬ ∀ (f : Foo) (a b c : Nat), (∃ ls v, Path f.mdl f.mdl.sti ls v a) → (∃ ls v, Path f.mdl f.mdl.sti ls v b) →
    f.mdl.smf a b = some c → Cover f.mdl c a := by
  intro h
  have s1 : Step e3.mdl e3.mdl.sti 1 12 := ⟨by decide, by decide, by decide⟩
  have s2 : Step e3.mdl e3.mdl.sti 2 8 := ⟨by decide, by decide, by decide⟩
  have h := h e3 12 8 8 ⟨_, _, Path.cons s1 (Path.nil _)⟩ ⟨_, _, Path.cons s2 (Path.nil _)⟩ (by decide)
  have t1 : Step e3.mdl 12 2 8 := ⟨by decide, by decide, by decide⟩
  have t2 : Step e3.mdl 8 3 0 := ⟨by decide, by decide, by decide⟩
  obtain ⟨c, hc, hb⟩ := h 2 ⟨_, Path.cons t1 (Path.cons t2 (Path.nil _))⟩
  have hcl : closedChk e3.mdl 3 (closeR e3.mdl (fun _ => 0) 3) = true := by decide +kernel
  have := vals_complete (m := e3.mdl) (N := 3) (by decide) hcl (s := 8) (v := 1) (by decide +kernel) hc.choose_spec rfl
  have hall : ∀ c, c ∈ vals e3.mdl 3 8 → c ≤ 1 := by decide +kernel
  have := hall c this
  simp [Foo.mdl, Sense.betterEQ] at hb
  omega

/-- With the engine: at width 1 the "upper bound" on these three vertices is 2, and choosing all three gives 3. -/
theorem foo_dual_false : ∃ g, relaxed e3.mdl (-2147483647) 1 10 e3.mdl.src0 = some g ∧ g.bound g.trg = 2 ∧ Sol e3.mdl [1, 2, 3] 3 := by
  have hv : (relaxed e3.mdl (-2147483647) 1 10 e3.mdl.src0).map (fun g => g.bound g.trg) = some 2 := by decide +kernel
  simp only [Option.map_eq_some_iff] at hv
  obtain ⟨g, h1, h2⟩ := hv
  have s1 : Step e3.mdl e3.mdl.sti 1 12 := ⟨by decide, by decide, by decide⟩
  have t1 : Step e3.mdl 12 2 8 := ⟨by decide, by decide, by decide⟩
  have t2 : Step e3.mdl 8 3 0 := ⟨by decide, by decide, by decide⟩
  exact ⟨g, h1, h2, Path.cons s1 (Path.cons t1 (Path.cons t2 (Path.nil _)))⟩

/-- Layer of a state of the program's own instance. -/
def fooRank (s : Nat) : Nat := if s = 62 then 0 else 1

/-- C63, what holds: on the graph the program ships with, merges are valid relaxations and the model meets the engine's
hypotheses. -/
theorem foo_ship_partial : Layered fooInst.mdl fooRank fooInst.mdl.sti 0 :=
  layChk_sound 4 (closeR fooInst.mdl fooRank 4) (by decide +kernel)

/-- Yet the program, which asks for width 1 (examples/foo.cpp:122), ends with 10 although vertices 2 and 5 weigh 11: the cut
set is the root and the widened root is dropped (C21). -/
theorem foo_ship_answer : ∃ s, search fooInst.mdl 1 50 (fun _ => false) 50 (-2147483647) = some s ∧ s.primal = 10 ∧ Heap.empty s.pq = true ∧
    Sol fooInst.mdl [2, 5] 11 := by
  have hv : (search fooInst.mdl 1 50 (fun _ => false) 50 (-2147483647)).map (fun s => (s.primal, Heap.empty s.pq)) = some (10, true) := by decide +kernel
  simp only [Option.map_eq_some_iff] at hv
  obtain ⟨s, h1, h2⟩ := hv
  simp at h2
  have s1 : Step fooInst.mdl fooInst.mdl.sti 2 32 := ⟨by decide, by decide, by decide⟩
  have t1 : Step fooInst.mdl 32 5 0 := ⟨by decide, by decide, by decide⟩
  exact ⟨s, h1, h2.1, h2.2, Path.cons s1 (Path.cons t1 (Path.nil _))⟩

end Verif.Ex
