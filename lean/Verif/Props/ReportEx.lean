import Verif.Props.Report
import Verif.Props.MispRoom
import Verif.Props.Misp5S
import Verif.Props.Misp1
import Verif.Props.KnapsackS
/-!
# C130: runs of the report, and what it does not say
-/
namespace Verif.BB
open Verif.DD

/-- C130 is false in general: the dual column of a search that loses solutions is no bound.  The last line of `f3` at width 2 shows
dual 19 and primal 61, while `[1,0,0,1,0]` costs 14. -/
theorem report_dual_false : ∃ s r, Layered f3 f3rank 0 0 ∧ searchR f3 2 50 (fun _ => false) (fun _ => true) 50 2147483647 = some (s, r) ∧
    ⟨3, 19, 61⟩ ∈ r.lines ∧ Sol f3 [1, 0, 0, 1, 0] 14 := by
  have hv : (searchR f3 2 50 (fun _ => false) (fun _ => true) 50 2147483647).map (fun a => a.2.lines) =
      some [⟨0, -2147483647, 2147483647⟩, ⟨1, -10, 106⟩, ⟨2, 14, 61⟩, ⟨3, 19, 61⟩] := by decide +kernel
  simp only [Option.map_eq_some_iff] at hv
  obtain ⟨⟨s, r⟩, h1, h2⟩ := hv
  exact ⟨s, r, f3_layered, h1, by rw [show r.lines = _ from h2]; simp,
    (Path.cons (s' := 2) ⟨by decide, by decide, by decide⟩ (Path.cons (s' := 3) ⟨by decide, by decide, by decide⟩
      (Path.cons (s' := 20) ⟨by decide, by decide, by decide⟩ (Path.cons (s' := 9) ⟨by decide, by decide, by decide⟩
      (Path.cons (s' := 99) ⟨by decide, by decide, by decide⟩ (Path.nil 99))))) : Path f3 0 [1, 0, 0, 1, 0] (0 + (5 + (0 + (8 + (1 + 0))))) 99)⟩

/-- `f3` with a valid local bound that gets better along the first transition. -/
def f3l : Mdl Nat :=
  { f3 with
    loc := some fun s c => match s, c with
      | 0, .bb => 14
      | _, _ => -1000 }

/-- C130: with such a bound the dual column starts at 14, the optimum, and then falls to -1000. -/
theorem report_mono_false : ∃ s r, Layered f3l f3rank 0 0 ∧ searchR f3l 2 50 (fun _ => false) (fun _ => true) 50 2147483647 = some (s, r) ∧
    r.lines.map (·.key) = [14, -1000, -1000, -990] := by
  have hv : (searchR f3l 2 50 (fun _ => false) (fun _ => true) 50 2147483647).map (fun a => a.2.lines.map (·.key)) =
      some [14, -1000, -1000, -990] := by decide +kernel
  simp only [Option.map_eq_some_iff] at hv
  obtain ⟨⟨s, r⟩, h1, h2⟩ := hv
  exact ⟨s, r, layChk_sound 7 (closeR f3 f3rank 7) (by decide +kernel), h1, h2⟩

/-- C130 is false: "LIM?" is 0 although the time limit stopped the search and a better solution exists, because the node that was
just taken from the queue does not count. -/
theorem report_limit_false : ∃ s r, Layered f3 f3rank 0 0 ∧ searchR f3 3 50 (fun k => k == 1) (fun _ => false) 50 2147483647 = some (s, r) ∧
    s.stopped = true ∧ s.limit = false ∧ s.primal = 61 ∧ Sol f3 [1, 0, 0, 1, 0] 14 := by
  have hv : (searchR f3 3 50 (fun k => k == 1) (fun _ => false) 50 2147483647).map (fun a => (a.1.stopped, a.1.limit, a.1.primal)) =
      some (true, false, 61) := by decide +kernel
  simp only [Option.map_eq_some_iff] at hv
  obtain ⟨⟨s, r⟩, h1, h2⟩ := hv
  simp at h2
  exact ⟨s, r, f3_layered, h1, h2.1, h2.2.1, h2.2.2,
    (Path.cons (s' := 2) ⟨by decide, by decide, by decide⟩ (Path.cons (s' := 3) ⟨by decide, by decide, by decide⟩
      (Path.cons (s' := 20) ⟨by decide, by decide, by decide⟩ (Path.cons (s' := 9) ⟨by decide, by decide, by decide⟩
      (Path.cons (s' := 99) ⟨by decide, by decide, by decide⟩ (Path.nil 99))))) : Path f3 0 [1, 0, 0, 1, 0] (0 + (5 + (0 + (8 + (1 + 0))))) 99)⟩

/-- C130: a negative primal bound turns the percentage negative, and a zero one prints no percentage even when the dual bound is
as close as can be. -/
theorem gap_false : PLine.gap ⟨1, 10, -5⟩ = .pct 1500 (-5) ∧ PLine.gap ⟨1, 1, 0⟩ = .dash ∧ PLine.gap ⟨1, 0, 0⟩ = .nan :=
  ⟨rfl, rfl, rfl⟩

/-- A maximisation that starts without a solution prints about -100 % until it has found one. -/
example : ∃ s r, searchR kn.mdl 2 50 (fun _ => false) (fun _ => true) 50 (-2147483647) = some (s, r) ∧
    r.lines.map PLine.gap = [.pct 429496729400 (-2147483647), .pct 500 95] := by
  have hv : (searchR kn.mdl 2 50 (fun _ => false) (fun _ => true) 50 (-2147483647)).map (fun a => a.2.lines.map PLine.gap) =
      some [.pct 429496729400 (-2147483647), .pct 500 95] := by decide +kernel
  simp only [Option.map_eq_some_iff] at hv
  obtain ⟨⟨s, r⟩, h1, h2⟩ := hv
  exact ⟨s, r, h1, h2⟩

/-- `report_dual_partial` on the same run: its second line, dual 100 and primal 95, bounds every packing. -/
example : ∃ s r, searchR kn.mdl 2 50 (fun _ => false) (fun _ => true) 50 (-2147483647) = some (s, r) ∧ ⟨1, 100, 95⟩ ∈ r.lines ∧
    ∀ ls c, Sol kn.mdl ls c → c ≤ 95 ∨ c ≤ 100 := by
  have hv : (searchR kn.mdl 2 50 (fun _ => false) (fun _ => true) 50 (-2147483647)).map (fun a => a.2.lines) =
      some [⟨0, 2147483647, -2147483647⟩, ⟨1, 100, 95⟩] := by decide +kernel
  simp only [Option.map_eq_some_iff] at hv
  obtain ⟨⟨s, r⟩, h1, h2⟩ := hv
  have hm : (⟨1, 100, 95⟩ : PLine) ∈ r.lines := by rw [show r.lines = _ from h2]; simp
  have hw : ∀ i, 0 ≤ kn.w i := by intro i; simp only [kn]; match i with | 0 | 1 | 2 | 3 => decide | n + 4 => simp
  refine ⟨s, r, h1, hm, fun ls c hs => ?_⟩
  have := report_dual_partial (T := fun _ _ => kn.mdl) (lc := fun _ _ => kn.mdl.loc) (fun _ => Fam.const kn_layered) (fun _ => LcOK.of_fam (Fam.const kn_layered)) kn_layered
    (by intro sd hsd; simp [Ex.Knap.mdl] at hsd) (by decide) (fun _ c hc => by
      obtain ⟨ls, hp⟩ := hc
      exact kn.worst hw kn_profit (by decide) (by decide) (by decide) rfl ls c hp) h1 (by decide +kernel) _ hm c ⟨ls, hs⟩
  simpa [Ex.Knap.mdl, Sense.betterEQ] using this

end Verif.BB

namespace Verif.Ex
open Verif.DD Verif.BB
variable (g : Misp)

/-- The local bound of misp5.cpp is consistent. -/
theorem Misp.cons (hw : ∀ i, 0 ≤ g.w i) (ht : 0 < g.top) : Cons g.mdl (fun x _ => g.sum x.sel) := by
  intro ls c x l x' hp hs hq
  obtain ⟨hx, _⟩ := g.path_open hp (g.live0 ht) hs.1
  obtain ⟨h1, h2⟩ := (g.step_iff hx).1 hs
  rcases h2 with ⟨_, rfl⟩ | ⟨_, rfl⟩
  · rw [g.eqs_stt] at hq; simp at hq
  · show decide (_ ≥ _) = true
    rw [decide_eq_true_iff]
    show l * g.w x.n + g.sum (g.out x l) ≤ g.sum x.sel
    rw [g.sum_eq, g.sum_eq]
    rcases h1 with rfl | ⟨rfl, hb⟩
    · have := g.sumB_mono hw (s := g.out x 0) (s' := x.sel) (fun i hi => ((g.out_bit x 0 i).1 hi).1) g.top
      omega
    · have := g.sumB_remove hw (s := g.out x 1) (s' := x.sel) (n := x.n) (fun i hi => ⟨((g.out_bit x 1 i).1 hi).1, ((g.out_bit x 1 i).1 hi).2.1⟩) hb g.top hx.lt
      omega

/-- C130: the dual column of misp5.cpp never grows, whatever the graph, the width and the time limit. -/
theorem misp5_dual (hw : ∀ i, 0 ≤ g.w i) (ht : 0 < g.top) {w dfuel fuel : Nat} {lim tick : Nat → Bool} {p0 : Int} (hp0 : -2147483647 ≤ p0)
    {s : BS MispS} {r : Rep} (h : searchR g.mdl w dfuel lim tick fuel p0 = some (s, r)) :
    r.lines.Pairwise (fun a b => b.key ≤ a.key) := by
  have H := g.layered hw (s0 := g.mdl.sti) (v0 := 0) (g.live0 ht) (by decide)
  have := report_mono_partial (T := fun _ _ => g.mdl) (fun _ => Fam.const H) H (p0 := p0) (by simpa [Sense.betterEQ, Sense.best0, Misp.mdl] using hp0)
    (f := fun x _ => g.sum x.sel) rfl (g.cons hw ht) h
  exact this.imp (fun hab => by simpa [Sense.betterEQ, Misp.mdl] using hab)

/-- A run with three lines: six vertices, width 2. -/
example : ∃ s r, searchR g6.mdl 2 50 (fun _ => false) (fun _ => true) 50 (-2147483647) = some (s, r) ∧ r.lines = [⟨0, 6, -2147483647⟩, ⟨1, 5, 3⟩, ⟨2, 4, 4⟩] := by
  have hv : (searchR g6.mdl 2 50 (fun _ => false) (fun _ => true) 50 (-2147483647)).map (fun a => a.2.lines) =
      some [⟨0, 6, -2147483647⟩, ⟨1, 5, 3⟩, ⟨2, 4, 4⟩] := by decide +kernel
  simp only [Option.map_eq_some_iff] at hv
  obtain ⟨⟨s, r⟩, h1, h2⟩ := hv
  exact ⟨s, r, h1, h2⟩

end Verif.Ex
