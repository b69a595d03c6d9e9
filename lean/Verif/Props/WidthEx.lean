import Verif.Props.Width
import Verif.Props.Tsp
import Verif.Props.Gruler
import Verif.Props.Coloring
import Verif.Props.Misp4
/-!
# Width of the relaxed diagrams of the examples (C107)

The examples refuse to merge states with different last city, last mark or number of colours, so a
relaxed layer can exceed the width, but only up to the number of those values.
-/
namespace Verif.Ex
open Verif.DD
set_option linter.unusedSectionVars false

/-- C107: in the TSP example (examples/tsp.cpp) a relaxed layer has at most as many nodes as the width or
the number of cities, from any state with cities left. -/
theorem tsp_width (t : Tsp) {D : Int} (hD : t.Bnd D) (hn : 1 < t.nv) {r : Src TspS} (h0 : r.st.hops < t.nv) (he : r.st.e < t.nv ∧ (r.st.e = 1 → r.st.hops + 1 < t.nv))
    (hv0 : r.bound ≤ r.st.hops * D) {prim : Int} {w f : Nat} {g : G TspS} (h : relaxed t.mdl prim w f r = some g) (k : Nat) :
    widthAt t.mdl t.rank g k ≤ max w t.nv := by
  have := relaxed_width_classes (cls := fun x : TspS => x.e) (C := fun _ => List.range t.nv) (t.layered hD hn h0 he hv0) rfl (by
    intro a b va vb _ _ _ _ hr _
    have hr : a.hops = b.hops := hr
    refine ⟨fun hc => ?_, fun c hc => ?_⟩
    · have hc : a.e = b.e := hc
      simp [Tsp.mdl, hc, hr]
    · simp only [Tsp.mdl] at hc
      split at hc
      · rename_i h1
        simp only [Option.some.injEq] at hc
        subst hc
        exact ⟨h1.1, rfl⟩
      · simp at hc) (fun s v hs _ => List.mem_range.2 (t.relx hD hn h0 he hv0 hs).2.1) h k
  simpa using this

/-- C107: in examples/gruler.cpp a relaxed layer has at most as many nodes as the width or the positions
`0 .. L + 1`, from any state and at any primal bound. -/
theorem gruler_width (t : Gol) {ub : Option Int} (hL : t.L < 2147483646) {r : Src GolS} (h0 : t.Ok r.st r.bound)
    (hq : (t.mdl ub).eqs r.st = false) {prim : Int} {w f : Nat} {g : G GolS} (h : relaxed (t.mdl ub) prim w f r = some g) (k : Nat) :
    widthAt (t.mdl ub) t.rank g k ≤ max w (t.L + 2) := by
  have := relaxed_width_classes (cls := fun x : GolS => x.e) (C := fun _ => List.range (t.L + 2)) (t.layered hL h0 hq) rfl (by
    intro a b va vb _ _ _ _ hr _
    have hr : a.k = b.k := hr
    refine ⟨fun hc => ?_, fun c hc => ?_⟩
    · have hc : a.e = b.e := hc
      simp [Gol.mdl, hc, hr]
    · simp only [Gol.mdl] at hc
      split at hc
      · rename_i h1
        simp only [Option.some.injEq] at hc
        subst hc
        exact ⟨h1.2, by show min a.e b.e = a.e; omega⟩
      · simp at hc) (fun s v hs q => List.mem_range.2 (by have := ((t.relx h0 hs).open t q).2.2.2; show s.e < _; omega)) h k
  simpa using this

/-- C107: in examples/coloringtoy.cpp the relaxed layer of vertex `k` has at most as many nodes as the width
or the numbers of colours `0 .. k`, from any state and at any primal bound. -/
theorem coloring_width (t : Col) {ub : Option Int} (hK : t.K < 2147483647) {r : Src ColS} (h0 : t.Ok r.st r.bound)
    (hq : (t.mdl ub).eqs r.st = false) {prim : Int} {w f : Nat} {g : G ColS} (h : relaxed (t.mdl ub) prim w f r = some g) (k : Nat) :
    widthAt (t.mdl ub) t.rank g k ≤ max w (k + 1) := by
  have := relaxed_width_classes (cls := fun x : ColS => x.last) (C := fun k => List.range (k + 1)) (t.layered hK h0 hq) rfl (by
    intro a b va vb _ _ _ _ hr _
    have hr : a.vtx = b.vtx := hr
    refine ⟨fun hc => ?_, fun c hc => ?_⟩
    · have hc : a.last = b.last := hc
      simp [Col.mdl, hc, hr]
    · obtain ⟨e1, e2, rfl⟩ := t.smf_some hc
      exact ⟨e1, rfl⟩) (fun s v hs q => List.mem_range.2 (by have := ((t.relx h0 hs).open t q).2.2.2; show s.last < s.vtx + 1; omega)) h k
  simpa using this

/-- C107: in examples/misp5.cpp a relaxed layer has at most as many nodes as the width (or one), from any
open state. -/
theorem misp5_width (g : Misp) (hw : ∀ i, 0 ≤ g.w i) {r : Src MispS} (h0 : g.Live r.st) (hv0 : -2147483647 < r.bound)
    {prim : Int} {w f : Nat} {d : G MispS} (h : relaxed g.mdl prim w f r = some d) (k : Nat) : widthAt g.mdl g.rank d k ≤ max w 1 := by
  refine relaxed_width (g.layered hw h0 hv0) rfl (fun a b va vb ha hb qa qb hr _ => ?_) h k
  have la := (g.relx hw h0 ha).1.resolve_right (fun h => by rw [h, g.eqs_stt] at qa; simp at qa)
  have lb := (g.relx hw h0 hb).1.resolve_right (fun h => by rw [h, g.eqs_stt] at qb; simp at qb)
  have hr : a.n = b.n := hr
  have hl : a.l = b.l := by rw [la.l, lb.l, hr]
  simp [Misp.mdl, hl]

/-- C107: the same for examples/misp4.cpp with any valid set bound. -/
theorem misp4_width (g : Misp) {lb : Nat → Ctx → Int} (hw : ∀ i, 0 ≤ g.w i) (hb : g.BoundOK lb) {y0 : MispS} (h0 : g.Live y0)
    {r : Src Misp4S} (hr : r.st = y0.to4) (hv0 : -2147483647 < r.bound)
    {prim : Int} {w f : Nat} {d : G Misp4S} (h : relaxed (g.mdl4 lb) prim w f r = some d) (k : Nat) :
    widthAt (g.mdl4 lb) g.rank4 d k ≤ max w 1 :=
  relaxed_width (by rw [hr]; exact layered4 hw hb h0 hv0) rfl (fun a b va vb _ _ _ _ _ _ => by simp [Misp.mdl4]) h k

/-- Five cities, width 1: four nodes in each layer, one for each city to be in. -/
def tw : Tsp := ⟨5, fun i j => ((i * 3 + j * 7) % 11 : Nat)⟩
example : (relaxed tw.mdl 2147483647 1 60 tw.mdl.src0).map (fun g => (g.exact, (List.range 6).map (widthAt tw.mdl tw.rank g))) =
    some (false, [1, 4, 4, 4, 4, 0]) := by decide +kernel
example (prim : Int) (w f k : Nat) (g : G TspS) (h : relaxed tw.mdl prim w f tw.mdl.src0 = some g) : widthAt tw.mdl tw.rank g k ≤ max w 5 :=
  tsp_width tw (D := 10) ⟨by decide, fun i j _ _ _ => by show (((i * 3 + j * 7) % 11 : Nat) : Int) ≤ 10; omega, by decide⟩
    (by decide) (by decide) (by decide) (by decide) h k

/-- Golomb rulers of 4 marks up to length 8. -/
def gw : Gol := ⟨4, 7, optTable⟩
example : (relaxed (gw.mdl none) 2147483647 1 60 (gw.mdl none).src0).map (fun g => (g.exact, (List.range 6).map (widthAt (gw.mdl none) gw.rank g))) =
    some (false, [0, 1, 8, 6, 0, 0]) := by decide +kernel
example (prim : Int) (w f k : Nat) (g : G GolS) (h : relaxed (gw.mdl none) prim w f (gw.mdl none).src0 = some g) :
    widthAt (gw.mdl none) gw.rank g k ≤ max w 9 :=
  gruler_width gw (by decide) (gw.ok_root (by decide)) rfl h k

/-- Five vertices; without a width the last layer has seven nodes. -/
def cw : Col := ⟨5, [(0, 1), (2, 3), (0, 4), (2, 4)]⟩
example : (relaxed (cw.mdl none) 2147483647 1 60 (cw.mdl none).src0).map (fun g => (g.exact, (List.range 6).map (widthAt (cw.mdl none) cw.rank g))) =
    some (false, [1, 1, 1, 2, 3, 0]) := by decide +kernel
example (prim : Int) (w f k : Nat) (g : G ColS) (h : relaxed (cw.mdl none) prim w f (cw.mdl none).src0 = some g) :
    widthAt (cw.mdl none) cw.rank g k ≤ max w (k + 1) :=
  coloring_width cw (by decide) (cw.ok_root (by decide)) rfl h k

/-- Six vertices; without a width the layers have 1, 2, 3, 4, 3 and 1 nodes. -/
def mw : Misp := ⟨6, [(0, 1), (2, 3), (0, 4), (2, 4), (1, 5)], fun i => i + 1⟩
example : (relaxed mw.mdl (-2147483647) 2 60 mw.mdl.src0).map (fun g => (g.exact, (List.range 6).map (widthAt mw.mdl mw.rank g))) =
    some (false, [1, 2, 2, 2, 2, 1]) := by decide +kernel
theorem mw_live : mw.Live mw.mdl.sti := mw.live0 (by decide)
example (prim : Int) (w f k : Nat) (g : G MispS) (h : relaxed mw.mdl prim w f mw.mdl.src0 = some g) :
    widthAt mw.mdl mw.rank g k ≤ max w 1 :=
  misp5_width mw (fun i => by show (0 : Int) ≤ i + 1; omega) mw_live (by decide) h k

end Verif.Ex
