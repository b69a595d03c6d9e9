import Verif.Cut
import Verif.Knapsack
import Verif.Check
/-!
# Properties of compiled diagrams (C08, C09, C11-C15, C17, C20, C64)

Everything is stated against `Path`/`Val`/`Sol` of `Verif/Spec.lean`: label sequences of the
user's model and their costs.
-/
namespace Verif.DD
set_option linter.unusedSectionVars false
variable {σ : Type} {m : Mdl σ} {rank : σ → Nat} {r : Src σ} {prim : Int} [Same σ]

/-! ### The running example: a knapsack whose second layer gets merged -/

/-- Four items, capacity 100. -/
def kn : Ex.Knap := ⟨4, 100, fun i => [60, 59, 41, 30].getD i 0, fun i => [60, 50, 40, 35].getD i 0⟩

theorem kn_profit : ∀ i, 0 ≤ kn.p i := by
  intro i
  match i with
  | 0 | 1 | 2 | 3 => decide
  | i + 4 => simp [kn]

theorem kn_layered : Layered kn.mdl kn.rank kn.mdl.src0.st kn.mdl.src0.bound :=
  kn.layered kn_profit (by decide) (by decide)

/-! ### C08: restricted diagrams are primal bounds -/

/-- The value is the sentinel, or the labels at the sink extend the root's labels by a real
completion of exactly that value.  No layering, merge or dominance hypothesis. -/
theorem restricted_primal (hS : m.eqs m.stt = true) (hq : m.eqs r.st = false) (hR : InRange m r) {w f : Nat} {g : G σ}
    (h : restricted m prim w f r = some g) (hU : Uniq m r.st := by exact Uniq.ofEq) :
    g.bound g.trg = m.sense.best0 ∨
    ∃ ls c, g.lab g.trg = r.lab ++ ls ∧ g.bound g.trg = r.bound + c ∧ Path m r.st ls c m.stt := by
  rcases restricted_real hS hq hR h hU with x | ⟨ls, x1, x2⟩
  · exact Or.inl x
  · exact Or.inr ⟨ls, _, x1, by omega, x2⟩

/-- From the initial state: the sink's labels are a solution with that cost. -/
theorem restricted_primal_root (hS : m.eqs m.stt = true) (hq : m.eqs m.sti = false) (hR : InRange m m.src0) {w f : Nat}
    {g : G σ} (h : restricted m prim w f m.src0 = some g) (hU : Uniq m m.sti := by exact Uniq.ofEq) :
    g.bound g.trg = m.sense.best0 ∨ Sol m (g.lab g.trg) (g.bound g.trg) := by
  rcases restricted_primal hS hq hR h hU with x | ⟨ls, c, x1, x2, x3⟩
  · exact Or.inl x
  · right
    simp [Mdl.src0] at x1 x2
    rw [x1, x2]
    exact x3

theorem InRange.of_layered {Vl : σ → Int → Prop} (H : LayeredV Vl m rank r.st r.bound) : InRange m r := by
  intro ls c t hp
  exact H.range _ _ (hp.relx Relx.root)

/-- Hypotheses met, and the diagram is a truncated one with a real value. -/
example : ∃ g, restricted kn.mdl (-2147483647) 2 10 kn.mdl.src0 = some g ∧ g.exact = false ∧
    Sol kn.mdl (g.lab g.trg) (g.bound g.trg) := by
  have hv : (restricted kn.mdl (-2147483647) 2 10 kn.mdl.src0).map (fun g => (g.exact, g.bound g.trg)) = some (false, 95) := by
    decide +kernel
  simp only [Option.map_eq_some_iff] at hv
  obtain ⟨g, h1, h2⟩ := hv
  simp at h2
  refine ⟨g, h1, h2.1, ?_⟩
  rcases restricted_primal_root kn_layered.sink kn_layered.src (InRange.of_layered kn_layered) h1 with x | x
  · rw [h2.2] at x; simp [Ex.Knap.mdl, Sense.best0] at x
  · exact x

/-! ### C09: an untruncated restricted diagram is optimal -/

/-- For any kind of completion the model is layered for. -/
theorem restricted_exactV {Vl : σ → Int → Prop} (H : LayeredV Vl m rank r.st r.bound) {w f : Nat} {g : G σ}
    (h : restricted m prim w f r = some g) (hx : g.exact = true) {c : Int} (hp : Vl r.st c)
    (hi : m.sense.better (r.bound + c) prim = true) : m.sense.betterEQ (g.bound g.trg) (r.bound + c) = true := by
  unfold restricted at h
  simp only [Option.map_eq_some_iff] at h
  obtain ⟨g0, h0, rfl⟩ := h
  obtain ⟨hf, ha⟩ := restricted_inv H h0
  obtain ⟨d, p, hinv⟩ := hf
  obtain ⟨bd, lb, t1, t2, t3⟩ := tighten_trg (m := m) hinv.trg (fin_inrange H ⟨d, p, hinv⟩)
  rw [t1] at hx ⊢
  have := fin_root (n := 0) (c := c) H ⟨d, p, hinv⟩ (fun _ => hx) ⟨by have := hinv.two; omega, Or.inl rfl⟩ (by rw [hinv.st0]; exact H.src)
    (by rw [hinv.st0]; exact hp)
  rw [hinv.b0] at this
  rcases this with x | ⟨e, x1, x2⟩
  · rw [hi] at x; simp at x
  · have := t3 e x1
    rw [Sense.betterEQ_iff]
    dsimp only
    rw [hinv.trg, upd_same]
    rw [Sense.k_add] at this ⊢
    omega

theorem restricted_exact (H : Layered m rank r.st r.bound) {w f : Nat} {g : G σ}
    (h : restricted m prim w f r = some g) (hx : g.exact = true) {ls : List Int} {c : Int} (hp : Path m r.st ls c m.stt)
    (hi : m.sense.better (r.bound + c) prim = true) : m.sense.betterEQ (g.bound g.trg) (r.bound + c) = true :=
  restricted_exactV H h hx ⟨ls, hp⟩ hi

example : ∃ g, restricted kn.mdl (-2147483647) 9 10 kn.mdl.src0 = some g ∧ g.exact = true ∧ g.bound g.trg = 95 := by
  have hv : (restricted kn.mdl (-2147483647) 9 10 kn.mdl.src0).map (fun g => (g.exact, g.bound g.trg)) = some (true, 95) := by
    decide +kernel
  simp only [Option.map_eq_some_iff] at hv
  obtain ⟨g, h1, h2⟩ := hv
  simp at h2
  exact ⟨g, h1, h2⟩

/-! ### C11: relaxed diagrams are dual bounds -/

/-- For any kind of completion the model is layered for. -/
theorem relaxed_dualV {Vl : σ → Int → Prop} (H : LayeredV Vl m rank r.st r.bound) {w f : Nat} {g : G σ}
    (h : relaxed m prim w f r = some g) {c : Int} (hp : Vl r.st c)
    (hi : m.sense.better (r.bound + c) prim = true) : m.sense.betterEQ (g.bound g.trg) (r.bound + c) = true := by
  obtain ⟨g0, F⟩ := relaxed_facts H h
  obtain ⟨d, p, hinv⟩ := F.fin
  have := fin_root (n := 0) (c := c) H F.fin (by simp) ⟨by have := hinv.two; omega, Or.inl rfl⟩ (by rw [hinv.st0]; exact H.src)
    (by rw [hinv.st0]; exact hp)
  rw [hinv.b0] at this
  rcases this with x | ⟨e, x1, x2⟩
  · rw [hi] at x; simp at x
  · have := F.sinkBest e x1
    rw [Sense.betterEQ_iff, F.fields.2.2.2.2.2.2.2.2.2.2.1]
    rw [Sense.k_add] at this ⊢
    omega

theorem relaxed_dual (H : Layered m rank r.st r.bound) {w f : Nat} {g : G σ}
    (h : relaxed m prim w f r = some g) {ls : List Int} {c : Int} (hp : Path m r.st ls c m.stt)
    (hi : m.sense.better (r.bound + c) prim = true) : m.sense.betterEQ (g.bound g.trg) (r.bound + c) = true :=
  relaxed_dualV H h ⟨ls, hp⟩ hi

/-- A relaxed diagram of the knapsack that did merge: its value 100 is strictly better than the
optimum 95. -/
example : ∃ g, relaxed kn.mdl (-2147483647) 2 10 kn.mdl.src0 = some g ∧ g.exact = false ∧ g.bound g.trg = 100 ∧
    ∀ xs v, kn.Packing xs v → -2147483647 < v → v ≤ g.bound g.trg := by
  have hv : (relaxed kn.mdl (-2147483647) 2 10 kn.mdl.src0).map (fun g => (g.exact, g.bound g.trg)) = some (false, 100) := by
    decide +kernel
  simp only [Option.map_eq_some_iff] at hv
  obtain ⟨g, h1, h2⟩ := hv
  simp at h2
  refine ⟨g, h1, h2.1, h2.2, fun xs v hp hv => ?_⟩
  have hw : ∀ i, 0 ≤ kn.w i := by
    intro i
    match i with
    | 0 | 1 | 2 | 3 => decide
    | i + 4 => simp [kn]
  have hs := (kn.sol_iff hw (by decide) (by decide) xs v).2 hp
  have := relaxed_dual kn_layered h1 hs (by simp [Mdl.src0, Ex.Knap.mdl, Sense.better]; omega)
  simp [Mdl.src0, Ex.Knap.mdl, Sense.betterEQ] at this
  omega

/-! ### C12: a relaxed diagram without merges is optimal and feasible -/

/-- The value of such a diagram is that of a completion. -/
theorem relaxed_exact_real {Vl : σ → Int → Prop} (H : LayeredV Vl m rank r.st r.bound) {w f : Nat} {g : G σ}
    (h : relaxed m prim w f r = some g) (hx : g.exact = true) :
    g.bound g.trg = m.sense.best0 ∨
      ∃ ls c, g.lab g.trg = r.lab ++ ls ∧ g.bound g.trg = r.bound + c ∧ Path m r.st ls c m.stt := by
  obtain ⟨g0, F⟩ := relaxed_facts H h
  obtain ⟨d, p, hinv⟩ := F.fin
  rw [F.fields.2.2.2.2.2.2.2.2.2.2.1]
  rcases F.sink with x | ⟨e, x1, x2, x3⟩
  · exact Or.inl x.2
  · right
    have he := (hinv.par 1 e).1 x1
    have hsrc := hinv.esrc e he.1
    rw [F.fields.2.2.2.2.2.2.2.2.1] at hx
    obtain ⟨ls, g1, g2⟩ := hinv.gen _ hsrc.1 (hinv.exa hx _ hsrc.1.1)
    have hst := hinv.estep e he.1
    have := g2.snoc ⟨hsrc.2.1, hst.1, hinv.etrg e he.1 he.2⟩
    refine ⟨ls ++ [g0.el e], _, ?_, ?_, this⟩
    · rw [x3, g1]; simp
    · rw [x2, hst.2]; omega

theorem relaxed_exact (H : Layered m rank r.st r.bound) {w f : Nat} {g : G σ}
    (h : relaxed m prim w f r = some g) (hx : g.exact = true) :
    (g.bound g.trg = m.sense.best0 ∨
      ∃ ls c, g.lab g.trg = r.lab ++ ls ∧ g.bound g.trg = r.bound + c ∧ Path m r.st ls c m.stt) ∧
    (∀ ls c, Path m r.st ls c m.stt → m.sense.better (r.bound + c) prim = true →
      m.sense.betterEQ (g.bound g.trg) (r.bound + c) = true) :=
  ⟨relaxed_exact_real H h hx, fun _ _ hp hi => relaxed_dual H h hp hi⟩

example : ∃ g, relaxed kn.mdl (-2147483647) 9 10 kn.mdl.src0 = some g ∧ g.exact = true ∧ g.bound g.trg = 95 := by
  have hv : (relaxed kn.mdl (-2147483647) 9 10 kn.mdl.src0).map (fun g => (g.exact, g.bound g.trg)) = some (true, 95) := by
    decide +kernel
  simp only [Option.map_eq_some_iff] at hv
  obtain ⟨g, h1, h2⟩ := hv
  simp at h2
  exact ⟨g, h1, h2⟩

/-! ### C13: exact nodes of a relaxed diagram are genuine -/

theorem relaxed_exact_nodes {Vl : σ → Int → Prop} (H : LayeredV Vl m rank r.st r.bound) {w f : Nat} {g : G σ}
    (h : relaxed m prim w f r = some g) {n : Nat} (hn : n ∈ g.an) (ht : n ≠ g.trg) (hx : g.ex n = true) :
    ∃ ls c, g.lab n = r.lab ++ ls ∧ g.bound n = r.bound + c ∧ Path m r.st ls c (g.st n) := by
  obtain ⟨g0, F⟩ := relaxed_facts H h
  obtain ⟨d, p, hinv⟩ := F.fin
  obtain ⟨f1, f2, f3, f4, f5, f6, f7, f8, f9, f10, f11, f12, f13, f14⟩ := F.fields
  rw [f11] at ht
  rw [f14] at hn
  have hl : Lv g0 n := by
    rcases ((F.an.2 n).1 hn).2 with x | x | x
    · exact x
    · exact absurd x ht
    · exact absurd x ht
  rw [f8] at hx
  obtain ⟨ls, a1, a2⟩ := hinv.gen n hl hx
  rw [(F.bound ht).1, (F.bound ht).2, f1]
  exact ⟨ls, _, a1, by omega, a2⟩

/-- In the merged knapsack diagram some nodes besides the root are exact and some are not. -/
example : (relaxed kn.mdl (-2147483647) 2 10 kn.mdl.src0).map (fun g =>
    ((g.an.filter (fun n => n ≠ g.trg ∧ n ≠ g.root ∧ g.ex n = true)).isEmpty,
     (g.an.filter (fun n => n ≠ g.trg ∧ g.ex n = false)).isEmpty)) = some (false, false) := by decide +kernel

/-! ### C15: backward bounds are valid -/

/-- For any kind of completion the model is layered for. -/
theorem backward_validV {Vl : σ → Int → Prop} (H : LayeredV Vl m rank r.st r.bound) {w f : Nat} {g : G σ}
    (h : relaxed m prim w f r = some g) {n : Nat} (hn : n ∈ g.an) (ht : n ≠ g.trg) (hq : m.eqs (g.st n) = false)
    {c : Int} (hp : Vl (g.st n) c) (hi : m.sense.better (g.bound n + c) prim = true) :
    m.sense.betterEQ (g.bb n) c = true := by
  obtain ⟨g0, F⟩ := relaxed_facts H h
  obtain ⟨f1, f2, f3, f4, f5, f6, f7, f8, f9, f10, f11, f12, f13, f14⟩ := F.fields
  rw [f11] at ht
  rw [f14] at hn
  have hl : Lv g0 n := by
    rcases ((F.an.2 n).1 hn).2 with x | x | x
    · exact x
    · exact absurd x ht
    · exact absurd x ht
  rw [f1] at hp hq
  rcases back_bound H F hl hq hp with x | x
  · rw [(F.bound ht).1, x] at hi; simp at hi
  · rw [Sense.betterEQ_iff]; exact x

theorem backward_valid (H : Layered m rank r.st r.bound) {w f : Nat} {g : G σ}
    (h : relaxed m prim w f r = some g) {n : Nat} (hn : n ∈ g.an) (ht : n ≠ g.trg) (hq : m.eqs (g.st n) = false)
    {ls : List Int} {c : Int} (hp : Path m (g.st n) ls c m.stt) (hi : m.sense.better (g.bound n + c) prim = true) :
    m.sense.betterEQ (g.bb n) c = true :=
  backward_validV H h hn ht hq ⟨ls, hp⟩ hi

/-! ### C14: what the cut set covers -/

/-- For any kind of completion the model is layered for. -/
theorem cutset_coversV {Vl : σ → Int → Prop} (H : LayeredV Vl m rank r.st r.bound) {w f : Nat} {g : G σ}
    (h : relaxed m prim w f r = some g) : ∃ cs, cutSet g = some cs ∧
    (∀ k, k ∈ cs → k ∈ g.an ∧ k ≠ g.trg ∧ g.ex k = true) ∧ cs.Nodup ∧
    ∀ c, Vl r.st c → m.sense.better (r.bound + c) prim = true →
      (∃ k c', k ∈ cs ∧ Vl (g.st k) c' ∧ m.sense.betterEQ (g.bound k + c') (r.bound + c) = true) ∨
      (∃ e, e ∈ g.par g.trg ∧ g.ex (g.es e) = true ∧ g.es e ∉ cs ∧ m.sense.betterEQ (g.bound (g.es e) + g.eo e) (r.bound + c) = true) := by
  obtain ⟨g0, F⟩ := relaxed_facts H h
  obtain ⟨V, cs, h1, C⟩ := relaxed_cut F
  obtain ⟨f1, f2, f3, f4, f5, f6, f7, f8, f9, f10, f11, f12, f13, f14⟩ := F.fields
  have hcs : ∀ k, k ∈ cs → k ∈ V := fun k hk => ((C.csm k).1 hk).1
  refine ⟨cs, h1, fun k hk => ?_, C.csn, fun c hp hi => ?_⟩
  · obtain ⟨a, b⟩ := cut_live F C (hcs k hk)
    exact ⟨by rw [f14]; exact (F.an.2 k).2 ⟨a.1, Or.inl a⟩, by rw [f11]; exact b, C.ex k (hcs k hk)⟩
  · rcases cut_covers H F C hp with x | ⟨k, c', x1, x2, x3⟩ | ⟨e, x1, x2, x3, x4⟩
    · rw [hi] at x; simp at x
    · left
      obtain ⟨a, b⟩ := cut_live F C (hcs k x1)
      refine ⟨k, c', x1, by rw [f1]; exact x2, ?_⟩
      rw [Sense.betterEQ_iff, (F.bound b).1, Sense.k_add, Sense.k_add]; exact x3
    · right
      refine ⟨e, by rw [f2, f11]; exact x1, by rw [f4]; exact C.ex _ x2, ?_, ?_⟩
      · intro hh
        have := ((C.csm _).1 hh).2
        rw [f4, x3] at this; simp at this
      rw [Sense.betterEQ_iff, f4, f6, (F.bound (cut_live F C x2).2).1, Sense.k_add, Sense.k_add]; exact x4

/-- Coverage by the cut set, with the exception the code makes: arcs from a node whose other
children are all exact straight into the sink. -/
theorem cutset_covers_partial (H : Layered m rank r.st r.bound) {w f : Nat} {g : G σ}
    (h : relaxed m prim w f r = some g) : ∃ cs, cutSet g = some cs ∧
    (∀ k, k ∈ cs → k ∈ g.an ∧ k ≠ g.trg ∧ g.ex k = true) ∧ cs.Nodup ∧
    ∀ ls c, Path m r.st ls c m.stt → m.sense.better (r.bound + c) prim = true →
      (∃ k ls' c', k ∈ cs ∧ Path m (g.st k) ls' c' m.stt ∧ m.sense.betterEQ (g.bound k + c') (r.bound + c) = true) ∨
      (∃ e, e ∈ g.par g.trg ∧ g.ex (g.es e) = true ∧ g.es e ∉ cs ∧ m.sense.betterEQ (g.bound (g.es e) + g.eo e) (r.bound + c) = true) := by
  obtain ⟨cs, h1, h2, h3, h4⟩ := cutset_coversV H h
  refine ⟨cs, h1, h2, h3, fun ls c hp hi => ?_⟩
  rcases h4 c ⟨ls, hp⟩ hi with ⟨k, c', x1, ⟨ls', x2⟩, x3⟩ | x
  · exact Or.inl ⟨k, ls', c', x1, x2, x3⟩
  · exact Or.inr x

/-- Without arcs from exact nodes into the sink (other than through inexact nodes) the cut set covers
every improving solution. -/
theorem cutset_covers (H : Layered m rank r.st r.bound) {w f : Nat} {g : G σ} {cs : List Nat}
    (h : relaxed m prim w f r = some g) (hc : cutSet g = some cs)
    (hx : ∀ e, e ∈ g.par g.trg → g.ex (g.es e) = false) {ls : List Int} {c : Int} (hp : Path m r.st ls c m.stt)
    (hi : m.sense.better (r.bound + c) prim = true) :
    ∃ k ls' c', k ∈ cs ∧ Path m (g.st k) ls' c' m.stt ∧ m.sense.betterEQ (g.bound k + c') (r.bound + c) = true := by
  obtain ⟨cs', h1, _, _, h2⟩ := cutset_covers_partial H h
  rw [hc] at h1
  simp at h1
  subst h1
  rcases h2 ls c hp hi with x | ⟨e, x1, x2, _⟩
  · exact x
  · rw [hx e x1] at x2; simp at x2

/-- Two branches from the root: `1` leads to two states that get merged, `2` leads through an exact
node straight to the sink and carries the optimum. -/
def f1 : Mdl Nat := gm .min
  [(0,0,1,1), (0,1,2,2), (1,0,3,10), (1,1,4,10), (2,0,6,1), (3,0,9,1), (4,0,9,1), (6,0,9,1), (5,0,9,1)] [(3,4,5)] 9
def f1rank (s : Nat) : Nat := [0, 1, 1, 2, 2, 2, 2].getD s 0

theorem f1_layered : Layered f1 f1rank 0 0 := layChk_sound 4 (closeR f1 f1rank 4) (by decide +kernel)

/-- C14 is false as stated: the solution `[1,0,0]` of cost 4 improves on the primal, but the only
cut-set node has no completion of total cost better than 12. -/
theorem cutset_covers_false : ¬ ∀ (m : Mdl Nat) (rank : Nat → Nat) (prim : Int) (w f : Nat) (g : G Nat) (cs : List Nat),
    Layered m rank m.sti 0 → relaxed m prim w f m.src0 = some g → g.exact = false → cutSet g = some cs →
    ∀ ls c, Sol m ls c → m.sense.better c prim = true →
      ∃ k ls' c', k ∈ cs ∧ Path m (g.st k) ls' c' m.stt ∧ m.sense.betterEQ (g.bound k + c') c = true := by
  intro H
  have hv : (relaxed f1 2147483647 2 50 f1.src0).map (fun g => (g.exact, (cutSet g).map (fun cs => cs.map (fun k => (g.st k, g.bound k))))) =
      some (false, some [(1, 1)]) := by decide +kernel
  simp only [Option.map_eq_some_iff] at hv
  obtain ⟨g, h1, h2⟩ := hv
  simp at h2
  obtain ⟨h2, cs, h3, h4⟩ := h2
  have hs : Sol f1 [1, 0, 0] 4 :=
    (Path.cons (s' := 2) ⟨by decide, by decide, by decide⟩ (Path.cons (s' := 6) ⟨by decide, by decide, by decide⟩
      (Path.cons (s' := 9) ⟨by decide, by decide, by decide⟩ (Path.nil 9))) : Path f1 0 [1, 0, 0] (2 + (1 + (1 + 0))) 9)
  obtain ⟨k, ls', c', k1, k2, k3⟩ := H f1 f1rank 2147483647 2 50 g cs f1_layered h1 h2 h3 [1, 0, 0] 4 hs (by decide)
  have hk : (g.st k, g.bound k) = (1, 1) := by
    obtain ⟨a, rfl, a1, a2⟩ := h4
    simp at k1
    subst k1
    rw [a1, a2]
  simp at hk
  rw [hk.1] at k2
  rw [hk.2] at k3
  have hc : c' ∈ vals f1 4 1 := vals_complete (R := closeR f1 f1rank 4) (v := 1) (by decide) (by decide +kernel) (by decide +kernel) k2 rfl
  have : vals f1 4 1 = [11, 11] := by decide +kernel
  rw [this] at hc
  simp at hc
  subst hc
  revert k3
  decide

/-! ### C17: merging keeps the arcs -/

/-- Moving the arcs of a childless donor `d` to `r`: exactly the arcs into `d` now enter `r`, at
the end of its parent list; `d` has no parent left; all other parent lists, every child list and
every arc's source, label and cost are what they were. -/
theorem merge_arcs (g : G σ) (d r : Nat) (hdr : d ≠ r) (hn : (g.par d).Nodup)
    (hkd : g.kids d = []) (hsd : ∀ e, e ∈ g.par d → g.es e ≠ d) (hsr : ∀ e, e ∈ g.par d → g.es e ≠ r) :
    let g' := transferArcs g d r
    (∀ n, g'.kids n = g.kids n) ∧
    (∀ n, g'.par n = if n = d then [] else if n = r then g.par r ++ g.par d else g.par n) ∧
    (∀ e, g'.es e = g.es e ∧ g'.el e = g.el e ∧ g'.eo e = g.eo e) ∧
    (∀ e, g'.ed e = if e ∈ g.par d then r else g.ed e) ∧
    (∀ n, g'.st n = g.st n ∧ g'.bound n = g.bound n ∧ g'.lab n = g.lab n ∧ g'.ex n = g.ex n ∧ g'.layer n = g.layer n) := by
  obtain ⟨fx, tx, h⟩ := transferArcs_eq g d r hdr hn hkd hsd hsr
  dsimp only
  rw [h]
  refine ⟨fun n => rfl, fun n => ?_, fun e => ⟨rfl, rfl, rfl⟩, fun e => rfl, fun n => ⟨rfl, rfl, rfl, rfl, rfl⟩⟩
  dsimp only
  by_cases h1 : n = d
  · subst h1; simp
  · rw [upd_ne _ _ h1, if_neg h1]
    by_cases h2 : n = r
    · subst h2; simp
    · rw [upd_ne _ _ h2, if_neg h2]

/-- Parents 0, 1 of donor 2 (arcs 0, 1) and parent 0 of receiver 3 (arc 2). -/
def mergeEx : G Nat :=
  addEdge (addEdge (addEdge { start (⟨0, [], 0, 0⟩ : Src Nat) with
    nn := 4 } 0 2 5 1) 1 2 6 2) 0 3 7 3

example : mergeEx.par 2 = [0, 1] ∧ mergeEx.kids 2 = [] ∧ (∀ e, e ∈ mergeEx.par 2 → mergeEx.es e ≠ 2 ∧ mergeEx.es e ≠ 3) ∧
    (transferArcs mergeEx 2 3).par 3 = [2, 0, 1] ∧ (transferArcs mergeEx 2 3).kids 0 = [0, 2] := by decide

/-! ### C20: dominance -/

/-- With a dominance function that never discards the sink state, compilation still terminates
without leaving the diagram, and both builders keep every improving solution. -/
theorem dominance_safe_partial (H : Layered m rank r.st r.bound) {sd : σ → σ → Bool} (_ : m.sdom = some sd) {M : Nat}
    (hM : ∀ s v, Relx m rank r.st r.bound s v → m.eqs s = false → rank s ≤ M) (w : Nat) {f : Nat} (hf : M + 2 ≤ f) :
    ∃ g r', relaxed m prim w f r = some g ∧ restricted m prim w f r = some r' ∧
    ∀ ls c, Path m r.st ls c m.stt → m.sense.better (r.bound + c) prim = true →
      m.sense.betterEQ (g.bound g.trg) (r.bound + c) = true ∧
      (r'.exact = true → m.sense.betterEQ (r'.bound r'.trg) (r.bound + c) = true) := by
  obtain ⟨g, h⟩ := relaxed_some (prim := prim) H hM w hf
  obtain ⟨g', h'⟩ := restricted_some (prim := prim) H hM w hf
  exact ⟨g, g', h, h', fun ls c hp hi => ⟨relaxed_dual H h hp hi, fun hx => restricted_exact H h' hx hp hi⟩⟩

/-- A model whose dominance function is used: `1` (value 3) dominates `2` (value 2). -/
def f6ok : Mdl Nat := gm .max [(0,0,1,3), (0,1,2,2), (1,0,9,4), (2,0,9,4)] [] 9 [] none
  (some (fun a b => a == 1 && b == 2))
def f6rank (s : Nat) : Nat := [0, 1, 1].getD s 0
example : Layered f6ok f6rank 0 0 := layChk_sound 3 (closeR f6ok f6rank 3) (by decide +kernel)
example : (relaxed f6ok (-2147483647) 2 50 f6ok.src0).map (fun g => (g.an.map g.st, g.bound g.trg)) = some ([0, 9, 1], 7) := by
  decide +kernel

/-- State `1` (reached at 5, completion 0) dominates the sink (reached directly at 1). -/
def f6 : Mdl Nat := gm .max [(0,0,1,5), (0,1,9,1), (1,0,9,0)] [] 9 [] none (some (fun a b => a == 1 && b == 9))

/-- C20 is false as stated: dominance here is sound (a dominating state has a completion at least
as good), the model is layered, and yet the backward sweep meets a node that `pop_back` removed from
the node list: it was the dominating node, not the dominated sink. -/
theorem dominance_safe_false : ¬ ∀ (m : Mdl Nat) (rank : Nat → Nat) (sd : Nat → Nat → Bool) (prim : Int) (w f : Nat) (g0 : G Nat),
    m.sdom = some sd → Layered { m with
      sdom := none } rank m.sti 0 → (∀ a b, sd a b = true → Cover m a b) →
    relLoop m prim w f (start2 m m.src0) (LQ.enQueue (start2 m m.src0) ⟨[], []⟩ (start2 m m.src0).root) = some g0 →
    ∃ g, computeBestBackward m (tighten m g0 g0.trg) = some g := by
  intro H
  have hv : ((relLoop f6 (-2147483647) 2 50 (start2 f6 f6.src0) (LQ.enQueue (start2 f6 f6.src0) ⟨[], []⟩ (start2 f6 f6.src0).root)).map
      (fun g => (computeBestBackward f6 (tighten f6 g g.trg)).isSome)) = some false := by decide +kernel
  simp only [Option.map_eq_some_iff] at hv
  obtain ⟨g0, h1, h2⟩ := hv
  obtain ⟨g, h3⟩ := H f6 f6rank (fun a b => a == 1 && b == 9) (-2147483647) 2 50 g0 rfl
    (layChk_sound 3 [(0, 0), (1, 5), (9, 1), (9, 5)] (by decide +kernel)) (by
      intro a b hab
      simp at hab
      obtain ⟨rfl, rfl⟩ := hab
      rintro c ⟨ls, hp⟩
      obtain ⟨_, rfl, _⟩ := hp.of_terminal (by decide)
      exact ⟨0, ⟨[0], (Path.cons (s' := 9) ⟨by decide, by decide, by decide⟩ (Path.nil 9) : Path f6 1 [0] (0 + 0) 9)⟩, by decide⟩) h1
  rw [h3] at h2
  simp at h2

/-! ### C64: compilation terminates -/

/-- One round per rank is enough for either builder, and the backward sweep never meets a node
outside the diagram. -/
theorem compile_terminates (H : Layered m rank r.st r.bound) {M : Nat}
    (hM : ∀ s v, Relx m rank r.st r.bound s v → m.eqs s = false → rank s ≤ M) (w : Nat) {f : Nat} (hf : M + 2 ≤ f) :
    (∃ g, relaxed m prim w f r = some g ∧ ∃ cs, cutSet g = some cs) ∧ (∃ g, restricted m prim w f r = some g) := by
  refine ⟨?_, restricted_some H hM w hf⟩
  obtain ⟨g, h⟩ := relaxed_some (prim := prim) H hM w hf
  obtain ⟨g0, F⟩ := relaxed_facts H h
  obtain ⟨V, cs, h1, _⟩ := relaxed_cut F
  exact ⟨g, h, cs, h1⟩

example : ∀ s v, Relx kn.mdl kn.rank kn.mdl.src0.st kn.mdl.src0.bound s v → kn.mdl.eqs s = false → kn.rank s ≤ 3 := by
  intro s v h hq
  rcases (kn.relx kn_profit (by decide) h).1 with x | x
  · have : kn.I = 4 := rfl
    show s.1 ≤ 3
    omega
  · rw [x] at hq; simp [Ex.Knap.mdl] at hq

end Verif.DD
