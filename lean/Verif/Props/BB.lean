import Verif.BBOpt
/-!
# Properties of the branch-and-bound search (C01-C04, C21, C22)

The specification is `Sol` of `Verif/Spec.lean`: label sequences of the user's model and their
costs.  The time-limit callback is any function of the iteration number.
-/
namespace Verif.BB
open Verif.DD
set_option linter.unusedSectionVars false
variable {σ : Type} {m : Mdl σ} {rank : σ → Nat} {M : Int → Mdl σ} {T : Nat → Int → Mdl σ}
  {lc : Nat → Int → Option (σ → Ctx → Int)} {Vl : σ → Int → Prop} {Wl : Nat → Int → σ → Int → Prop} [Same σ]

/-! ### C01, C02 -/

/-- C01 for a model whose labels may depend on the primal bound and whose local
bound may change between iterations (`Fam`). -/
theorem searchT_sound (F : ∀ k, FamV Vl (Wl k) m rank (T k)) (H : LayeredV Vl m rank m.sti 0) {p0 : Int} (hp0 : m.sense.betterEQ p0 m.sense.best0 = true)
    {w dfuel fuel : Nat} {lim : Nat → Bool} {s : BS σ} (h : searchT m T lc w dfuel lim fuel p0 = some s) :
    (∀ x, x ∈ s.sols → Sol m x.2 x.1) ∧ (s.sols ≠ [] → Sol m s.inc s.primal) := by
  obtain ⟨h1, h2, _⟩ := init_inv H.src H.fair.toUniq w p0
  obtain ⟨_, hT, _⟩ := loop_inv F hp0 fuel 0 _ _ h1 h2 rfl h
  refine ⟨hT.sol, fun hne => ?_⟩
  rcases hT.last with x | ⟨ys, x⟩
  · exact absurd x.1 hne
  · exact hT.sol (s.primal, s.inc) (by rw [x]; simp)

/-- C01 for a model whose labels may depend on the primal bound (`Fam`). -/
theorem searchP_sound (F : Fam m rank M) (H : Layered m rank m.sti 0) {p0 : Int} (hp0 : m.sense.betterEQ p0 m.sense.best0 = true)
    {w dfuel fuel : Nat} {lim : Nat → Bool} {s : BS σ} (h : searchP m M w dfuel lim fuel p0 = some s) :
    (∀ x, x ∈ s.sols → Sol m x.2 x.1) ∧ (s.sols ≠ [] → Sol m s.inc s.primal) :=
  searchT_sound (fun _ => F) H hp0 h

/-- C01.  Whatever the widths, the time limit and the number of iterations, every vector handed to the
solution callbacks is a solution whose cost is the primal bound stored with it; and once something has
been reported, the stored incumbent is a solution whose cost is the stored primal bound. -/
theorem search_sound (H : Layered m rank m.sti 0) {p0 : Int} (hp0 : m.sense.betterEQ p0 m.sense.best0 = true)
    {w dfuel fuel : Nat} {lim : Nat → Bool} {s : BS σ} (h : search m w dfuel lim fuel p0 = some s) :
    (∀ x, x ∈ s.sols → Sol m x.2 x.1) ∧ (s.sols ≠ [] → Sol m s.inc s.primal) :=
  searchP_sound (Fam.const H) H hp0 h

/-- C02 for a model whose labels may depend on the primal bound and whose local
bound may change between iterations. -/
theorem primalT_improves (F : ∀ k, FamV Vl (Wl k) m rank (T k)) (H : LayeredV Vl m rank m.sti 0) {p0 : Int} (hp0 : m.sense.betterEQ p0 m.sense.best0 = true)
    {w dfuel fuel : Nat} {lim : Nat → Bool} {s : BS σ} (h : searchT m T lc w dfuel lim fuel p0 = some s) :
    (p0 :: s.sols.map (·.1)).Pairwise (fun a b => m.sense.better b a = true) ∧
    (p0 :: s.sols.map (·.1)).getLast? = some s.primal := by
  obtain ⟨h1, h2, _⟩ := init_inv H.src H.fair.toUniq w p0
  obtain ⟨_, hT, _⟩ := loop_inv F hp0 fuel 0 _ _ h1 h2 rfl h
  refine ⟨?_, ?_⟩
  · rw [List.pairwise_cons]
    refine ⟨?_, ?_⟩
    · intro a ha
      simp only [List.mem_map] at ha
      obtain ⟨x, hx, rfl⟩ := ha
      exact hT.beat x hx
    · rw [List.pairwise_map]; exact hT.dec
  · rcases hT.last with ⟨x, y, _⟩ | ⟨ys, x⟩
    · rw [x, y]; rfl
    · rw [x, List.map_append, ← List.cons_append, List.map_singleton, List.getLast?_append]
      rfl

/-- C02 for a model whose labels may depend on the primal bound. -/
theorem primalP_improves (F : Fam m rank M) (H : Layered m rank m.sti 0) {p0 : Int} (hp0 : m.sense.betterEQ p0 m.sense.best0 = true)
    {w dfuel fuel : Nat} {lim : Nat → Bool} {s : BS σ} (h : searchP m M w dfuel lim fuel p0 = some s) :
    (p0 :: s.sols.map (·.1)).Pairwise (fun a b => m.sense.better b a = true) ∧
    (p0 :: s.sols.map (·.1)).getLast? = some s.primal :=
  primalT_improves (fun _ => F) H hp0 h

/-- C02.  The reported values strictly improve, all beat the primal bound the search started with, and
the final primal bound is the last reported value, or the starting one if nothing was reported. -/
theorem primal_improves (H : Layered m rank m.sti 0) {p0 : Int} (hp0 : m.sense.betterEQ p0 m.sense.best0 = true)
    {w dfuel fuel : Nat} {lim : Nat → Bool} {s : BS σ} (h : search m w dfuel lim fuel p0 = some s) :
    (p0 :: s.sols.map (·.1)).Pairwise (fun a b => m.sense.better b a = true) ∧
    (p0 :: s.sols.map (·.1)).getLast? = some s.primal :=
  primalP_improves (Fam.const H) H hp0 h

/-! ### C04 -/

/-- C04 for a model whose labels may depend on the primal bound and whose local
bound may change between iterations. -/
theorem searchT_terminates (F : ∀ k, FamV Vl (Wl k) m rank (T k)) (H : LayeredV Vl m rank m.sti 0) {p0 : Int} (hp0 : m.sense.betterEQ p0 m.sense.best0 = true) {N : Nat}
    (hN : RankBound m rank m.sti 0 N) {U : List σ} (hU : ∀ x ls c, Path m m.sti ls c x → m.eqs x = false → x ∈ U)
    (w : Nat) {dfuel : Nat} (hf : N + 2 ≤ dfuel) (lim : Nat → Bool) {fuel : Nat} (hfu : U.length < fuel) :
    ∃ s, searchT m T lc w dfuel lim fuel p0 = some s ∧ (s.stopped = true ∨ Heap.empty s.pq = true) := by
  obtain ⟨h1, h2, h3, h4, _⟩ := init_inv H.src H.fair.toUniq w p0
  obtain ⟨s, hs⟩ := loop_some (wres := w) (lim := lim) F hp0 hN hU hf fuel 0 _ h1 h2 (by rw [h3, h4]; omega)
  exact ⟨s, hs, (loop_inv F hp0 fuel 0 _ _ h1 h2 rfl hs).2.2⟩

/-- C04 for a model whose labels may depend on the primal bound. -/
theorem searchP_terminates (F : Fam m rank M) (H : Layered m rank m.sti 0) {p0 : Int} (hp0 : m.sense.betterEQ p0 m.sense.best0 = true) {N : Nat}
    (hN : RankBound m rank m.sti 0 N) {U : List σ} (hU : ∀ x ls c, Path m m.sti ls c x → m.eqs x = false → x ∈ U)
    (w : Nat) {dfuel : Nat} (hf : N + 2 ≤ dfuel) (lim : Nat → Bool) {fuel : Nat} (hfu : U.length < fuel) :
    ∃ s, searchP m M w dfuel lim fuel p0 = some s ∧ (s.stopped = true ∨ Heap.empty s.pq = true) :=
  searchT_terminates (fun _ => F) H hp0 hN hU w hf lim hfu

/-- C04.  On a model with finitely many reachable states and bounded rank, every search ends: it takes
at most one main-loop iteration per reachable non-terminal state, no compilation along the way runs
forever, and no undefined behaviour of the queue or the cut set is reached. -/
theorem search_terminates (H : Layered m rank m.sti 0) {p0 : Int} (hp0 : m.sense.betterEQ p0 m.sense.best0 = true) {M : Nat}
    (hM : RankBound m rank m.sti 0 M) {U : List σ} (hU : ∀ x ls c, Path m m.sti ls c x → m.eqs x = false → x ∈ U)
    (w : Nat) {dfuel : Nat} (hf : M + 2 ≤ dfuel) (lim : Nat → Bool) {fuel : Nat} (hfu : U.length < fuel) :
    ∃ s, search m w dfuel lim fuel p0 = some s ∧ (s.stopped = true ∨ Heap.empty s.pq = true) :=
  searchP_terminates (Fam.const H) H hp0 hM hU w hf lim hfu

/-- States `d` decisions away from the initial state. -/
def level (m : Mdl σ) : Nat → List σ
  | 0 => [m.sti]
  | d + 1 => (level m d).flatMap fun s => (m.lgf s).filterMap (m.stf s)

theorem mem_level {s t : σ} {ls : List Int} {c : Int} (h : Path m s ls c t) : ∀ d, s ∈ level m d → t ∈ level m (d + ls.length) := by
  induction h with
  | nil s => intro d hd; exact hd
  | @cons s s' t l ls c hs _ ih =>
    intro d hd
    have := ih (d + 1) (List.mem_flatMap.2 ⟨s, hd, List.mem_filterMap.2 ⟨l, hs.2.1, hs.2.2⟩⟩)
    rw [List.length_cons, show d + (ls.length + 1) = d + 1 + ls.length by omega]
    exact this

/-- C04: bounded rank alone is enough for the search to end: every label set is finite, so only
finitely many states can be reached. -/
theorem searchT_ends (F : ∀ k, FamV Vl (Wl k) m rank (T k)) (H : LayeredV Vl m rank m.sti 0) {p0 : Int} (hp0 : m.sense.betterEQ p0 m.sense.best0 = true) {N : Nat}
    (hN : RankBound m rank m.sti 0 N) (w : Nat) {dfuel : Nat} (hf : N + 2 ≤ dfuel) (lim : Nat → Bool) :
    ∃ L, ∀ fuel, L < fuel → ∃ s, searchT m T lc w dfuel lim fuel p0 = some s ∧ (s.stopped = true ∨ Heap.empty s.pq = true) := by
  refine ⟨((List.range (N + 1)).flatMap (level m)).length, fun fuel hfu => ?_⟩
  refine searchT_terminates F H hp0 hN (U := (List.range (N + 1)).flatMap (level m)) ?_ w hf lim hfu
  intro x ls c hp hq
  have h0 := hp.relx (rank := rank) (v0 := 0) Relx.root
  have h1 := path_rank H hp 0 Relx.root hq
  have h2 := hN _ _ h0 hq
  have h3 := mem_level hp 0 (by simp [level])
  rw [Nat.zero_add] at h3
  exact List.mem_flatMap.2 ⟨ls.length, by simp only [List.mem_range]; omega, h3⟩

/-- C04: bounded rank alone is enough for the search to end: every label set is finite, so only
finitely many states can be reached. -/
theorem searchP_ends (F : Fam m rank M) (H : Layered m rank m.sti 0) {p0 : Int} (hp0 : m.sense.betterEQ p0 m.sense.best0 = true) {N : Nat}
    (hN : RankBound m rank m.sti 0 N) (w : Nat) {dfuel : Nat} (hf : N + 2 ≤ dfuel) (lim : Nat → Bool) :
    ∃ L, ∀ fuel, L < fuel → ∃ s, searchP m M w dfuel lim fuel p0 = some s ∧ (s.stopped = true ∨ Heap.empty s.pq = true) :=
  searchT_ends (fun _ => F) H hp0 hN w hf lim

/-- The same without a dependence on the primal bound. -/
theorem search_ends (H : Layered m rank m.sti 0) {p0 : Int} (hp0 : m.sense.betterEQ p0 m.sense.best0 = true) {N : Nat}
    (hN : RankBound m rank m.sti 0 N) (w : Nat) {dfuel : Nat} (hf : N + 2 ≤ dfuel) (lim : Nat → Bool) :
    ∃ L, ∀ fuel, L < fuel → ∃ s, search m w dfuel lim fuel p0 = some s ∧ (s.stopped = true ∨ Heap.empty s.pq = true) :=
  searchP_ends (Fam.const H) H hp0 hN w hf lim

/-! ### C03 -/

/-- `search_optimum_partial` below, for such a model and the completions `Vl` it keeps (`FamV`).  Missing: the same. -/
theorem searchV_optimum_partial (F : ∀ k, FamV Vl (Wl k) m rank (T k)) (V : ∀ k, LcOK Vl m (lc k)) (H : LayeredV Vl m rank m.sti 0) (hD : DomRank m rank) {p0 : Int} (hp0 : m.sense.betterEQ p0 m.sense.best0 = true)
    (hW : m.loc = none → ∀ c, Vl m.sti c → m.sense.betterEQ m.sense.worst0 c = true)
    {w dfuel fuel : Nat} {lim : Nat → Bool} {s : BS σ} (h : searchT m T lc w dfuel lim fuel p0 = some s)
    (hok : okLoopT m T lc w dfuel lim fuel 0 (init m w p0) = true) (hns : s.stopped = false) :
    ∀ c, Vl m.sti c → m.sense.betterEQ s.primal c = true := by
  obtain ⟨h1, h2, h3, h4, h5, key, h6⟩ := init_inv H.src H.fair.toUniq w p0
  have hK : KeyOK Vl m (init m w p0) := by
    intro i key ho c hv _
    obtain ⟨a, b⟩ := h5 i key ho
    subst a
    rw [h1.root.2, Int.zero_add, b]
    rw [h1.root.1] at hv
    cases hl : m.loc with
    | none => exact hW hl c hv
    | some f => exact H.local_ f hl _ _ _ _ Relx.root hv
  have hH : HInv Vl m rank (init m w p0) := by
    intro i hi c hv
    have hi : i < 1 := hi
    have : i = 0 := by omega
    subst this
    exact Or.inr ⟨0, key, c, h6, Nat.le_refl _, hv, by rw [Sense.betterEQ_iff]; exact Int.le_refl _⟩
  rcases loop_cov F V H hD hp0 fuel 0 _ _ h1 h2 hK hH hok h with x | x
  · rw [hns] at x; simp at x
  · exact x

/-- `search_optimum_partial` below, for a model whose labels may depend on the primal bound and whose local
bound may change between iterations.  Missing: the same. -/
theorem searchT_optimum_partial (F : ∀ k, Fam m rank (T k)) (V : ∀ k, LcOK (Val m) m (lc k)) (H : Layered m rank m.sti 0) (hD : DomRank m rank) {p0 : Int} (hp0 : m.sense.betterEQ p0 m.sense.best0 = true)
    (hW : m.loc = none → ∀ ls c, Sol m ls c → m.sense.betterEQ m.sense.worst0 c = true)
    {w dfuel fuel : Nat} {lim : Nat → Bool} {s : BS σ} (h : searchT m T lc w dfuel lim fuel p0 = some s)
    (hok : okLoopT m T lc w dfuel lim fuel 0 (init m w p0) = true) (hns : s.stopped = false) :
    ∀ ls c, Sol m ls c → m.sense.betterEQ s.primal c = true :=
  fun ls c hc => searchV_optimum_partial F V H hD hp0 (fun hl c ⟨ls, hc⟩ => hW hl ls c hc) h hok hns c ⟨ls, hc⟩

/-- `search_optimum_partial` below, for a model whose labels may depend on the primal bound.  Missing: the same. -/
theorem searchP_optimum_partial (F : Fam m rank M) (H : Layered m rank m.sti 0) (hD : DomRank m rank) {p0 : Int} (hp0 : m.sense.betterEQ p0 m.sense.best0 = true)
    (hW : m.loc = none → ∀ ls c, Sol m ls c → m.sense.betterEQ m.sense.worst0 c = true)
    {w dfuel fuel : Nat} {lim : Nat → Bool} {s : BS σ} (h : searchP m M w dfuel lim fuel p0 = some s)
    (hok : okLoopP m M w dfuel lim fuel 0 (init m w p0) = true) (hns : s.stopped = false) :
    ∀ ls c, Sol m ls c → m.sense.betterEQ s.primal c = true :=
  searchT_optimum_partial (fun _ => F) (fun _ => LcOK.of_fam F) H hD hp0 hW h hok hns

/-- What survives of C03: if along the run no arc from an exact node outside the cut set into the sink
still improved on the primal bound, no cut-set node was dropped for a pool node it was strictly better
than, none was the root, and none took queue nodes with it (`okLoop`), the final primal bound is at
least as good as every solution.  Missing: that these four never happen, which is false (below).
`hW`: without a local bound the root enters the queue with key `initialWorst`. -/
theorem search_optimum_partial (H : Layered m rank m.sti 0) (hD : DomRank m rank) {p0 : Int} (hp0 : m.sense.betterEQ p0 m.sense.best0 = true)
    (hW : m.loc = none → ∀ ls c, Sol m ls c → m.sense.betterEQ m.sense.worst0 c = true)
    {w dfuel fuel : Nat} {lim : Nat → Bool} {s : BS σ} (h : search m w dfuel lim fuel p0 = some s)
    (hok : okLoop m w dfuel lim fuel 0 (init m w p0) = true) (hns : s.stopped = false) :
    ∀ ls c, Sol m ls c → m.sense.betterEQ s.primal c = true :=
  searchP_optimum_partial (Fam.const H) H hD hp0 hW h hok hns

/-- `search_answer_partial` below, for such a model and the completions `Vl` it keeps.  Missing: the same. -/
theorem searchV_answer_partial (F : ∀ k, FamV Vl (Wl k) m rank (T k)) (V : ∀ k, LcOK Vl m (lc k)) (H : LayeredV Vl m rank m.sti 0) (hD : DomRank m rank) {p0 : Int} (hp0 : m.sense.betterEQ p0 m.sense.best0 = true)
    (hW : m.loc = none → ∀ c, Vl m.sti c → m.sense.betterEQ m.sense.worst0 c = true)
    {w dfuel fuel : Nat} {lim : Nat → Bool} {s : BS σ} (h : searchT m T lc w dfuel lim fuel p0 = some s)
    (hok : okLoopT m T lc w dfuel lim fuel 0 (init m w p0) = true) (hns : s.stopped = false) :
    (∀ c, Vl m.sti c → m.sense.betterEQ s.primal c = true) ∧
    (Sol m s.inc s.primal ∨ (s.primal = p0 ∧ ∀ c, Vl m.sti c → m.sense.better c p0 = false)) := by
  have ho := searchV_optimum_partial F V H hD hp0 hW h hok hns
  refine ⟨ho, ?_⟩
  by_cases hs : s.sols = []
  · right
    have := (primalT_improves F H hp0 h).2
    rw [hs] at this
    simp at this
    refine ⟨this.symm, fun c hc => ?_⟩
    have := ho c hc
    rw [Sense.betterEQ_iff] at this
    rw [Sense.better_false]
    rename_i heq
    rw [heq]; exact this
  · exact Or.inl ((searchT_sound F H hp0 h).2 hs)

/-- `search_answer_partial` below, for a model whose labels may depend on the primal bound and whose local
bound may change between iterations.  Missing: the same. -/
theorem searchT_answer_partial (F : ∀ k, Fam m rank (T k)) (V : ∀ k, LcOK (Val m) m (lc k)) (H : Layered m rank m.sti 0) (hD : DomRank m rank) {p0 : Int} (hp0 : m.sense.betterEQ p0 m.sense.best0 = true)
    (hW : m.loc = none → ∀ ls c, Sol m ls c → m.sense.betterEQ m.sense.worst0 c = true)
    {w dfuel fuel : Nat} {lim : Nat → Bool} {s : BS σ} (h : searchT m T lc w dfuel lim fuel p0 = some s)
    (hok : okLoopT m T lc w dfuel lim fuel 0 (init m w p0) = true) (hns : s.stopped = false) :
    (∀ ls c, Sol m ls c → m.sense.betterEQ s.primal c = true) ∧
    (Sol m s.inc s.primal ∨ (s.primal = p0 ∧ ∀ ls c, Sol m ls c → m.sense.better c p0 = false)) := by
  obtain ⟨a, b⟩ := searchV_answer_partial F V H hD hp0 (fun hl c ⟨ls, hc⟩ => hW hl ls c hc) h hok hns
  exact ⟨fun ls c hc => a c ⟨ls, hc⟩, b.imp id fun ⟨x, y⟩ => ⟨x, fun ls c hc => y c ⟨ls, hc⟩⟩⟩

/-- `search_answer_partial` below, for a model whose labels may depend on the primal bound.  Missing: the same. -/
theorem searchP_answer_partial (F : Fam m rank M) (H : Layered m rank m.sti 0) (hD : DomRank m rank) {p0 : Int} (hp0 : m.sense.betterEQ p0 m.sense.best0 = true)
    (hW : m.loc = none → ∀ ls c, Sol m ls c → m.sense.betterEQ m.sense.worst0 c = true)
    {w dfuel fuel : Nat} {lim : Nat → Bool} {s : BS σ} (h : searchP m M w dfuel lim fuel p0 = some s)
    (hok : okLoopP m M w dfuel lim fuel 0 (init m w p0) = true) (hns : s.stopped = false) :
    (∀ ls c, Sol m ls c → m.sense.betterEQ s.primal c = true) ∧
    (Sol m s.inc s.primal ∨ (s.primal = p0 ∧ ∀ ls c, Sol m ls c → m.sense.better c p0 = false)) :=
  searchT_answer_partial (fun _ => F) (fun _ => LcOK.of_fam F) H hD hp0 hW h hok hns

/-- Then the search's answer is an optimum: nothing beats it, and it is a solution unless nothing
beats the bound given at the start. -/
theorem search_answer_partial (H : Layered m rank m.sti 0) (hD : DomRank m rank) {p0 : Int} (hp0 : m.sense.betterEQ p0 m.sense.best0 = true)
    (hW : m.loc = none → ∀ ls c, Sol m ls c → m.sense.betterEQ m.sense.worst0 c = true)
    {w dfuel fuel : Nat} {lim : Nat → Bool} {s : BS σ} (h : search m w dfuel lim fuel p0 = some s)
    (hok : okLoop m w dfuel lim fuel 0 (init m w p0) = true) (hns : s.stopped = false) :
    (∀ ls c, Sol m ls c → m.sense.betterEQ s.primal c = true) ∧
    (Sol m s.inc s.primal ∨ (s.primal = p0 ∧ ∀ ls c, Sol m ls c → m.sense.better c p0 = false)) :=
  searchP_answer_partial (Fam.const H) H hD hp0 hW h hok hns

/-- A run with two processed nodes, merged relaxations and truncated restrictions that meets all of
this: the knapsack, width 2. -/
example : ∃ s, search kn.mdl 2 50 (fun _ => false) 50 (-2147483647) = some s ∧ s.pn = 2 ∧ s.primal = 95 ∧ s.inc = [1, 0, 0, 1] ∧
    ∀ ls c, Sol kn.mdl ls c → c ≤ 95 := by
  have hv : (search kn.mdl 2 50 (fun _ => false) 50 (-2147483647)).map (fun s => (s.pn, s.primal, s.inc, s.stopped)) =
      some (2, 95, [1, 0, 0, 1], false) := by decide +kernel
  simp only [Option.map_eq_some_iff] at hv
  obtain ⟨s, h1, h2⟩ := hv
  simp at h2
  refine ⟨s, h1, h2.1, h2.2.1, h2.2.2.1, fun ls c hs => ?_⟩
  have := search_optimum_partial kn_layered (by intro sd hsd; simp [Ex.Knap.mdl] at hsd) (by decide)
    (fun _ ls c hs => by
      obtain ⟨a1, a2, _, a4⟩ := (kn.sol_iff (by intro i; simp only [kn]; match i with | 0 | 1 | 2 | 3 => decide | n + 4 => simp) (by decide) (by decide) ls c).1 hs
      match ls, a1 with
      | [x, y, z, t], _ =>
        have e1 := a2 x (by simp)
        have e2 := a2 y (by simp)
        have e3 := a2 z (by simp)
        have e4 := a2 t (by simp)
        rw [Sense.betterEQ_iff, a4]
        simp only [kn, Ex.Knap.mdl, Ex.Knap.gain, Sense.k, Sense.worst0, List.getD_cons_zero, List.getD_cons_succ]
        omega) h1 (by decide +kernel) h2.2.2.2 ls c hs
  rw [h2.2.1] at this
  simpa [Ex.Knap.mdl, Sense.betterEQ] using this

/-- C03 is false: `f1` is a valid model without local bound or dominance, the width is 2, and the
search ends with an empty queue and primal 12 although `[1,0,0]` costs 4. -/
theorem search_optimum_false : ¬ ∀ (m : Mdl Nat) (rank : Nat → Nat) (w dfuel fuel : Nat) (s : BS Nat),
    Layered m rank m.sti 0 → m.loc = none → m.sdom = none →
    search m w dfuel (fun _ => false) fuel m.sense.best0 = some s → s.stopped = false → Heap.empty s.pq = true →
    ∀ ls c, Sol m ls c → m.sense.betterEQ s.primal c = true := by
  intro hall
  have hv : (search f1 2 50 (fun _ => false) 50 2147483647).map (fun s => (s.primal, s.stopped, Heap.empty s.pq)) =
      some (12, false, true) := by decide +kernel
  simp only [Option.map_eq_some_iff] at hv
  obtain ⟨s, h1, h2⟩ := hv
  simp at h2
  have hs : Sol f1 [1, 0, 0] 4 :=
    (Path.cons (s' := 2) ⟨by decide, by decide, by decide⟩ (Path.cons (s' := 6) ⟨by decide, by decide, by decide⟩
      (Path.cons (s' := 9) ⟨by decide, by decide, by decide⟩ (Path.nil 9))) : Path f1 0 [1, 0, 0] (2 + (1 + (1 + 0))) 9)
  have := hall f1 f1rank 2 50 50 s f1_layered rfl rfl h1 h2.2.1 h2.2.2 _ _ hs
  rw [h2.1] at this
  simp [f1, gm, Sense.betterEQ] at this

/-! ### C21: widening -/

/-- Two children of the root, merged at width 1. -/
def f2 : Mdl Nat := gm .min [(0,0,1,1), (0,1,2,2), (1,0,9,10), (2,0,9,1), (3,0,9,1)] [(1,2,3)] 9
def f2rank (s : Nat) : Nat := [0, 1, 1, 1].getD s 0
theorem f2_layered : Layered f2 f2rank 0 0 := layChk_sound 3 (closeR f2 f2rank 3) (by decide +kernel)

/-- C21 is false: the cut set is the root, the search widens to 2, and ends there with primal 11 and
only the root ever in the pool, although `[1,0]` costs 3. -/
theorem widening_false : ∃ s, Layered f2 f2rank 0 0 ∧ search f2 1 50 (fun _ => false) 50 2147483647 = some s ∧
    s.stopped = false ∧ s.pn = 1 ∧ s.wrel = 2 ∧ s.primal = 11 ∧ Sol f2 [1, 0] 3 := by
  have hv : (search f2 1 50 (fun _ => false) 50 2147483647).map (fun s => (s.stopped, s.pn, s.wrel, s.primal)) =
      some (false, 1, 2, 11) := by decide +kernel
  simp only [Option.map_eq_some_iff] at hv
  obtain ⟨s, h1, h2⟩ := hv
  simp at h2
  exact ⟨s, f2_layered, h1, h2.1, h2.2.1, h2.2.2.1, h2.2.2.2,
    (Path.cons (s' := 2) ⟨by decide, by decide, by decide⟩ (Path.cons (s' := 9) ⟨by decide, by decide, by decide⟩
      (Path.nil 9)) : Path f2 0 [1, 0] (2 + (1 + 0)) 9)⟩

/-- A cut-set node whose state is in the pool is never queued, whatever its bound. -/
theorem dedup_drops {lc : Option (σ → Ctx → Int)} {g : G σ} {cur : Nat} {s : BS σ} {n o : Nat} (hP : PInv m s) (ho : o < s.pn) (hst : s.pst o = g.st n) :
    (cutStep m lc g cur s n).pn = s.pn ∧ ∀ i key, Opn (cutStep m lc g cur s n) i key → Opn s i key := by
  unfold cutStep
  dsimp only
  generalize hs : (if n = g.root then { s with wrel := s.wrel + 1 } else s) = t
  have hPt : PInv m t := by
    rw [← hs]; split
    · exact ⟨hP.wf, hP.ord, hP.pos, hP.root, hP.idx, hP.gen, hP.inj, hP.uq⟩
    · exact hP
  have f1 : t.pst = s.pst := by rw [← hs]; split <;> rfl
  have f4 : t.pn = s.pn := by rw [← hs]; split <;> rfl
  have f5 : t.pq = s.pq := by rw [← hs]; split <;> rfl
  have hop : ∀ i key, Opn t i key → Opn s i key := by
    rintro i key ⟨l, l1, l2⟩
    rw [f5] at l1 l2
    exact ⟨l, l1, l2⟩
  split
  · obtain ⟨q', d1, _, _, d4, _, d6, _, _, _⟩ := domStep_spec hPt (g.st n) (g.bound n)
    generalize hdd : domStep m t (g.st n) (g.bound n) = D at *
    obtain ⟨b, s1⟩ := D
    dsimp only at d1
    subst d1
    have hop' : ∀ i key, Opn { t with pq := q' } i key → Opn s i key := by
      rintro i key ⟨l, l1, l2⟩
      exact hop i key ⟨l, d6 l l1, by rw [← d4]; exact l2⟩
    cases b with
    | true => exact ⟨f4, hop'⟩
    | false =>
      dsimp only
      cases hf : findPool { t with pq := q' } (g.st n) with
      | some o' => exact ⟨f4, hop'⟩
      | none =>
        exfalso
        refine findPool_none hP.uq hf o ?_ ?_
        · show o < t.pn; rw [f4]; exact ho
        · show t.pst o = g.st n; rw [f1]; exact hst
  · exact ⟨f4, hop⟩

/-- Widening never leads to the root being processed again: the split root is always in the pool. -/
theorem widening_lost (H : LayeredV Vl m rank m.sti 0) {lc : Option (σ → Ctx → Int)} {s : BS σ} (hP : PInv m s) {cur wr fuel : Nat} (hc : cur < s.pn) {prim : Int} {g : G σ}
    (hg : relaxed m prim wr fuel (s.src cur) = some g) :
    (cutStep m lc g cur s g.root).pn = s.pn ∧ ∀ i key, Opn (cutStep m lc g cur s g.root) i key → Opn s i key :=
  dedup_drops hP hc (cut_facts (hP.layered H hc).2 hg).1.symm

/-! ### C22: a state reached again -/

/-- States 1 and 2 both lead to 3, 2 more cheaply; 1 looks better because 4 and 5 merge into 6. -/
def f3 : Mdl Nat := gm .min
  [(0,0,1,0), (0,1,2,0), (1,0,3,10), (1,1,4,0), (2,0,3,5), (2,1,5,50), (3,0,20,0), (3,1,21,0), (20,0,7,1), (20,1,9,8), (21,0,8,1),
   (7,0,99,100), (8,0,99,100), (9,0,99,1), (10,0,99,100), (4,0,11,1), (5,0,11,1), (6,0,12,-10), (12,0,13,0), (13,0,99,0), (11,0,14,0), (14,0,99,60)]
  [(4,5,6), (7,8,10)] 99
def f3rank (s : Nat) : Nat :=
  (([(0,0),(1,1),(2,1),(3,2),(4,2),(5,2),(6,2),(20,3),(21,3),(11,3),(12,3),(7,4),(8,4),(9,4),(10,4),(13,4),(14,4)] : List (Nat × Nat)).find?
    (fun p => p.1 = s)).elim 0 (·.2)
theorem f3_layered : Layered f3 f3rank 0 0 := layChk_sound 7 (closeR f3 f3rank 7) (by decide +kernel)

/-- C22 is false: state 20 is in the pool with bound 10, is reached again with bound 5 and dropped; the
search ends with primal 19 although `[1,0,0,1,0]` costs 14.  No arc into the sink and no widening is
involved: the queue simply never sees the better node. -/
theorem rereach_false : ∃ s, Layered f3 f3rank 0 0 ∧ search f3 2 50 (fun _ => false) 50 2147483647 = some s ∧
    s.stopped = false ∧ s.wrel = 2 ∧ (List.range s.pn).map (fun i => (s.pst i, s.pbound i)) = [(0, 0), (1, 0), (2, 0), (20, 10)] ∧
    s.primal = 19 ∧ Sol f3 [1, 0, 0, 1, 0] 14 ∧ Path f3 0 [1, 0, 0] 5 20 := by
  have hv : (search f3 2 50 (fun _ => false) 50 2147483647).map (fun s => (s.stopped, s.wrel,
      (List.range s.pn).map (fun i => (s.pst i, s.pbound i)), s.primal)) =
      some (false, 2, [(0, 0), (1, 0), (2, 0), (20, 10)], 19) := by decide +kernel
  simp only [Option.map_eq_some_iff] at hv
  obtain ⟨s, h1, h2⟩ := hv
  simp at h2
  refine ⟨s, f3_layered, h1, h2.1, h2.2.1, h2.2.2.1, h2.2.2.2, ?_, ?_⟩
  · exact (Path.cons (s' := 2) ⟨by decide, by decide, by decide⟩ (Path.cons (s' := 3) ⟨by decide, by decide, by decide⟩
      (Path.cons (s' := 20) ⟨by decide, by decide, by decide⟩ (Path.cons (s' := 9) ⟨by decide, by decide, by decide⟩
      (Path.cons (s' := 99) ⟨by decide, by decide, by decide⟩ (Path.nil 99))))) : Path f3 0 [1, 0, 0, 1, 0] (0 + (5 + (0 + (8 + (1 + 0))))) 99)
  · exact (Path.cons (s' := 2) ⟨by decide, by decide, by decide⟩ (Path.cons (s' := 3) ⟨by decide, by decide, by decide⟩
      (Path.cons (s' := 20) ⟨by decide, by decide, by decide⟩ (Path.nil 20))) : Path f3 0 [1, 0, 0] (0 + (5 + (0 + 0))) 20)

/-! ### The hypotheses of C01, C02 and C04 are met -/

example (lim : Nat → Bool) (w : Nat) : ∃ s, search f3 w 9 lim 30 2147483647 = some s ∧ (s.stopped = true ∨ Heap.empty s.pq = true) ∧
    (∀ x, x ∈ s.sols → Sol f3 x.2 x.1) := by
  have hin : ∀ s v, Relx f3 f3rank 0 0 s v → (s, v) ∈ closeR f3 f3rank 7 := fun s v h =>
    layChk_relx (N := 7) (by decide +kernel) (by decide +kernel) (by decide +kernel) h
  have hM : RankBound f3 f3rank 0 0 7 := by
    intro s v hr _
    have hc : (closeR f3 f3rank 7).all (fun x => f3rank x.1 ≤ 7) = true := by decide +kernel
    rw [List.all_eq_true] at hc
    simpa using hc _ (hin s v hr)
  obtain ⟨s, h1, h2⟩ := search_terminates (p0 := 2147483647) (m := f3) f3_layered (by decide) hM (U := [0, 1, 2, 3, 4, 5, 20, 21, 7, 8, 9, 11, 14, 99, 6, 12, 13, 10]) (by
    intro x ls c hp _
    have := hin x (0 + c) (hp.relx Relx.root)
    have hc : (closeR f3 f3rank 7).all (fun x => decide (x.1 ∈ [0, 1, 2, 3, 4, 5, 20, 21, 7, 8, 9, 11, 14, 99, 6, 12, 13, 10])) = true := by decide +kernel
    rw [List.all_eq_true] at hc
    have := hc _ this
    simpa using this) w (dfuel := 9) (by decide) lim (fuel := 30) (by decide)
  exact ⟨s, h1, h2, (search_sound f3_layered (by decide) h1).1⟩

end Verif.BB
