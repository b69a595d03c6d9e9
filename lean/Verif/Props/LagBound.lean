import Verif.Props.Clique
/-!
# C88: the clique and Lagrangian bounds of misp4_lag
-/
namespace Verif.Ex
open Verif.DD

variable (g : Misp)

/-- What a bound on vertex sets must satisfy: no independent subset weighs more. -/
def Misp.Above (g : Misp) (s : Nat) (b : Rat) : Prop :=
  ∀ vs, g.IndV vs → (∀ v, v ∈ vs → s.testBit v = true) → (g.wts vs : Rat) ≤ b

/-- Multipliers as they should be: non-negative, on edges only. -/
def Misp.LamOK (g : Misp) (m : Lam) : Prop :=
  ∀ e, e ∈ m → 0 ≤ e.2 ∧ e.1.1 ≠ e.1.2 ∧ ((e.1.1, e.1.2) ∈ g.edges ∨ (e.1.2, e.1.1) ∈ g.edges)

/-! ### Sums -/

theorem le_rmax_left (a b : Rat) : a ≤ rmax a b := by unfold rmax; split <;> grind
theorem le_rmax_right (a b : Rat) : b ≤ rmax a b := by unfold rmax; split <;> grind

theorem sumTo_upd (nc : Nat) (cw : Int → Rat) {c : Nat} (hc : c < nc) :
    sumTo nc cw = cw c + sumTo nc (fun d => if d = (c : Int) then 0 else cw d) := by
  unfold sumTo
  induction nc with
  | zero => omega
  | succ nc ih =>
    rw [List.range_succ, List.map_append, List.map_append, List.sum_append, List.sum_append]
    simp only [List.map_cons, List.map_nil, List.sum_cons, List.sum_nil]
    by_cases h : c = nc
    · subst h
      have e : (List.range c).map (fun d : Nat => if (d : Int) = (c : Int) then 0 else cw d) = (List.range c).map fun d : Nat => cw d := by
        apply List.map_congr_left
        intro d hd
        have := List.mem_range.1 hd
        rw [if_neg (by omega)]
      rw [e, if_pos rfl]
      grind
    · have := ih (by omega)
      rw [if_neg (by omega), this]
      grind

theorem sumTo_nonneg (nc : Nat) {cw : Int → Rat} (h : ∀ c : Nat, c < nc → 0 ≤ cw c) : 0 ≤ sumTo nc cw := by
  unfold sumTo
  induction nc with
  | zero => simp
  | succ nc ih =>
    rw [List.range_succ, List.map_append, List.sum_append]
    have h1 := ih (fun c hc => h c (by omega))
    have h2 := h nc (by omega)
    simp only [List.map_cons, List.map_nil, List.sum_cons, List.sum_nil]
    grind

/-- At most one vertex of each class: their weights are bounded by one value per class. -/
theorem sum_classes {nc : Nat} {co : Nat → Int} {wt : Nat → Rat} : ∀ (vs : List Nat) (cw : Int → Rat), (∀ c : Nat, c < nc → 0 ≤ cw c) →
    (∀ v, v ∈ vs → ∃ c : Nat, co v = c ∧ c < nc ∧ wt v ≤ cw c) → vs.Pairwise (fun a b => co a ≠ co b) → (vs.map wt).sum ≤ sumTo nc cw := by
  intro vs
  induction vs with
  | nil => intro cw h0 _ _; simpa using sumTo_nonneg nc h0
  | cons v vs ih =>
    intro cw h0 h1 h2
    obtain ⟨c, e1, e2, e3⟩ := h1 v List.mem_cons_self
    rw [List.pairwise_cons] at h2
    have := ih (fun d => if d = (c : Int) then 0 else cw d) (fun d hd => by
        show (0 : Rat) ≤ if (d : Int) = (c : Int) then 0 else cw d
        by_cases h : (d : Int) = (c : Int)
        · rw [if_pos h]; grind
        · rw [if_neg h]; exact h0 d hd) (fun u hu => by
        obtain ⟨d, f1, f2, f3⟩ := h1 u (List.mem_cons_of_mem _ hu)
        have hne := h2.1 u hu
        refine ⟨d, f1, f2, ?_⟩
        show wt u ≤ if (d : Int) = (c : Int) then 0 else cw d
        rw [if_neg (by omega)]; exact f3) h2.2
    rw [sumTo_upd nc cw e2, List.map_cons, List.sum_cons]
    grind

theorem Misp.wts_cast (vs : List Nat) : (g.wts vs : Rat) = (vs.map fun v => (g.w v : Rat)).sum := by
  unfold Misp.wts
  induction vs with
  | nil => simp
  | cons v vs ih => simp only [List.map_cons, List.sum_cons, Rat.intCast_add, ih]

theorem Misp.ind_classes {cs : List (List Nat)} (H : g.Partition cs) {vs : List Nat} (h : g.IndV vs) :
    vs.Pairwise fun a b => cliqueOf cs a ≠ cliqueOf cs b := by
  obtain ⟨h1, h2⟩ := h
  induction vs with
  | nil => simp
  | cons v vs ih =>
    rw [List.pairwise_cons] at h2 ⊢
    refine ⟨fun u hu e => ?_, ih (fun u hu => h1 u (List.mem_cons_of_mem _ hu)) h2.2⟩
    have hlt := h2.1 u hu
    rcases class_joined g H (h1 v List.mem_cons_self) (h1 u (List.mem_cons_of_mem _ hu)) (by omega) e with x | x
    · exact hlt.2.1 x
    · exact hlt.2.2 x

theorem Misp.clqW_spec (co : Nat → Int) (s : Nat) (wt : Nat → Rat) :
    (∀ c, 0 ≤ g.clqW co s wt c) ∧ ∀ v, v < g.top → s.testBit v = true → wt v ≤ g.clqW co s wt (co v) := by
  have key : ∀ (l : List Nat) (cw : Int → Rat), (∀ c, 0 ≤ cw c) →
      let r := l.foldl (fun (cw : Int → Rat) v => fun c => if c = co v then rmax (cw (co v)) (wt v) else cw c) cw
      (∀ c, cw c ≤ r c) ∧ ∀ v, v ∈ l → wt v ≤ r (co v) := by
    intro l
    induction l with
    | nil => intro cw _; exact ⟨fun c => by simp, by simp⟩
    | cons v l ih =>
      intro cw h0
      have hle : ∀ c, cw c ≤ (fun c => if c = co v then rmax (cw (co v)) (wt v) else cw c) c := by
        intro c
        dsimp only
        split
        · rename_i h; rw [h]; exact le_rmax_left _ _
        · grind
      obtain ⟨a, b⟩ := ih (fun c => if c = co v then rmax (cw (co v)) (wt v) else cw c) (fun c => by have := hle c; have := h0 c; grind)
      refine ⟨fun c => ?_, fun u hu => ?_⟩
      · have := a c; have := hle c; rw [List.foldl_cons]; grind
      · rw [List.foldl_cons]
        rcases List.mem_cons.1 hu with rfl | hu
        · have h1 := a (co u)
          rw [if_pos rfl] at h1
          have := le_rmax_right (cw (co u)) (wt u)
          grind
        · exact b u hu
  obtain ⟨a, b⟩ := key (g.elems s) (fun _ => 0) (fun _ => by grind)
  exact ⟨a, fun v hv hb => b v (by unfold Misp.elems; rw [List.mem_filter, List.mem_range]; exact ⟨hv, hb⟩)⟩

/-- The sum over the classes is above any weights of an independent set. -/
theorem Misp.clq_above {cs : List (List Nat)} (H : g.Partition cs) (s : Nat) (wt : Nat → Rat) {vs : List Nat} (hi : g.IndV vs)
    (hs : ∀ v, v ∈ vs → s.testBit v = true) : (vs.map wt).sum ≤ sumTo cs.length (g.clqW (cliqueOf cs) s wt) := by
  obtain ⟨a, b⟩ := g.clqW_spec (cliqueOf cs) s wt
  refine sum_classes (co := cliqueOf cs) vs _ (fun c _ => a c) (fun v hv => ?_) (g.ind_classes H hi)
  obtain ⟨i, h1, h2, _⟩ := cliqueOf_class g H (hi.1 v hv)
  exact ⟨i, h1, h2, by rw [← h1]; exact b v (hi.1 v hv) (hs v hv)⟩

/-- C88: the clique bound is valid for every vertex set. -/
theorem cliqueBound_valid {cs : List (List Nat)} (H : g.Partition cs) (s : Nat) : g.Above s (g.cliqueBound cs s) := by
  intro vs hi hs
  rw [g.wts_cast]
  exact g.clq_above H s _ hi hs

/-- A whole number. -/
def Whole (r : Rat) : Prop := ∃ k : Int, r = (k : Rat)

/-- C88: with whole weights the clique bound is whole, so nothing is lost by returning it as a cost. -/
theorem cliqueBound_whole (cs : List (List Nat)) (s : Nat) : ((g.cliqueBound cs s).floor : Rat) = g.cliqueBound cs s := by
  have hw : Whole (g.cliqueBound cs s) := by
    have key : ∀ (l : List Nat) (cw : Int → Rat), (∀ c, Whole (cw c)) → ∀ c, Whole ((l.foldl (fun (cw : Int → Rat) v => fun c =>
        if c = cliqueOf cs v then rmax (cw (cliqueOf cs v)) (g.w v : Rat) else cw c) cw) c) := by
      intro l
      induction l with
      | nil => intro cw h c; exact h c
      | cons v l ih =>
        intro cw h
        rw [List.foldl_cons]
        refine ih _ fun c => ?_
        split
        · unfold rmax
          split
          · exact ⟨g.w v, rfl⟩
          · exact h _
        · exact h c
    have h1 := key (g.elems s) (fun _ => 0) (fun _ => ⟨0, by simp⟩)
    unfold Misp.cliqueBound sumTo
    generalize cs.length = n
    induction n with
    | zero => exact ⟨0, by simp⟩
    | succ n ih =>
      rw [List.range_succ, List.map_append, List.sum_append]
      obtain ⟨a, ha⟩ := ih
      obtain ⟨b, hb⟩ := h1 n
      refine ⟨a + b, ?_⟩
      rw [ha]
      simp only [List.map_cons, List.map_nil, List.sum_cons, List.sum_nil, Rat.intCast_add]
      unfold Misp.clqW
      rw [hb]
      grind
  obtain ⟨k, hk⟩ := hw
  rw [hk, Rat.floor_intCast]

/-! ### Multipliers -/

/-- All subtractions of a list of multipliers. -/
def subAll (m : Lam) (wt : Nat → Rat) : Nat → Rat := m.foldl (fun a e => sub2 a e.1.1 e.1.2 e.2) wt

theorem sub2_eq (wt : Nat → Rat) (i j : Nat) (r : Rat) (v : Nat) :
    sub2 wt i j r v = wt v - (if v = i then r else 0) - (if v = j then r else 0) := by
  unfold sub2
  dsimp only
  by_cases h1 : v = j
  · by_cases h2 : v = i
    · have h3 : j = i := h1.symm.trans h2
      rw [if_pos h1, if_pos h3, if_pos h2, if_pos h1, h2]
    · have h3 : ¬ j = i := fun h => h2 (h1.trans h)
      rw [if_pos h1, if_neg h3, if_neg h2, if_pos h1, h1]; grind
  · rw [if_neg h1, if_neg h1]
    by_cases h2 : v = i
    · rw [if_pos h2, if_pos h2, h2]; grind
    · rw [if_neg h2, if_neg h2]; grind

theorem sum_none {i : Nat} {r : Rat} (vs : List Nat) (h : i ∉ vs) : (vs.map fun v => if v = i then r else 0).sum = 0 := by
  induction vs with
  | nil => rfl
  | cons v vs ih =>
    rw [List.map_cons, List.sum_cons, ih (fun h' => h (List.mem_cons_of_mem _ h')), if_neg (fun e => h (by rw [e]; exact List.mem_cons_self))]
    grind

theorem sum_one {i : Nat} {r : Rat} (hr : 0 ≤ r) (vs : List Nat) (h : vs.Nodup) : (vs.map fun v => if v = i then r else 0).sum ≤ r := by
  induction vs with
  | nil => simpa using hr
  | cons v vs ih =>
    rw [List.nodup_cons] at h
    rw [List.map_cons, List.sum_cons]
    by_cases e : v = i
    · rw [if_pos e, sum_none vs (e ▸ h.1)]; grind
    · rw [if_neg e]; have := ih h.2; grind

/-- Charging an edge lowers the weight of an independent set by at most its multiplier. -/
theorem Misp.sub2_sum {vs : List Nat} (hi : g.IndV vs) (wt : Nat → Rat) {i j : Nat} {r : Rat} (hr : 0 ≤ r) (hne : i ≠ j)
    (he : (i, j) ∈ g.edges ∨ (j, i) ∈ g.edges) : (vs.map wt).sum ≤ (vs.map (sub2 wt i j r)).sum + r := by
  have hnd : vs.Nodup := hi.2.imp fun h => by omega
  have hs : (vs.map (sub2 wt i j r)).sum = (vs.map wt).sum - (vs.map fun v => if v = i then r else 0).sum - (vs.map fun v => if v = j then r else 0).sum := by
    clear hi hnd
    induction vs with
    | nil => simp only [List.map_nil, List.sum_nil]; grind
    | cons v vs ih => simp only [List.map_cons, List.sum_cons, ih, sub2_eq]; grind
  rw [hs]
  have h1 := sum_one (i := i) hr vs hnd
  have h2 := sum_one (i := j) hr vs hnd
  by_cases hiv : i ∈ vs
  · have hjv : j ∉ vs := by
      intro hjv
      have hp := hi.2
      have : ∀ a, a ∈ vs → ∀ b, b ∈ vs → a < b → (a, b) ∉ g.edges ∧ (b, a) ∉ g.edges := by
        clear hiv hjv hs h1 h2 hi hnd
        intro a ha b hb hlt
        induction vs with
        | nil => simp at ha
        | cons v vs ih =>
          rw [List.pairwise_cons] at hp
          rcases List.mem_cons.1 ha with rfl | ha
          · rcases List.mem_cons.1 hb with rfl | hb
            · omega
            · exact (hp.1 b hb).2
          · rcases List.mem_cons.1 hb with e | hb
            · have := (hp.1 a ha).1; omega
            · exact ih hp.2 ha hb
      rcases Nat.lt_or_gt_of_ne hne with h | h
      · have := this i hiv j hjv h; exact he.elim this.1 this.2
      · have := this j hjv i hiv h; exact he.elim this.2 this.1
    rw [sum_none (i := j) vs hjv]; grind
  · rw [sum_none (i := i) vs hiv]; grind

theorem Misp.subAll_sum {vs : List Nat} (hi : g.IndV vs) : ∀ (m : Lam) (wt : Nat → Rat), g.LamOK m →
    (vs.map wt).sum ≤ (vs.map (subAll m wt)).sum + (m.map fun e => e.2).sum := by
  intro m
  induction m with
  | nil => intro wt _; simp only [subAll, List.foldl_nil, List.map_nil, List.sum_nil]; grind
  | cons e m ih =>
    intro wt hm
    obtain ⟨h1, h2, h3⟩ := hm e List.mem_cons_self
    have a := g.sub2_sum hi wt h1 h2 h3
    have b := ih (sub2 wt e.1.1 e.1.2 e.2) (fun e' he' => hm e' (List.mem_cons_of_mem _ he'))
    have e1 : subAll (e :: m) wt = subAll m (sub2 wt e.1.1 e.1.2 e.2) := rfl
    rw [e1, List.map_cons (f := fun e : (Nat × Nat) × Rat => e.2), List.sum_cons]
    grind

theorem lagFold_eq (s : Nat) (m : Lam) (wt : Nat → Rat) :
    lagFold s m wt = (subAll (m.filter fun e => s.testBit e.1.1 && s.testBit e.1.2) wt,
      ((m.filter fun e => s.testBit e.1.1 && s.testBit e.1.2).map fun e => e.2).sum) := by
  have key : ∀ (m : Lam) (a : (Nat → Rat) × Rat), m.foldl (fun a e =>
      if s.testBit e.1.1 && s.testBit e.1.2 then (sub2 a.1 e.1.1 e.1.2 e.2, a.2 + e.2) else (a.1, a.2 + 0)) a =
      (subAll (m.filter fun e => s.testBit e.1.1 && s.testBit e.1.2) a.1,
        a.2 + ((m.filter fun e => s.testBit e.1.1 && s.testBit e.1.2).map fun e => e.2).sum) := by
    intro m
    induction m with
    | nil => intro a; exact Prod.ext rfl (by simp only [List.foldl_nil, List.filter_nil, List.map_nil, List.sum_nil]; grind)
    | cons e m ih =>
      intro a
      rw [List.foldl_cons, ih]
      cases h : (s.testBit e.1.1 && s.testBit e.1.2) with
      | true =>
        rw [List.filter_cons_of_pos (by simpa using h)]
        simp only [if_true, subAll, List.foldl_cons, List.map_cons, List.sum_cons]
        exact Prod.ext rfl (by dsimp only; grind)
      | false =>
        rw [List.filter_cons_of_neg (by simpa using h)]
        simp only [Bool.false_eq_true, if_false]
        exact Prod.ext rfl (by dsimp only; grind)
  unfold lagFold
  rw [key]
  exact Prod.ext rfl (by dsimp only; grind)

/-- Rounding: a whole number below `x` survives the flooring of any `y` at most the tolerance below `x`. -/
theorem floorEps_round {c : Int} {x y : Rat} (h : (c : Rat) ≤ x) (hy : x - 1 / 100000 ≤ y) : c ≤ floorEps y := by
  unfold floorEps
  rw [Rat.le_floor_iff]
  grind

theorem floorEps_le {c : Int} {x : Rat} (h : (c : Rat) ≤ x) : c ≤ floorEps x := floorEps_round h (by grind)

/-- C88: with non-negative multipliers on edges, in any order, `LagBound` is valid for every vertex set. -/
theorem lagBound_valid {cs : List (List Nat)} (H : g.Partition cs) {m : Lam} (hm : g.LamOK m) (s : Nat) {vs : List Nat}
    (hi : g.IndV vs) (hs : ∀ v, v ∈ vs → s.testBit v = true) : g.wts vs ≤ g.lagBound cs m s := by
  unfold Misp.lagBound
  dsimp only
  rw [lagFold_eq]
  dsimp only
  apply floorEps_le
  rw [g.wts_cast]
  have a := g.subAll_sum hi (m.filter fun e => s.testBit e.1.1 && s.testBit e.1.2) (fun v => (g.w v : Rat))
    (fun e he => hm e (List.mem_filter.1 he).1)
  have b := g.clq_above H s (subAll (m.filter fun e => s.testBit e.1.1 && s.testBit e.1.2) fun v => (g.w v : Rat)) hi hs
  grind

/-! ### The subgradient procedure -/

theorem bestIn_spec (s : Nat) (wt : Nat → Rat) (c : List Nat) :
    0 ≤ (bestIn s wt c).1 ∧ ∀ v, v ∈ c → s.testBit v = true → wt v ≤ (bestIn s wt c).1 := by
  have key : ∀ (c : List Nat) (a : Rat × Option Nat),
      let r := c.foldl (fun a v => if s.testBit v && decide (a.1 < wt v) then (wt v, some v) else a) a
      a.1 ≤ r.1 ∧ ∀ v, v ∈ c → s.testBit v = true → wt v ≤ r.1 := by
    intro c
    induction c with
    | nil => intro a; exact ⟨by simp, by simp⟩
    | cons u c ih =>
      intro a
      dsimp only
      rw [List.foldl_cons]
      obtain ⟨h1, h2⟩ := ih (if s.testBit u && decide (a.1 < wt u) then (wt u, some u) else a)
      have hle : a.1 ≤ (if s.testBit u && decide (a.1 < wt u) then (wt u, some u) else a).1 := by
        by_cases h : (s.testBit u && decide (a.1 < wt u)) = true
        · rw [if_pos h]; simp at h; grind
        · rw [if_neg h]; grind
      have hu : s.testBit u = true → wt u ≤ (if s.testBit u && decide (a.1 < wt u) then (wt u, some u) else a).1 := by
        intro hs
        by_cases h : (s.testBit u && decide (a.1 < wt u)) = true
        · rw [if_pos h]; grind
        · rw [if_neg h]; simp [hs] at h; grind
      refine ⟨by grind, fun v hv hs => ?_⟩
      rcases List.mem_cons.1 hv with rfl | hv
      · have := hu hs; grind
      · exact h2 v hv hs
  exact key c (0, none)

theorem solveSub_eq (cs : List (List Nat)) (s : Nat) (wt : Nat → Rat) :
    (solveSub cs s wt).1 = sumTo cs.length fun c => (bestIn s wt (cs.getD c.toNat [])).1 := by
  have key : ∀ (cs : List (List Nat)) (a : Rat × (Nat → Int)), (cs.foldl (solveStep s wt) a).1 = a.1 + (cs.map fun c => (bestIn s wt c).1).sum := by
    intro cs
    induction cs with
    | nil => intro a; simp only [List.foldl_nil, List.map_nil, List.sum_nil]; grind
    | cons c cs ih => intro a; rw [List.foldl_cons, ih, List.map_cons, List.sum_cons]; unfold solveStep; dsimp only; grind
  unfold solveSub
  rw [key]
  dsimp only
  unfold sumTo
  have e : (List.range cs.length).map (fun c : Nat => (bestIn s wt (cs.getD ((c : Int)).toNat [])).1) = cs.map fun c => (bestIn s wt c).1 := by
    apply List.ext_getElem (by simp)
    intro i h1 h2
    simp only [List.length_map, List.length_range] at h1
    simp [List.getElem?_eq_getElem h1]
  rw [e]
  grind

theorem Misp.solve_above {cs : List (List Nat)} (H : g.Partition cs) (s : Nat) (wt : Nat → Rat) {vs : List Nat} (hi : g.IndV vs)
    (hs : ∀ v, v ∈ vs → s.testBit v = true) : (vs.map wt).sum ≤ (solveSub cs s wt).1 := by
  rw [solveSub_eq]
  refine sum_classes (co := cliqueOf cs) vs _ (fun c _ => (bestIn_spec s wt _).1) (fun v hv => ?_) (g.ind_classes H hi)
  obtain ⟨i, h1, h2, h3⟩ := cliqueOf_class g H (hi.1 v hv)
  refine ⟨i, h1, h2, (bestIn_spec s wt _).2 v ?_ (hs v hv)⟩
  rw [Int.toNat_natCast, List.getD_eq_getElem?_getD, List.getElem?_eq_getElem h2]
  exact h3

theorem Misp.edgeSet_mem {cs : List (List Nat)} {s : Nat} {e : Nat × Nat} (h : e ∈ g.edgeSet cs s) :
    e.1 < e.2 ∧ ((e.1, e.2) ∈ g.edges ∨ (e.2, e.1) ∈ g.edges) := by
  unfold Misp.edgeSet at h
  simp only [List.mem_flatMap, List.mem_map, List.mem_filter, List.any_eq_true, Bool.and_eq_true, decide_eq_true_iff] at h
  obtain ⟨i, _, j, ⟨_, c, _, h⟩, rfl⟩ := h
  exact ⟨h.2, (g.adj_iff i j).1 h.1.1.1.2⟩

theorem Misp.get_nonneg {m : Lam} (hm : g.LamOK m) (e : Nat × Nat) : 0 ≤ m.get e := by
  unfold Lam.get
  cases h : m.find? (fun x => decide (x.1 = e)) with
  | none => grind
  | some x => exact (hm x (List.mem_of_find?_eq_some h)).1

/-- The value of one iteration is above every independent subset, whatever the multipliers. -/
theorem Misp.iter_above {cs : List (List Nat)} (H : g.Partition cs) {m : Lam} (hm : g.LamOK m) (s : Nat) :
    g.Above s ((solveSub cs s ((g.edgeSet cs s).foldl (fun a e => sub2 a e.1 e.2 (m.get e)) fun v => (g.w v : Rat))).1 +
      ((g.edgeSet cs s).map m.get).sum) := by
  intro vs hi hs
  rw [g.wts_cast]
  have e1 : (g.edgeSet cs s).foldl (fun a e => sub2 a e.1 e.2 (m.get e)) (fun v => (g.w v : Rat)) =
      subAll ((g.edgeSet cs s).map fun e => (e, m.get e)) (fun v => (g.w v : Rat)) := by
    unfold subAll
    rw [List.foldl_map]
  have e2 : ((g.edgeSet cs s).map m.get).sum = (((g.edgeSet cs s).map fun e => (e, m.get e)).map fun e => e.2).sum := by
    rw [List.map_map]; rfl
  rw [e1, e2]
  have a := g.subAll_sum hi ((g.edgeSet cs s).map fun e => (e, m.get e)) (fun v => (g.w v : Rat)) (fun e he => by
    obtain ⟨e', h1, rfl⟩ := List.mem_map.1 he
    obtain ⟨h2, h3⟩ := g.edgeSet_mem h1
    exact ⟨g.get_nonneg hm e', by dsimp only; omega, h3⟩)
  have b := g.solve_above H s (subAll ((g.edgeSet cs s).map fun e => (e, m.get e)) fun v => (g.w v : Rat)) hi hs
  grind

theorem Misp.LamOK.erase {g : Misp} {m : Lam} (hm : g.LamOK m) (e : Nat × Nat) : g.LamOK (m.erase e) :=
  fun x hx => hm x (List.mem_filter.1 hx).1

theorem Misp.LamOK.set {g : Misp} {m : Lam} (hm : g.LamOK m) {e : Nat × Nat} {r : Rat} (hr : 0 ≤ r) (hne : e.1 ≠ e.2)
    (he : (e.1, e.2) ∈ g.edges ∨ (e.2, e.1) ∈ g.edges) : g.LamOK (m.set e r) := by
  intro x hx
  rcases List.mem_append.1 hx with h | h
  · exact hm.erase e x h
  · rw [List.mem_singleton.1 h]; exact ⟨hr, hne, he⟩

/-- C88: updating keeps the multipliers non-negative and on edges, whatever the point and the step size. -/
theorem updMul_ok {m : Lam} (hm : g.LamOK m) (x : Nat → Int) (alpha : Rat) {es : List (Nat × Nat)}
    (hes : ∀ e, e ∈ es → e.1 < e.2 ∧ ((e.1, e.2) ∈ g.edges ∨ (e.2, e.1) ∈ g.edges)) : g.LamOK (updMul m x alpha es).1 := by
  have key : ∀ (es : List (Nat × Nat)) (a : Lam × Bool), (∀ e, e ∈ es → e.1 < e.2 ∧ ((e.1, e.2) ∈ g.edges ∨ (e.2, e.1) ∈ g.edges)) → g.LamOK a.1 →
      g.LamOK (es.foldl (updStep x alpha) a).1 := by
    intro es
    induction es with
    | nil => intro a _ h; exact h
    | cons e es ih =>
      intro a h1 h2
      rw [List.foldl_cons]
      refine ih _ (fun e' he' => h1 e' (List.mem_cons_of_mem _ he')) ?_
      obtain ⟨h3, h4⟩ := h1 e List.mem_cons_self
      unfold updStep
      dsimp only
      split
      · exact h2.erase e
      · refine h2.set ?_ (by omega) h4
        unfold newMul
        dsimp only
        split <;> exact le_rmax_left _ _
  exact key es (m, false) hes hm

theorem Misp.rmin_above {s : Nat} {d : Option Rat} {p : Rat} (hd : ∀ y, d = some y → g.Above s y) (hp : g.Above s p) :
    ∀ y, rmin d p = some y → g.Above s y := by
  intro y hy
  unfold rmin at hy
  cases d with
  | none => simp at hy; exact hy ▸ hp
  | some z =>
    dsimp only at hy
    split at hy
    · simp at hy; exact hy ▸ hp
    · simp at hy; exact hy ▸ hd z rfl

theorem Misp.lagLoop_ok {cs : List (List Nat)} (H : g.Partition cs) (s : Nat) (alpha0 : Rat) (maxIter : Nat) :
    ∀ (r k un : Nat) (m : Lam) (d : Option Rat), g.LamOK m → (∀ y, d = some y → g.Above s y) →
    let o := lagLoop cs s (fun v => (g.w v : Rat)) (g.edgeSet cs s) alpha0 maxIter r k un m d
    g.LamOK o.1 ∧ ∀ y, o.2 = some y → g.Above s y := by
  intro r
  induction r with
  | zero => intro k un m d h1 h2; exact ⟨h1, h2⟩
  | succ r ih =>
    intro k un m d h1 h2
    have hp := g.iter_above H h1 s
    rw [lagLoop]
    dsimp only
    generalize (g.edgeSet cs s).foldl (fun a e => sub2 a e.1 e.2 (m.get e)) (fun v => (g.w v : Rat)) = lw at hp ⊢
    generalize hpe : (solveSub cs s lw).1 + ((g.edgeSet cs s).map m.get).sum = p at hp ⊢
    have hd1 : ∀ y, (if k = 0 then rmin d p else d) = some y → g.Above s y := by
      split
      · exact g.rmin_above h2 hp
      · exact h2
    generalize (if k = 0 then rmin d p else d) = d1 at hd1 ⊢
    have hu := fun al => updMul_ok g h1 (solveSub cs s lw).2 al (es := g.edgeSet cs s) (fun e he => g.edgeSet_mem he)
    split
    · exact ⟨h1, hd1⟩
    · split
      · exact ⟨hu _, g.rmin_above hd1 hp⟩
      · split
        · exact ih (k + 1) 0 _ (some p) (hu _) (fun y hy => by simp at hy; exact hy ▸ hp)
        · split
          · exact ⟨hu _, hd1⟩
          · exact ih (k + 1) (un + 1) _ d1 (hu _) hd1

theorem lagLoop_some {cs : List (List Nat)} {s : Nat} {wt : Nat → Rat} {es : List (Nat × Nat)} {alpha0 : Rat} {maxIter : Nat} :
    ∀ (r k un : Nat) (m : Lam) (d : Option Rat), d.isSome = true ∨ k = 0 ∧ 0 < r →
    (lagLoop cs s wt es alpha0 maxIter r k un m d).2.isSome = true := by
  intro r
  have hmin : ∀ (d : Option Rat) p, (rmin d p).isSome = true := by
    intro d p
    unfold rmin
    cases d with
    | none => rfl
    | some x => dsimp only; split <;> rfl
  induction r with
  | zero => intro k un m d h; simpa [lagLoop] using h
  | succ r ih =>
    intro k un m d h
    rw [lagLoop]
    dsimp only
    generalize (solveSub cs s (es.foldl (fun a e => sub2 a e.1 e.2 (m.get e)) wt)).1 + (es.map m.get).sum = p
    have hd1 : (if k = 0 then rmin d p else d).isSome = true := by
      by_cases hk : k = 0
      · rw [if_pos hk]; exact hmin d p
      · rw [if_neg hk]; exact h.resolve_right (fun h => hk h.1)
    generalize (if k = 0 then rmin d p else d) = d1 at hd1 ⊢
    split
    · exact hd1
    · split
      · exact hmin _ _
      · split
        · exact ih _ _ _ _ (.inl rfl)
        · split
          · exact hd1
          · exact ih _ _ _ _ (.inl hd1)

/-- The initial multipliers (examples/misp4_lag.cpp:305-309). -/
theorem Misp.init_ok {m : Lam} (hm : g.LamOK m) {r : Rat} (hr : 0 ≤ r) {es : List (Nat × Nat)}
    (hes : ∀ e, e ∈ es → e.1 < e.2 ∧ ((e.1, e.2) ∈ g.edges ∨ (e.2, e.1) ∈ g.edges)) : g.LamOK (es.foldl (fun a e => a.set e r) m) := by
  induction es generalizing m with
  | nil => exact hm
  | cons e es ih =>
    rw [List.foldl_cons]
    obtain ⟨h1, h2⟩ := hes e List.mem_cons_self
    exact ih (hm.set hr (by omega) h2) (fun e' he' => hes e' (List.mem_cons_of_mem _ he'))

/-- C88: `lagrangianDual` returns a valid bound and valid multipliers, from any valid multipliers, for any
step size and number of iterations, whether starting afresh or not. -/
theorem lagDual_valid {cs : List (List Nat)} (H : g.Partition cs) {m : Lam} (hm : g.LamOK m) (maxIter : Nat) (alpha0 : Rat) (reOpt : Bool) (s : Nat) :
    g.LamOK (g.lagDual cs maxIter alpha0 m reOpt s).1 ∧ (0 < maxIter → (g.lagDual cs maxIter alpha0 m reOpt s).2.isSome = true) ∧
    ∀ b, (g.lagDual cs maxIter alpha0 m reOpt s).2 = some b → ∀ vs, g.IndV vs → (∀ v, v ∈ vs → s.testBit v = true) → g.wts vs ≤ b := by
  have hm1 : g.LamOK (if reOpt then m else (g.edgeSet cs s).foldl (fun a e => a.set e (1 / 100 * ((cs.length : Rat) / ((g.edgeSet cs s).length : Rat)))) m) := by
    split
    · exact hm
    · refine g.init_ok hm ?_ (fun e he => g.edgeSet_mem he)
      have h1 : (0 : Rat) ≤ (cs.length : Rat) := Rat.natCast_nonneg
      have h2 : (0 : Rat) ≤ ((g.edgeSet cs s).length : Rat) := Rat.natCast_nonneg
      have h3 : (0 : Rat) ≤ (cs.length : Rat) / ((g.edgeSet cs s).length : Rat) := by
        rw [Rat.div_def]
        refine Rat.mul_nonneg h1 ?_
        by_cases h0 : (0 : Rat) < ((g.edgeSet cs s).length : Rat)
        · have := Rat.inv_pos.2 h0; grind
        · have h0 : ((g.edgeSet cs s).length : Rat) = 0 := by grind
          rw [h0, Rat.inv_zero]; grind
      exact Rat.mul_nonneg (by decide +kernel) h3
  obtain ⟨a, b⟩ := g.lagLoop_ok H s alpha0 maxIter maxIter 0 0 _ none hm1 (by simp)
  refine ⟨a, fun h => ?_, fun b' hb vs hi hs => ?_⟩
  · unfold Misp.lagDual
    dsimp only
    rw [Option.isSome_map]
    exact lagLoop_some _ _ _ _ _ (.inr ⟨rfl, h⟩)
  · unfold Misp.lagDual at hb
    dsimp only at hb
    rw [Option.map_eq_some_iff] at hb
    obtain ⟨y, h1, h2⟩ := hb
    exact h2 ▸ floorEps_le (b y h1 vs hi hs)

/-- On the five-cycle the clique bound is 13; the multipliers bring it down to 11, the weight of a heaviest
independent set. -/
example : c5.cliqueBound [[0, 1], [3, 2], [4]] 31 = 13 ∧
    c5.lagDual [[0, 1], [3, 2], [4]] 50 1 [] false 31 = ([((0, 4), 201 / 100), ((1, 2), 201 / 100), ((3, 4), 201 / 100)], some 11) ∧
    c5.lagBound [[0, 1], [3, 2], [4]] [((0, 4), 201 / 100), ((1, 2), 201 / 100), ((3, 4), 201 / 100)] 31 = 11 ∧
    c5.IndV [1, 4] ∧ c5.wts [1, 4] = 11 := by
  refine ⟨by decide +kernel, by decide +kernel, by decide +kernel, ⟨by decide, by decide⟩, by decide⟩

end Verif.Ex
