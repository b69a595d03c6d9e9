import Verif.Save
import Verif.Compile
import Verif.Props.AnyLoc
import Verif.Props.Exact
import Verif.Props.Width
/-!
# C135: the graphviz file shows the diagram
-/
namespace Verif.DD
open Verif.Heap (WF Ordered Live SWO)
variable {σ : Type}

/-! ### The slot found is the node's own -/

theorem findSlot_first {h : DH} {n : Nat} : ∀ (k i j : Nat), i ≤ j → j < i + k → (h.v j).1 = n → ∃ j', i ≤ j' ∧ j' ≤ j ∧ (h.v j').1 = n ∧ findSlot h n k i = some (h.data j') := by
  intro k
  induction k with
  | zero => intro i j h1 h2; omega
  | succ k ih =>
    intro i j h1 h2 h3
    rw [findSlot]
    by_cases hi : (h.v i).1 = n
    · rw [if_pos hi]; exact ⟨i, Nat.le_refl _, h1, hi, rfl⟩
    · rw [if_neg hi]
      have : i ≠ j := by rintro rfl; exact hi h3
      obtain ⟨j', a, b, c, d⟩ := ih (i + 1) j (by omega) (by omega) h3
      exact ⟨j', by omega, b, c, d⟩

/-- For a node still in the heap, slots that are no longer used do not matter: they come later. -/
theorem Has.find {nl : Nat → Option Nat} {R : List Nat} {deg : Nat → Nat} {h : DH} (H : Has nl R deg h) {n : Nat} (hn : n ∈ R) : findNd h n = nl n := by
  obtain ⟨l, l1, ⟨i, i1, i2, i3⟩, l3⟩ := H.loc n hn
  have hc := H.wf.cap
  obtain ⟨j, j1, j2, j3, j4⟩ := findSlot_first (h := h) (n := n) (h.mxs - 1) 1 i i1 (by omega) (by rw [Heap.H.v, i3, l3])
  obtain ⟨n', a, b⟩ := H.live (h.data j) ⟨j, j1, by omega, rfl⟩
  obtain ⟨l', c, _, d⟩ := H.loc n' a
  rw [b] at c
  cases c
  rw [Heap.H.v, d] at j3
  dsimp only at j3
  subst j3
  unfold findNd
  rw [j4, b]

/-- One turn of a pass over the nodes: the node that leaves has nothing left before it. -/
theorem topo_step {nl : Nat → Option Nat} {outs : Nat → List Nat} {ρ : Nat → Nat} (hρ : ∀ a b, b ∈ outs a → ρ a < ρ b) {R : List Nat} {h : DH} (hne : R ≠ [])
    (H : Has nl R (fun n => (R.flatMap outs).count n) h) (o : Ordered dord h) (hcl : ∀ p, p ∈ R → ∀ n, n ∈ outs p → n ∈ R) :
    ∃ n, n ∈ R ∧ (Heap.extractMax dord h).2.1 = n ∧ (∀ p, p ∈ R → n ∉ outs p) ∧
      Has nl (R.erase n) (fun k => (R.flatMap outs).count k) (Heap.extractMax dord h).1 ∧ Ordered dord (Heap.extractMax dord h).1 ∧
      (∀ k, k ∈ outs n → k ∈ R.erase n) ∧ (∀ k, (R.flatMap outs).count k = (outs n).count k + ((R.erase n).flatMap outs).count k) ∧
      (∀ p, p ∈ R.erase n → ∀ k, k ∈ outs p → k ∈ R.erase n) := by
  obtain ⟨n0, hn0, hmin⟩ := exists_min ρ R hne
  have hat := H.at_
  have hpos : 0 < R.length := List.length_pos_iff.2 hne
  obtain ⟨w, o', l, lv, hx, hbest, lv', hval, at'⟩ := Heap.extractMax_spec dord_swo H.wf o (by omega)
  obtain ⟨n, hnR, hnl⟩ := H.live l lv
  obtain ⟨l2, y1, _, y3⟩ := H.loc n hnR
  rw [hnl] at y1; simp at y1; subst y1
  have hz0 : (R.flatMap outs).count n0 = 0 := by
    rw [List.count_eq_zero]
    intro hm
    obtain ⟨p, p1, p2⟩ := List.mem_flatMap.1 hm
    have := hρ p n0 p2
    have := hmin p p1
    omega
  have hz : (R.flatMap outs).count n = 0 := by
    obtain ⟨l0, z1, z2, z3⟩ := H.loc n0 hn0
    have := hbest l0 z2
    rw [z3, y3] at this
    simp only [dord, decide_eq_true_eq] at this
    omega
  have hnd : ∀ p, p ∈ R → n ∉ outs p := by
    intro p hp hm
    rw [List.count_eq_zero] at hz
    exact hz (List.mem_flatMap.2 ⟨p, hp, hm⟩)
  have hmem : ∀ k, k ∈ R.erase n ↔ k ≠ n ∧ k ∈ R := fun k => H.nd.mem_erase_iff
  refine ⟨n, hnR, by rw [hx, y3], hnd, ⟨w, H.nd.erase n, ?_, ?_, ?_⟩, o', fun k hk => (hmem k).2 ⟨fun hh => hnd n hnR (hh ▸ hk), hcl n hnR k hk⟩, fun k => ?_, fun p hp k hk => ?_⟩
  · rw [at', hat, List.length_erase_of_mem hnR]
    omega
  · intro k hk
    obtain ⟨k1, k2⟩ := (hmem k).1 hk
    obtain ⟨l3, z1, z2, z3⟩ := H.loc k k2
    refine ⟨l3, z1, (lv' l3).2 ⟨z2, ?_⟩, by rw [hval]; exact z3⟩
    intro hh; subst hh
    exact k1 (H.uniq k2 hnR z1 hnl)
  · intro l3 hl3
    obtain ⟨a, b⟩ := (lv' l3).1 hl3
    obtain ⟨k, k1, k2⟩ := H.live l3 a
    refine ⟨k, (hmem k).2 ⟨?_, k1⟩, k2⟩
    intro hh; subst hh
    rw [hnl] at k2; simp at k2; exact b k2.symm
  · rw [((List.perm_cons_erase hnR).flatMap_right outs).count_eq, List.flatMap_cons, List.count_append]
  · have hp' := ((hmem p).1 hp).2
    exact (hmem k).2 ⟨fun hh => hnd p hp' (hh ▸ hk), hcl p hp' k hk⟩

/-- The line of an arc. -/
def arcLine (g : G σ) (e : Nat) : GLine := .arc (g.es e) (g.ed e) (g.eo e) (g.el e)

/-- The lines of a node and its arcs. -/
def nodeLines (eqv : σ → σ → Bool) (g : G σ) (n : Nat) : List GLine := .node n (g.ex n) (eqv (g.st n) (g.st g.trg)) :: (g.kids n).map (arcLine g)

theorem saveKids_has (g : G σ) {nl : Nat → Option Nat} {R : List Nat} : ∀ (es : List Nat) (deg : Nat → Nat) (h : DH),
    Has nl R deg h → Ordered dord h → (∀ e, e ∈ es → g.ed e ∈ R) → (∀ n, n ∈ R → (es.map g.ed).count n ≤ deg n) →
    ∃ h', saveKids g es h = some (h', es.map (arcLine g)) ∧ Has nl R (fun n => deg n - (es.map g.ed).count n) h' ∧ Ordered dord h' := by
  intro es
  induction es with
  | nil => intro deg h H o _ _; exact ⟨h, rfl, by simpa using H, o⟩
  | cons e es ih =>
    intro deg h H o hR hc
    have he := hR e (by simp)
    obtain ⟨h1, a, b, c⟩ := topoDec_has [g.ed e] deg h H o (by simpa using he) (fun n hn => by
      have := hc n hn
      simp only [List.map_cons, List.count_cons] at this
      simp only [List.count_cons, List.count_nil]
      omega)
    obtain ⟨l, l1, _, _⟩ := H.loc _ he
    rw [topoDec, l1] at a
    dsimp only [topoDec] at a
    cases a
    obtain ⟨h', d, f, k⟩ := ih _ _ b c (fun e' h' => hR e' (by simp [h'])) (fun n hn => by
      have := hc n hn
      simp only [List.map_cons, List.count_cons] at this
      simp only [List.count_cons, List.count_nil]
      omega)
    refine ⟨h', ?_, ?_, k⟩
    · rw [saveKids, H.find he, l1]
      dsimp only
      rw [d]
      rfl
    · have : (fun n => deg n - (List.map g.ed (e :: es)).count n) = fun n => deg n - [g.ed e].count n - (List.map g.ed es).count n := by
        funext n
        simp only [List.map_cons, List.count_cons, List.count_nil]
        omega
      rw [this]; exact f

theorem saveLoop_spec (eqv : σ → σ → Bool) (g : G σ) {nl : Nat → Option Nat} {ρ : Nat → Nat} (hρ : ∀ a b, b ∈ (g.kids a).map g.ed → ρ a < ρ b) :
    ∀ (k : Nat) (R : List Nat) (h : DH), R.length = k → Has nl R (fun n => (R.flatMap fun i => (g.kids i).map g.ed).count n) h → Ordered dord h →
    (∀ p, p ∈ R → ∀ n, n ∈ (g.kids p).map g.ed → n ∈ R) →
    ∃ π, saveLoop eqv g k h = some (π.flatMap (nodeLines eqv g)) ∧ π.Perm R ∧ TopoL (fun i => (g.kids i).map g.ed) π := by
  intro k
  induction k with
  | zero =>
    intro R h hk _ _ _
    have : R = [] := List.length_eq_zero_iff.1 hk
    subst this
    exact ⟨[], rfl, List.Perm.refl _, trivial⟩
  | succ k ih =>
    intro R h hk H o hcl
    have hne : R ≠ [] := by intro hh; rw [hh] at hk; simp at hk
    obtain ⟨n, hnR, hx, hnd, H1, o1, hk1, hcnt, hcl1⟩ := topo_step hρ hne H o hcl
    obtain ⟨h1, d1, d2, d3⟩ := saveKids_has g (g.kids n) _ _ H1 o1 (fun e he => hk1 _ (List.mem_map.2 ⟨e, he, rfl⟩)) (fun k _ => by rw [hcnt]; omega)
    have d2' : Has nl (R.erase n) (fun k => ((R.erase n).flatMap fun i => (g.kids i).map g.ed).count k) h1 := by
      have : (fun k => (R.flatMap fun i => (g.kids i).map g.ed).count k - ((g.kids n).map g.ed).count k) =
          fun k => ((R.erase n).flatMap fun i => (g.kids i).map g.ed).count k := by
        funext k; rw [hcnt]; omega
      rw [← this]; exact d2
    obtain ⟨π, e1, e2, e3⟩ := ih (R.erase n) h1 (by rw [List.length_erase_of_mem hnR]; omega) d2' d3 hcl1
    refine ⟨n :: π, ?_, (List.Perm.cons n e2).trans (List.perm_cons_erase hnR).symm, ?_, e3⟩
    · rw [saveLoop]
      rw [hx, d1, Option.bind_some, e1]
      rfl
    · intro d hd hdm
      refine hnd d ?_ hd
      rcases List.mem_cons.1 hdm with x | x
      · rw [x]; exact hnR
      · exact List.mem_of_mem_erase (e2.mem_iff.1 x)

/-- The nodes written. -/
def GLine.node? : GLine → Option Nat
  | .node n _ _ => some n
  | .arc _ _ _ _ => none

/-- What a faithful picture of a diagram is: every listed node on one line, green if it is exact, with a box if its state is the sink's; every arc on
one line with its ends, its cost and its label; and on the way down every arc between its source's line and its target's. -/
structure Pictured (eqv : σ → σ → Bool) (g : G σ) (out : List GLine) : Prop where
  nodes : (out.filterMap GLine.node?).Perm g.an
  style : ∀ n green box, GLine.node n green box ∈ out → green = g.ex n ∧ box = eqv (g.st n) (g.st g.trg)
  arcs : (out.filter fun l => l.node?.isNone).Perm ((List.range g.ne).map (arcLine g))
  order : ∀ a b e, e < g.ne → out = a ++ arcLine g e :: b → g.es e ∈ a.filterMap GLine.node? ∧ g.ed e ∈ b.filterMap GLine.node?

theorem lines_nodes (eqv : σ → σ → Bool) (g : G σ) : ∀ π : List Nat, (π.flatMap (nodeLines eqv g)).filterMap GLine.node? = π := by
  intro π
  induction π with
  | nil => rfl
  | cons n π ih =>
    rw [List.flatMap_cons, List.filterMap_append, ih]
    unfold nodeLines
    rw [List.filterMap_cons]
    have : ((g.kids n).map (arcLine g)).filterMap GLine.node? = [] := by
      rw [List.filterMap_eq_nil_iff]
      intro l hl
      obtain ⟨e, _, rfl⟩ := List.mem_map.1 hl
      rfl
    rw [this]
    rfl

theorem lines_arcs (eqv : σ → σ → Bool) (g : G σ) : ∀ π : List Nat, ((π.flatMap (nodeLines eqv g)).filter fun l => l.node?.isNone) = (π.flatMap g.kids).map (arcLine g) := by
  intro π
  induction π with
  | nil => rfl
  | cons n π ih =>
    rw [List.flatMap_cons, List.filter_append, ih, List.flatMap_cons, List.map_append]
    congr 1
    unfold nodeLines
    rw [List.filter_cons_of_neg (by simp [GLine.node?])]
    rw [List.filter_eq_self]
    intro l hl
    obtain ⟨e, _, rfl⟩ := List.mem_map.1 hl
    rfl


theorem TopoL.of_mid {outs : Nat → List Nat} : ∀ {a b : List Nat} {n k : Nat}, TopoL outs (a ++ n :: b) → k ∈ outs n → k ∈ a ++ n :: b → k ∈ b := by
  intro a
  induction a with
  | nil =>
    intro b n k h hk hm
    rcases List.mem_cons.1 hm with x | x
    · subst x; exact absurd (by simp) (h.1 k hk)
    · exact x
  | cons x a ih =>
    intro b n k h hk hm
    rcases List.mem_cons.1 hm with y | y
    · subst y; exact absurd (by simp) (h.1 n hk)
    · exact ih h.2 hk y

/-- A place in the output that holds an arc belongs to a node. -/
theorem split_lines (eqv : σ → σ → Bool) (g : G σ) : ∀ (π : List Nat) (a b : List GLine) (l : GLine), π.flatMap (nodeLines eqv g) = a ++ l :: b → l.node? = none →
    ∃ x n y, π = x ++ n :: y ∧ l ∈ (g.kids n).map (arcLine g) ∧ a.filterMap GLine.node? = x ++ [n] ∧ b.filterMap GLine.node? = y := by
  intro π
  induction π with
  | nil => intro a b l h; simp at h
  | cons n π ih =>
    intro a b l h hl
    rw [List.flatMap_cons] at h
    have hk : ∀ u : List GLine, (∀ z, z ∈ u → z ∈ (g.kids n).map (arcLine g)) → u.filterMap GLine.node? = [] := by
      intro u hu
      rw [List.filterMap_eq_nil_iff]
      intro z hz
      obtain ⟨e, _, rfl⟩ := List.mem_map.1 (hu z hz)
      rfl
    rcases List.append_eq_append_iff.1 h with ⟨c, h1, h2⟩ | ⟨c, h1, h2⟩
    · obtain ⟨x, n', y, p1, p2, p3, p4⟩ := ih c b l h2 hl
      refine ⟨n :: x, n', y, by rw [p1]; rfl, p2, ?_, p4⟩
      rw [h1, List.filterMap_append, p3]
      unfold nodeLines
      rw [List.filterMap_cons, hk _ (fun _ h => h)]
      rfl
    · cases a with
      | nil =>
        unfold nodeLines at h1
        rw [List.nil_append] at h1
        rw [← h1, List.cons_append] at h2
        injection h2 with h3 h4
        rw [h3] at hl
        simp [GLine.node?] at hl
      | cons z a =>
        unfold nodeLines at h1
        rw [List.cons_append] at h1
        injection h1 with h3 h4
        cases c with
        | nil =>
          rw [List.append_nil] at h4
          obtain ⟨x, n', y, p1, p2, p3, p4⟩ := ih [] b l (by simpa using h2.symm) hl
          simp at p3
        | cons w c =>
          rw [List.cons_append] at h2
          injection h2 with h5 h6
          subst h5
          refine ⟨[], n, π, rfl, by rw [h4]; simp, ?_, ?_⟩
          · rw [← h3, List.filterMap_cons, hk a (fun z hz => by rw [h4]; simp [hz])]
            rfl
          · rw [h6, List.filterMap_append, lines_nodes, hk c (fun z hz => by rw [h4]; simp [hz])]
            rfl

/-- C135 for any diagram whose arcs are recorded at both ends and lead down. -/
theorem save_pictured (eqv : σ → σ → Bool) {g : G σ} {ρ : Nat → Nat} (h : Wg g ρ) : ∃ out, saveGraph eqv g = some out ∧ Pictured eqv g out := by
  have hdeg : ∀ n, n ∈ g.an → (g.par n).length = (g.an.flatMap (fun i => (g.kids i).map g.ed)).count n := by
    intro n _
    refine count_adj g.an h.nd g.kids g.es g.ed (fun i e he => ((h.kids i e).1 he).2) h.kn n _ (h.pn n) ?_
    intro e
    rw [h.par]
    constructor
    · rintro ⟨a, b⟩; exact ⟨⟨g.es e, h.src e a, (h.kids _ e).2 ⟨a, rfl⟩⟩, b⟩
    · rintro ⟨⟨i, _, a⟩, b⟩; exact ⟨((h.kids i e).1 a).1, b⟩
  have hcl : ∀ p, p ∈ g.an → ∀ n, n ∈ (g.kids p).map g.ed → n ∈ g.an := by
    intro p _ n hn
    obtain ⟨e, e1, e2⟩ := List.mem_map.1 hn
    rw [← e2]; exact h.dst e ((h.kids p e).1 e1).1
  have H0 : Has (fun _ => none) [] (fun n => (g.par n).length) (Heap.mk' (g.nn, 0) 1000) :=
    ⟨Heap.WF_mk _ _ (by omega), by simp, rfl, by simp, by
      rintro l ⟨i, h1, h2, _⟩
      have h2 : i < 1 := h2
      omega⟩
  have H1 := topoFill_has (fun n => (g.par n).length) g.an [] _ _ H0 (by simpa using h.nd)
  simp only [List.nil_append] at H1
  have H2 : Has (topoFill (fun n => (g.par n).length) g.an (Heap.mk' (g.nn, 0) 1000) (fun _ => none)).2 g.an
      (fun n => (g.an.flatMap fun i => (g.kids i).map g.ed).count n) (topoFill (fun n => (g.par n).length) g.an (Heap.mk' (g.nn, 0) 1000) (fun _ => none)).1 :=
    { H1 with
      loc := fun n hn => by
        obtain ⟨l, l1, l2, l3⟩ := H1.loc n hn
        exact ⟨l, l1, l2, by rw [l3, hdeg n hn]⟩ }
  obtain ⟨H3, o⟩ := H2.build
  obtain ⟨π, p1, p2, p3⟩ := saveLoop_spec eqv g (ρ := ρ) (by
    intro a b hb
    obtain ⟨e, e1, e2⟩ := List.mem_map.1 hb
    obtain ⟨e3, e4⟩ := (h.kids a e).1 e1
    have := h.up e e3
    rw [← e2, ← e4]; exact this) g.an.length g.an _ rfl H3 o hcl
  refine ⟨_, p1, ?_, ?_, ?_, ?_⟩
  · rw [lines_nodes]; exact p2
  · intro n gr bx hm
    obtain ⟨k, _, hk⟩ := List.mem_flatMap.1 hm
    unfold nodeLines at hk
    rcases List.mem_cons.1 hk with x | x
    · injection x with x1 x2 x3
      subst x1
      exact ⟨x2, x3⟩
    · obtain ⟨e, _, he⟩ := List.mem_map.1 x
      simp [arcLine] at he
  · rw [lines_arcs]
    refine List.Perm.map _ ?_
    refine (p2.flatMap_right g.kids).trans ?_
    refine (List.perm_ext_iff_of_nodup ?_ List.nodup_range).2 ?_
    · rw [List.Nodup, List.pairwise_flatMap]
      refine ⟨fun i _ => h.kn i, List.Pairwise.imp ?_ h.nd⟩
      intro a b hab x hx y hy hxy
      subst hxy
      exact hab (by rw [← ((h.kids a x).1 hx).2, ((h.kids b x).1 hy).2])
    · intro e
      rw [List.mem_flatMap, List.mem_range]
      constructor
      · rintro ⟨i, _, x⟩; exact ((h.kids i e).1 x).1
      · intro he; exact ⟨g.es e, h.src e he, (h.kids _ e).2 ⟨he, rfl⟩⟩
  · intro a b e he hab
    obtain ⟨x, n, y, q1, q2, q3, q4⟩ := split_lines eqv g π a b _ hab rfl
    obtain ⟨e', e1, e2⟩ := List.mem_map.1 q2
    unfold arcLine at e2
    injection e2 with e3 e4 _ _
    have hn := ((h.kids n e').1 e1).2
    rw [q3, q4, ← e3, ← e4, hn]
    refine ⟨by simp, ?_⟩
    have hm : g.ed e' ∈ (g.kids n).map g.ed := List.mem_map.2 ⟨e', e1, rfl⟩
    rw [q1] at p3
    refine p3.of_mid hm ?_
    rw [← q1]
    exact p2.mem_iff.2 (h.dst e' ((h.kids n e').1 e1).1)


/-! ### C135: the three kinds of diagrams -/

/-- A picture of a diagram in which only the sink has a box. -/
def Saved [Same σ] (g : G σ) : Prop :=
  ∃ out, saveGraph Same.same g = some out ∧ Pictured Same.same g out ∧ ∀ n green box, GLine.node n green box ∈ out → (box = true ↔ n = g.trg)

theorem Wg.saved [Same σ] {g : G σ} {ρ : Nat → Nat} (h : Wg g ρ) (hR : Same.same (g.st g.trg) (g.st g.trg) = true)
    (hi : ∀ i, i ∈ g.an → Same.same (g.st i) (g.st g.trg) = true → i = g.trg) : Saved g := by
  obtain ⟨out, h1, h2⟩ := save_pictured Same.same h
  refine ⟨out, h1, h2, fun n gr bx hm => ?_⟩
  rw [(h2.style n gr bx hm).2]
  constructor
  · exact hi n (h2.nodes.mem_iff.1 (List.mem_filterMap.2 ⟨_, hm, rfl⟩))
  · rintro rfl; exact hR

variable [DecidableEq σ] {m : Mdl σ} {rank : σ → Nat} {r : Src σ} {prim : Int}

/-- C135, relaxed diagrams: whatever the width and the bounds, the file can be written and shows the diagram. -/
theorem relaxed_saved (H : Shape m rank r.st r.bound) {w f : Nat} {g : G σ} (h : relaxed m prim w f r = some g) : Saved g := by
  obtain ⟨g0, F⟩ := relaxed_facts H.layeredV h
  obtain ⟨ρ, W⟩ := fin_wg F.fin F.an
  obtain ⟨d, p, I⟩ := F.fin
  have A := F.an
  have two := I.two
  obtain ⟨bd, lb, b, e⟩ := F.shape
  subst e
  refine Wg.saved (ρ := ρ) ⟨W.nd, W.kids, W.par, W.kn, W.pn, W.src, W.dst, W.up⟩ (by simp) (fun i hi hs => ?_)
  have hi : i ∈ g0.an := hi
  have ht := I.trg
  exact I.inj i g0.trg ((A.2 i).1 hi).1 (by omega) hs

/-- C135, restricted diagrams. -/
theorem restricted_saved (H : Shape m rank r.st r.bound) {w f : Nat} {g : G σ} (h : restricted m prim w f r = some g) : Saved g := by
  unfold restricted at h
  simp only [Option.map_eq_some_iff] at h
  obtain ⟨g0, h0, h1⟩ := h
  obtain ⟨F, A⟩ := restricted_inv H.layeredV h0
  obtain ⟨ρ, W⟩ := fin_wg F A
  obtain ⟨bd, lb, t1, _⟩ := tighten_trg (m := m) F.choose_spec.choose_spec.trg (fin_inrange H.layeredV F)
  obtain ⟨d, p, I⟩ := F
  have two := I.two
  have ht := I.trg
  rw [t1] at h1
  subst h1
  refine Wg.saved (ρ := ρ) ⟨W.nd, W.kids, W.par, W.kn, W.pn, W.src, W.dst, W.up⟩ (by simp) (fun i hi hs => ?_)
  have hi : i ∈ g0.an := hi
  exact I.inj i g0.trg ((A.2 i).1 hi).1 (by omega) hs

/-- C135, exact diagrams: no layers are needed, only that no state is reached from itself. -/
theorem exact_saved {μ : σ → Nat} (hA : Acyc m r.st μ) (hS : m.eqs m.stt = true) (hq : m.eqs r.st = false) {f : Nat} {g : G σ} (h : exactDD m prim f r = some g) : Saved g := by
  unfold exactDD at h
  simp only [Option.bind_eq_some_iff] at h
  obtain ⟨g0, h0, h1⟩ := h
  have hi := start2_einv hS hq
  rw [hi.root] at h0
  obtain ⟨X, p, I⟩ := exLoop_inv hA hS f _ _ _ _ hi _ h0
  have two := I.two
  have hnot : ∀ e, e < g0.ne → g0.es e ≠ 1 := by
    intro e he hh
    have := (I.est e he).1.1
    rw [hh, I.st1, hS] at this; simp at this
  have W : Wg g0 (fun n => μ (g0.st n)) :=
    { nd := I.and, kids := I.kids, par := I.par, kn := I.kn, pn := I.pn
      src := fun e he => (I.anm _).2 (I.edge e he).1
      dst := fun e he => (I.anm _).2 (I.edge e he).2
      up := by
        intro e he
        obtain ⟨ls, c, hp⟩ := I.reach _ (I.edge e he).1 (hnot e he)
        exact hA _ _ _ hp _ _ (I.est e he).1 }
  obtain ⟨b, lb, e1, _⟩ := computeBest_eq (m := m) W
  rw [h1] at e1
  cases e1
  have ht := I.trg
  refine Wg.saved (ρ := fun n => μ (g0.st n)) ⟨W.nd, W.kids, W.par, W.kn, W.pn, W.src, W.dst, W.up⟩ (by simp) (fun i hi hs => ?_)
  have hi : i ∈ g0.an := hi
  exact I.inj i g0.trg ((I.anm i).1 hi) (by omega) hs

/-- Not empty: a relaxed diagram of width 1 in which two arcs lead to one node; the lines written. -/
example : ∃ g, relaxed wdd 2147483647 1 50 wdd.src0 = some g ∧ Saved g ∧ saveGraph Same.same g =
    some [.node 0 true false, .arc 0 2 1 0, .arc 0 2 1 1, .arc 0 4 1 2, .node 2 true false, .arc 2 1 1 0, .node 4 true false, .arc 4 1 2 0, .node 1 true true] := by
  have hv : (relaxed wdd 2147483647 1 50 wdd.src0).map (saveGraph Same.same) =
      some (some [.node 0 true false, .arc 0 2 1 0, .arc 0 2 1 1, .arc 0 4 1 2, .node 2 true false, .arc 2 1 1 0, .node 4 true false, .arc 4 1 2 0, .node 1 true true]) := by
    decide +kernel
  simp only [Option.map_eq_some_iff] at hv
  obtain ⟨g, h1, h2⟩ := hv
  exact ⟨g, h1, relaxed_saved (rank := wdrank) (LayeredV.shape (layChk_sound 3 (closeR wdd wdrank 3) (by decide +kernel))) h1, h2⟩

end Verif.DD
