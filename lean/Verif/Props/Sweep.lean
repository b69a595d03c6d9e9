import Verif.Sweep
/-!
# Properties of the two sweeps (C18, C19)

The specification is paths in the diagram: sequences of arcs, their labels and summed costs.
Acyclicity is any measure that increases along arcs; the node list may be in any order.
-/
namespace Verif.DD
set_option linter.unusedSectionVars false
variable {σ : Type} {m : Mdl σ}

/-- A sequence of arcs from `a` to `b`, with its labels and total cost. -/
inductive GP (g : G σ) (a : Nat) : Nat → List Int → Int → Prop
  | nil : GP g a a [] 0
  | snoc {n : Nat} {ls : List Int} {c : Int} {e : Nat} :
      GP g a n ls c → e < g.ne → g.es e = n → GP g a (g.ed e) (ls ++ [g.el e]) (c + g.eo e)

theorem GP.single {g : G σ} {e : Nat} (he : e < g.ne) : GP g (g.es e) (g.ed e) [g.el e] (g.eo e) := by
  have := GP.snoc (GP.nil (g := g) (a := g.es e)) he rfl
  simpa using this

theorem GP.trans {g : G σ} {a b c : Nat} {l1 l2 : List Int} {v1 v2 : Int} (h1 : GP g a b l1 v1) (h2 : GP g b c l2 v2) :
    GP g a c (l1 ++ l2) (v1 + v2) := by
  induction h2 with
  | nil => simpa using h1
  | snoc _ he hn ih =>
    have := GP.snoc ih he hn
    rw [← List.append_assoc, ← Int.add_assoc]; exact this

/-- First arc of a path that is not empty. -/
theorem GP.first {g : G σ} {a b : Nat} {ls : List Int} {c : Int} (h : GP g a b ls c) :
    (a = b ∧ c = 0) ∨ ∃ e ls' c', e < g.ne ∧ g.es e = a ∧ GP g (g.ed e) b ls' c' ∧ c = g.eo e + c' := by
  induction h with
  | nil => exact Or.inl ⟨rfl, rfl⟩
  | @snoc n ls c e _ he hn ih =>
    right
    rcases ih with ⟨x, y⟩ | ⟨e', ls', c', x1, x2, x3, x4⟩
    · exact ⟨e, [], 0, he, by rw [hn, x], GP.nil, by omega⟩
    · exact ⟨e', _, _, x1, x2, GP.snoc x3 he hn, by omega⟩

/-- C18.  On an acyclic diagram rooted at `g.root`, `computeBest` gives every node the best cost of a
path from the root, with that path's labels; nodes no path reaches get the sentinel. -/
theorem computeBest_correct {g : G σ} {ρ : Nat → Nat} (h : Wg g ρ) (_ : g.root ∈ g.an) (hrp : g.par g.root = [])
    (hiso : ∀ n, n ∈ g.an → n ≠ g.root → g.par n = [] → g.kids n = [])
    (hR : ∀ n ls c, GP g g.root n ls c → m.sense.better (g.bound g.root + c) m.sense.best0 = true) :
    ∃ g', computeBest m g = some g' ∧ g'.an = g.an ∧ g'.root = g.root ∧ g'.trg = g.trg ∧
    ∀ n, n ∈ g.an →
      (∀ ls c, GP g g.root n ls c → m.sense.betterEQ (g'.bound n) (g.bound g.root + c) = true) ∧
      ((g'.bound n = m.sense.best0 ∧ ∀ ls c, ¬ GP g g.root n ls c) ∨
       (∃ ls c, GP g g.root n ls c ∧ g'.bound n = g.bound g.root + c ∧ g'.lab n = g.lab g.root ++ ls)) := by
  obtain ⟨b, lb, h1, h2, h3⟩ := computeBest_eq (m := m) h
  refine ⟨_, h1, rfl, rfl, rfl, ?_⟩
  dsimp only
  have key : ∀ (K n : Nat), ρ n < K → n ∈ g.an →
      (∀ ls c, GP g g.root n ls c → m.sense.k (g.bound g.root + c) ≤ m.sense.k (b n)) ∧
      ((n ≠ g.root ∧ g.par n = [] ∧ b n = m.sense.best0) ∨
       (∃ ls c, GP g g.root n ls c ∧ b n = g.bound g.root + c ∧ lb n = g.lab g.root ++ ls)) := by
    intro K
    induction K with
    | zero => intro n hn; omega
    | succ K ih =>
      intro n hK hn
      have he := h2 n hn
      by_cases hp : g.par n = []
      · rw [hp] at he
        simp only [tightenLoop, List.isEmpty_nil, if_true, Prod.mk.injEq] at he
        by_cases hnr : n = g.root
        · subst hnr
          simp at he
          refine ⟨fun ls c hgp => ?_, Or.inr ⟨[], 0, GP.nil, by rw [he.1]; omega, by rw [he.2]; simp⟩⟩
          generalize hx : g.root = x at hgp
          cases hgp with
          | nil => rw [← hx, he.1]; simp
          | @snoc n' ls' c' e _ a1 a2 =>
            have := (h.par _ e).2 ⟨a1, rfl⟩
            rw [← hx, hp] at this; simp at this
        · rw [if_pos hnr] at he
          refine ⟨fun ls c hgp => ?_, Or.inl ⟨hnr, hp, he.1⟩⟩
          cases hgp with
          | nil => exact absurd rfl hnr
          | @snoc n' ls' c' e _ a1 a2 =>
            have := (h.par _ e).2 ⟨a1, rfl⟩
            rw [hp] at this; simp at this
      · have hne : ((g.par n).isEmpty) = false := by simpa using hp
        rw [hne] at he
        simp only [Bool.false_eq_true, if_false] at he
        obtain ⟨t1, t2, t3⟩ := tightenLoop_spec (m := m) { g with bound := b, lab := lb } (g.par n) m.sense.best0 (g.lab n)
        rw [← he] at t1 t2 t3
        dsimp only at t1 t2 t3
        have hpar : ∀ e, e ∈ g.par n → g.es e ∈ g.an ∧ ρ (g.es e) < K ∧ e < g.ne ∧ g.ed e = n := by
          intro e hem
          obtain ⟨a1, a2⟩ := (h.par n e).1 hem
          have := h.up e a1
          rw [a2] at this
          exact ⟨h.src e a1, by omega, a1, a2⟩
        have hatt : ∀ e, e ∈ g.par n → ∃ ls c, GP g g.root n (ls ++ [g.el e]) (c + g.eo e) ∧
            b (g.es e) = g.bound g.root + c ∧ lb (g.es e) = g.lab g.root ++ ls := by
          intro e hem
          obtain ⟨a1, a2, a3, a4⟩ := hpar e hem
          rcases (ih _ a2 a1).2 with ⟨x1, x2, _⟩ | ⟨ls, c, x1, x2, x3⟩
          · have := hiso _ a1 x1 x2
            have hk := (h.kids (g.es e) e).2 ⟨a3, rfl⟩
            rw [this] at hk; simp at hk
          · have := GP.snoc x1 a3 rfl
            rw [a4] at this
            exact ⟨ls, c, this, x2, x3⟩
        refine ⟨fun ls c hgp => ?_, Or.inr ?_⟩
        · cases hgp with
          | nil => exact absurd hrp hp
          | @snoc n' ls' c' e hgp' a1 a2 =>
            have hem := (h.par _ e).2 ⟨a1, rfl⟩
            have hq := hpar e hem
            subst a2
            have := (ih _ hq.2.1 hq.1).1 ls' c' hgp'
            have h4 := t3 e hem
            simp only [Sense.k_add] at this h4 ⊢
            omega
        · rcases t1 with t1 | ⟨e, hem, t1⟩
          · exfalso
            simp only [Prod.mk.injEq] at t1
            cases hpl : g.par n with
            | nil => exact hp hpl
            | cons e es =>
              obtain ⟨ls, c, x1, x2, _⟩ := hatt e (by simp [hpl])
              have h4 := t3 e (by simp [hpl])
              have h5 := hR _ _ _ x1
              rw [t1.1, x2] at h4
              rw [Sense.better_iff] at h5
              simp only [Sense.k_add] at h4 h5
              omega
          · obtain ⟨ls, c, x1, x2, x3⟩ := hatt e hem
            simp only [Prod.mk.injEq] at t1
            refine ⟨ls ++ [g.el e], c + g.eo e, x1, ?_, ?_⟩
            · rw [t1.1, x2]; omega
            · rw [t1.2, x3]; simp
  intro n hn
  obtain ⟨k1, k2⟩ := key (ρ n + 1) n (by omega) hn
  refine ⟨fun ls c hgp => by rw [Sense.betterEQ_iff]; exact k1 ls c hgp, ?_⟩
  rcases k2 with ⟨x1, x2, x3⟩ | x
  · left
    refine ⟨x3, fun ls c hgp => ?_⟩
    cases hgp with
    | nil => exact x1 rfl
    | @snoc n' ls' c' e _ a1 a2 =>
      have := (h.par _ e).2 ⟨a1, rfl⟩
      rw [x2] at this; simp at this
  · exact Or.inr x

/-- C19.  On an acyclic diagram, `computeBestBackward` gives every node a value at least as good as
every path to the sink, and solves the backward equation: 0 at the sink, the sentinel at other
childless nodes, elsewhere the best over outgoing arcs (or the sentinel if none beats it). -/
theorem computeBestBackward_correct {g : G σ} {ρ : Nat → Nat} (h : Wg g ρ) (hs : g.trg ∈ g.an) (hk : g.kids g.trg = []) :
    ∃ g', computeBestBackward m g = some g' ∧ (∀ n, g'.bound n = g.bound n ∧ g'.lab n = g.lab n) ∧
    g'.bb g.trg = 0 ∧ (∀ n, n ∈ g.an → n ≠ g.trg → g.kids n = [] → g'.bb n = m.sense.best0) ∧
    (∀ n, n ∈ g.an → g.kids n ≠ [] →
      (∀ e, e ∈ g.kids n → m.sense.betterEQ (g'.bb n) (g'.bb (g.ed e) + g.eo e) = true) ∧
      (g'.bb n = m.sense.best0 ∨ ∃ e, e ∈ g.kids n ∧ g'.bb n = g'.bb (g.ed e) + g.eo e)) ∧
    (∀ n ls c, n ∈ g.an → GP g n g.trg ls c → m.sense.betterEQ (g'.bb n) c = true) := by
  obtain ⟨b, h1, h2, h3⟩ := computeBestBackward_eq (m := m) h
  have hb0 : b g.trg = 0 := by
    have := h2 g.trg hs
    rw [hk] at this
    simpa [kidLoop] using this
  have hbell : ∀ n, n ∈ g.an → g.kids n ≠ [] →
      (∀ e, e ∈ g.kids n → m.sense.betterEQ (b n) (b (g.ed e) + g.eo e) = true) ∧
      (b n = m.sense.best0 ∨ ∃ e, e ∈ g.kids n ∧ b n = b (g.ed e) + g.eo e) := by
    intro n hn hkn
    have he := h2 n hn
    have hne : ((g.kids n).isEmpty) = false := by simpa using hkn
    rw [hne] at he
    simp only [Bool.false_eq_true, if_false] at he
    obtain ⟨t1, t2, t3⟩ := kidLoop_spec (m := m) { g with bb := b } (g.kids n) m.sense.best0
    rw [← he] at t1 t2 t3
    exact ⟨fun e hem => by rw [Sense.betterEQ_iff]; exact t3 e hem, t1⟩
  refine ⟨_, h1, fun n => ⟨rfl, rfl⟩, hb0, ?_, hbell, ?_⟩
  · intro n hn hnt hkn
    have := h2 n hn
    rw [hkn] at this
    simpa [kidLoop, hnt] using this
  · have key : ∀ (K : Nat), ∃ B, ∀ n, n ∈ g.an → ρ n ≤ B := by
      intro _
      clear h1 h2 h3 hbell hs
      induction g.an with
      | nil => exact ⟨0, by simp⟩
      | cons a l ih =>
        obtain ⟨B, hB⟩ := ih
        refine ⟨max B (ρ a), fun n hn => ?_⟩
        rcases List.mem_cons.1 hn with x | x
        · subst x; omega
        · have := hB n x; omega
    obtain ⟨B, hB⟩ := key 0
    have main : ∀ (K n : Nat), n ∈ g.an → B < ρ n + K → ∀ ls c, GP g n g.trg ls c → m.sense.k c ≤ m.sense.k (b n) := by
      intro K
      induction K with
      | zero => intro n hn hK; have := hB n hn; omega
      | succ K ih =>
        intro n hn hK ls c hgp
        rcases hgp.first with ⟨x, y⟩ | ⟨e, ls', c', x1, x2, x3, x4⟩
        · subst x; rw [hb0, y]; exact Int.le_refl _
        · have hem : e ∈ g.kids n := (h.kids n e).2 ⟨x1, x2⟩
          have hup := h.up e x1
          rw [x2] at hup
          have := ih _ (h.dst e x1) (by omega) _ _ x3
          have hb := (hbell n hn (by intro hh; rw [hh] at hem; simp at hem)).1 e hem
          rw [Sense.betterEQ_iff, Sense.k_add] at hb
          rw [x4, Sense.k_add]
          omega
    intro n ls c hn hgp
    rw [Sense.betterEQ_iff]
    exact main (B + 1) n hn (by omega) ls c hgp

/-- A diamond with a shortcut, nodes listed sink first: 0 -(1)-> 2 -(5)-> 1, 0 -(2)-> 3 -(1)-> 1,
2 -(1)-> 3. -/
def diamond : G Nat :=
  addEdge (addEdge (addEdge (addEdge (addEdge { start (⟨0, [7], 10, 0⟩ : Src Nat) with
    nn := 4, an := [1, 3, 2, 0], trg := 1 } 0 2 0 1) 2 1 1 5) 0 3 2 2) 3 1 3 1) 2 3 4 1

/-- Any model with this sense. -/
def anyMin : Mdl Nat := ⟨.min, 0, 1, fun _ => [], fun _ _ => none, fun _ _ => 0, fun _ _ => none, fun _ => false, none, none⟩

theorem diamond_wg : Wg diamond (fun n => [0, 3, 1, 2].getD n 0) where
  nd := by decide
  kids := by
    intro i e
    have he : diamond.ne = 5 := rfl
    constructor
    · intro h
      match i with
      | 0 | 1 | 2 | 3 => revert e; decide
      | i + 4 => simp [diamond, addEdge, addArc, addArcNode, upd, start] at h
    · rintro ⟨h1, rfl⟩
      rw [he] at h1
      revert e; decide
  par := by
    intro i e
    have he : diamond.ne = 5 := rfl
    constructor
    · intro h
      match i with
      | 0 | 1 | 2 | 3 => revert e; decide
      | i + 4 => simp [diamond, addEdge, addArc, addArcNode, upd, start] at h
    · rintro ⟨h1, rfl⟩
      rw [he] at h1
      revert e; decide
  kn := by
    intro i
    match i with
    | 0 | 1 | 2 | 3 => decide
    | i + 4 => simp [diamond, addEdge, addArc, addArcNode, upd, start]
  pn := by
    intro i
    match i with
    | 0 | 1 | 2 | 3 => decide
    | i + 4 => simp [diamond, addEdge, addArc, addArcNode, upd, start]
  src := by decide
  dst := by decide
  up := by decide

example : (computeBest anyMin diamond).map (fun g => (g.bound 1, g.lab 1)) = some (13, [7, 2, 3]) := by decide +kernel
example : (computeBestBackward anyMin diamond).map (fun g => [g.bb 0, g.bb 1, g.bb 2, g.bb 3]) = some [3, 0, 2, 1] := by
  decide +kernel
example : diamond.par diamond.root = [] ∧ diamond.root ∈ diamond.an ∧ diamond.trg ∈ diamond.an ∧ diamond.kids diamond.trg = [] ∧
    ∀ n, n ∈ diamond.an → n ≠ diamond.root → diamond.par n = [] → diamond.kids n = [] := by decide

end Verif.DD
