import Verif.Props.ReportEx

/-!
# C130: when a progress line is printed
-/
namespace Verif.BB
open Verif.DD
set_option linter.unusedSectionVars false
variable {σ : Type} {m : Mdl σ} {rank : σ → Nat} {M : Int → Mdl σ} {T : Nat → Int → Mdl σ}
  {lc : Nat → Int → Option (σ → Ctx → Int)} [Same σ]

theorem cutStep_keep {l : Option (σ → Ctx → Int)} {g : G σ} {cur : Nat} {s : BS σ} {n : Nat} :
    (cutStep m l g cur s n).primal = s.primal ∧ (cutStep m l g cur s n).sols = s.sols := by
  have hd : ∀ (s : BS σ) st bd, (domStep m s st bd).2.primal = s.primal ∧ (domStep m s st bd).2.sols = s.sols := by
    intro s st bd
    unfold domStep
    split <;> exact ⟨rfl, rfl⟩
  obtain ⟨s1, hs1⟩ : ∃ s1, s1 = if n = g.root then { s with wrel := s.wrel + 1 } else s := ⟨_, rfl⟩
  have h1 : s1.primal = s.primal ∧ s1.sols = s.sols := by
    rw [hs1]; split <;> exact ⟨rfl, rfl⟩
  unfold cutStep
  rw [← hs1]
  dsimp only
  split
  · have h2 := hd s1 (g.st n) (g.bound n)
    split
    · rename_i a s2 e
      rw [e] at h2
      exact ⟨h2.1.trans h1.1, h2.2.trans h1.2⟩
    · rename_i a s2 e
      rw [e] at h2
      have h3 : s2.primal = s.primal ∧ s2.sols = s.sols := ⟨h2.1.trans h1.1, h2.2.trans h1.2⟩
      split
      · exact h3
      · split <;> exact h3
  · exact h1

theorem cutCount_better {g : G σ} {s : BS σ} {r : Rep} {n : Nat} : (cutCount m g s r n).primalBetter = r.primalBetter := by
  unfold cutCount
  split
  · dsimp only
    split
    · rfl
    · split <;> rfl
  · rfl

theorem cutFold_keep {l : Option (σ → Ctx → Int)} {g : G σ} {cur : Nat} : ∀ (cs : List Nat) (b : BS σ × Rep),
    (cs.foldl (fun b n => (cutStep m l g cur b.1 n, cutCount m g b.1 b.2 n)) b).1.primal = b.1.primal ∧
    (cs.foldl (fun b n => (cutStep m l g cur b.1 n, cutCount m g b.1 b.2 n)) b).1.sols = b.1.sols ∧
    (cs.foldl (fun b n => (cutStep m l g cur b.1 n, cutCount m g b.1 b.2 n)) b).2.primalBetter = b.2.primalBetter := by
  intro cs
  induction cs with
  | nil => intro b; exact ⟨rfl, rfl, rfl⟩
  | cons n cs ih =>
    intro b
    obtain ⟨h1, h2, h3⟩ := ih (cutStep m l g cur b.1 n, cutCount m g b.1 b.2 n)
    rw [List.foldl_cons]
    exact ⟨h1.trans cutStep_keep.1, h2.trans cutStep_keep.2, h3.trans cutCount_better⟩

/-- What an expansion says about a new solution. -/
theorem expandR_better {l : Int → Option (σ → Ctx → Int)} {wres fuel : Nat} {s s' : BS σ} {r r' : Rep} {cur : Nat}
    (h : expandR m M l wres fuel (s, r) cur = some (s', r')) (hr : r.primalBetter = false) :
    (∃ ys, s'.sols = s.sols ++ ys) ∧ m.sense.betterEQ s'.primal s.primal = true ∧
    (r'.primalBetter = true → m.sense.better s'.primal s.primal = true ∧ s'.primal ∈ s'.sols.map (·.1)) := by
  unfold expandR at h
  dsimp only at h
  simp only [Option.bind_eq_some_iff] at h
  obtain ⟨g, hg, h⟩ := h
  have hpick : ∀ a b, m.sense.better a b = true → m.sense.pick a b = a := by
    intro a b hab
    unfold Sense.pick
    rw [if_pos hab]
  split at h
  · rename_i hgb
    obtain ⟨s1, hs1⟩ : ∃ s1, s1 = if g.exact = true then setPrimal m s (g.bound g.trg) (g.lab g.trg) else s := ⟨_, rfl⟩
    rw [← hs1] at h
    have h1 : (∃ ys, s1.sols = s.sols ++ ys) ∧ m.sense.k s.primal ≤ m.sense.k s1.primal := by
      rw [hs1]
      split
      · refine ⟨⟨_, rfl⟩, ?_⟩
        simp only [setPrimal]
        rw [hpick _ _ hgb]
        rw [Sense.better_iff] at hgb
        omega
      · exact ⟨⟨[], by simp⟩, Int.le_refl _⟩
    simp only [Option.bind_eq_some_iff] at h
    obtain ⟨q, hq, h⟩ := h
    obtain ⟨s2, hs2⟩ : ∃ s2, s2 = if m.sense.better (q.bound q.trg) s1.primal = true then setPrimal m s1 (q.bound q.trg) (q.lab q.trg) else s1 := ⟨_, rfl⟩
    rw [← hs2] at h
    have h2 : (∃ ys, s2.sols = s.sols ++ ys) ∧ m.sense.k s.primal ≤ m.sense.k s2.primal ∧
        (m.sense.better (q.bound q.trg) s1.primal = true → m.sense.k s.primal < m.sense.k s2.primal ∧ s2.primal ∈ s2.sols.map (·.1)) := by
      obtain ⟨⟨ys, hy⟩, hk⟩ := h1
      rw [hs2]
      by_cases hb : m.sense.better (q.bound q.trg) s1.primal = true
      · rw [if_pos hb]
        have hp := hpick _ _ hb
        have hb' := hb
        rw [Sense.better_iff] at hb'
        refine ⟨⟨ys ++ [(m.sense.pick (q.bound q.trg) s1.primal, q.lab q.trg)], by simp [setPrimal, hy]⟩, ?_, fun _ => ⟨?_, by simp [setPrimal]⟩⟩
        · simp only [setPrimal]; rw [hp]; omega
        · simp only [setPrimal]; rw [hp]; omega
      · rw [if_neg hb]
        exact ⟨⟨ys, hy⟩, hk, fun h => absurd h hb⟩
    obtain ⟨e1, e2, e3⟩ : s'.primal = s2.primal ∧ s'.sols = s2.sols ∧ r'.primalBetter = m.sense.better (q.bound q.trg) s1.primal := by
      split at h
      · simp only [Option.map_eq_some_iff] at h
        obtain ⟨cs, _, h⟩ := h
        have := cutFold_keep (m := m) (l := l s2.primal) (g := g) (cur := cur) cs (s2, { r with primalBetter := m.sense.better (q.bound q.trg) s1.primal })
        rw [h] at this
        exact this
      · simp at h
        exact ⟨by rw [← h.1], by rw [← h.1], by rw [← h.2]⟩
    rw [e1, e2, e3, Sense.betterEQ_iff]
    exact ⟨h2.1, h2.2.1, fun hb => ⟨by rw [Sense.better_iff]; exact (h2.2.2 hb).1, (h2.2.2 hb).2⟩⟩
  · simp at h
    obtain ⟨rfl, rfl⟩ := h
    exact ⟨⟨[], by simp⟩, by rw [Sense.betterEQ_iff]; omega, fun h => by rw [hr] at h; cases h⟩

/-- Lines stay printed. -/
theorem loopR_lines {wres dfuel : Nat} {lim tick : Nat → Bool} : ∀ (f k : Nat) (s s' : BS σ) (r r' : Rep),
    loopR m T lc wres dfuel lim tick f k (s, r) = some (s', r') → ∃ ls, r'.lines = r.lines ++ ls := by
  have ht : ∀ b key p (r : Rep), ∃ ls, (turn b key p r).lines = r.lines ++ ls := by
    intro b key p r
    unfold turn
    dsimp only
    split
    · exact ⟨_, rfl⟩
    · exact ⟨[], by simp⟩
  intro f
  induction f with
  | zero => intro k s s' r r' h; simp [loopR] at h
  | succ f ih =>
    intro k s s' r r' h
    rw [loopR] at h
    dsimp only at h
    split at h
    · simp at h; exact ⟨[], by rw [h.2]; simp⟩
    · split at h
      · simp at h; exact ⟨[], by rw [h.2]; simp⟩
      · obtain ⟨l1, h1⟩ := ht (tick k) (Heap.extractMax (qord m) s.pq).2.2 s.primal r
        split at h
        · simp only [Option.bind_eq_some_iff] at h
          obtain ⟨⟨s2, r2⟩, hx, h⟩ := h
          obtain ⟨l2, h2⟩ := ih _ _ _ _ _ h
          have := expandR_lines hx
          dsimp only at this
          rw [h2, this, h1]
          exact ⟨l1 ++ l2, by simp⟩
        · obtain ⟨l2, h2⟩ := ih _ _ _ _ _ h
          rw [h2, h1]
          exact ⟨l1 ++ l2, by simp⟩

/-- C130: the next iteration after a restricted diagram has given a new solution prints a line, and so does one at
which five seconds have passed: with the nodes expanded so far, the key of the node it took and the primal bound. -/
theorem report_prints {wres dfuel : Nat} {lim tick : Nat → Bool} {f k : Nat} {s s' : BS σ} {r r' : Rep}
    (h : loopR m T lc wres dfuel lim tick f k (s, r) = some (s', r')) (hq : Heap.empty s.pq = false) (hl : lim k = false)
    (ht : r.primalBetter = true ∨ tick k = true) : ⟨r.nNode, (Heap.extractMax (qord m) s.pq).2.2, s.primal⟩ ∈ r'.lines := by
  cases f with
  | zero => simp [loopR] at h
  | succ f =>
    have hb : (r.primalBetter || tick k) = true := by rcases ht with h | h <;> simp [h]
    have hm : ∀ r1 : Rep, r1.lines = (turn (tick k) (Heap.extractMax (qord m) s.pq).2.2 s.primal r).lines →
        (⟨r.nNode, (Heap.extractMax (qord m) s.pq).2.2, s.primal⟩ : PLine) ∈ r1.lines := by
      intro r1 e
      rw [e]
      unfold turn
      dsimp only
      rw [if_pos hb]
      simp
    rw [loopR] at h
    dsimp only at h
    rw [if_neg (by simp [hq]), if_neg (by simp [hl])] at h
    split at h
    · simp only [Option.bind_eq_some_iff] at h
      obtain ⟨⟨s2, r2⟩, hx, h⟩ := h
      obtain ⟨l2, h2⟩ := loopR_lines _ _ _ _ _ _ h
      have := expandR_lines hx
      dsimp only at this
      rw [h2]
      exact List.mem_append_left _ (hm r2 this)
    · obtain ⟨l2, h2⟩ := loopR_lines _ _ _ _ _ _ h
      rw [h2]
      exact List.mem_append_left _ (hm _ rfl)

theorem loopR_improves {wres dfuel : Nat} {lim tick : Nat → Bool} (htk : ∀ k, tick k = false) : ∀ (f k : Nat) (s s' : BS σ) (r r' : Rep),
    loopR m T lc wres dfuel lim tick f k (s, r) = some (s', r') →
    (r.lines.map (·.primal)).Pairwise (fun a b => m.sense.better b a = true) → (∀ l, l ∈ r.lines → l.primal ∈ s.sols.map (·.1)) →
    (∀ l, l ∈ r.lines → m.sense.betterEQ s.primal l.primal = true) →
    (r.primalBetter = true → s.primal ∈ s.sols.map (·.1) ∧ ∀ l, l ∈ r.lines → m.sense.better s.primal l.primal = true) →
    (r'.lines.map (·.primal)).Pairwise (fun a b => m.sense.better b a = true) ∧ ∀ l, l ∈ r'.lines → l.primal ∈ s'.sols.map (·.1) := by
  intro f
  induction f with
  | zero => intro k s s' r r' h; simp [loopR] at h
  | succ f ih =>
    intro k s s' r r' h a1 a2 a3 a4
    rw [loopR] at h
    dsimp only at h
    split at h
    · simp at h; obtain ⟨rfl, rfl⟩ := h; exact ⟨a1, a2⟩
    · split at h
      · simp at h; obtain ⟨rfl, rfl⟩ := h; exact ⟨a1, a2⟩
      · obtain ⟨r1, hr1⟩ : ∃ r1, r1 = turn (tick k) (Heap.extractMax (qord m) s.pq).2.2 s.primal r := ⟨_, rfl⟩
        rw [← hr1] at h
        have b0 : r1.primalBetter = false := by rw [hr1]; rfl
        have b : (r1.lines.map (·.primal)).Pairwise (fun a b => m.sense.better b a = true) ∧ (∀ l, l ∈ r1.lines → l.primal ∈ s.sols.map (·.1)) ∧
            (∀ l, l ∈ r1.lines → m.sense.betterEQ s.primal l.primal = true) := by
          rw [hr1]
          unfold turn
          dsimp only
          rw [htk k, Bool.or_false]
          by_cases hb : r.primalBetter = true
          · rw [if_pos hb]
            obtain ⟨c1, c2⟩ := a4 hb
            refine ⟨?_, ?_, ?_⟩
            · rw [List.map_append, List.pairwise_append]
              refine ⟨a1, by simp, ?_⟩
              intro x hx y hy
              rw [List.mem_map] at hx
              obtain ⟨l, hl, rfl⟩ := hx
              simp at hy
              rw [hy]
              exact c2 l hl
            · intro l hl
              rcases List.mem_append.1 hl with hl | hl
              · exact a2 l hl
              · rw [List.mem_singleton] at hl; rw [hl]; exact c1
            · intro l hl
              rcases List.mem_append.1 hl with hl | hl
              · exact a3 l hl
              · rw [List.mem_singleton] at hl; rw [hl, Sense.betterEQ_iff]; exact Int.le_refl _
          · rw [if_neg hb]
            exact ⟨a1, a2, a3⟩
        obtain ⟨b1, b2, b3⟩ := b
        split at h
        · simp only [Option.bind_eq_some_iff] at h
          obtain ⟨⟨s2, r2⟩, hx, h⟩ := h
          have e1 := expandR_lines hx
          obtain ⟨⟨ys, e2⟩, e3, e4⟩ := expandR_better hx b0
          dsimp only at e1 e2 e3 e4
          refine ih _ _ _ _ _ h (by rw [e1]; exact b1) ?_ ?_ ?_
          · intro l hl
            rw [e1] at hl
            rw [e2, List.map_append]
            exact List.mem_append_left _ (b2 l hl)
          · intro l hl
            rw [e1] at hl
            have := b3 l hl
            rw [Sense.betterEQ_iff] at this e3 ⊢
            omega
          · intro hb
            obtain ⟨f1, f2⟩ := e4 hb
            refine ⟨f2, fun l hl => ?_⟩
            rw [e1] at hl
            have := b3 l hl
            rw [Sense.betterEQ_iff] at this
            rw [Sense.better_iff] at f1 ⊢
            omega
        · exact ih _ _ _ _ _ h b1 b2 b3 (fun hb => by rw [b0] at hb; cases hb)

/-- C130: in a run that prints for new solutions only (less than five seconds), the primal column strictly improves from
line to line and shows values that were reported. -/
theorem report_improves {w dfuel fuel : Nat} {lim tick : Nat → Bool} (htk : ∀ k, tick k = false) {p0 : Int} {s : BS σ} {r : Rep}
    (h : searchRT m T lc w dfuel lim tick fuel p0 = some (s, r)) :
    (r.lines.map (·.primal)).Pairwise (fun a b => m.sense.better b a = true) ∧ ∀ l, l ∈ r.lines → l.primal ∈ s.sols.map (·.1) :=
  loopR_improves htk fuel 0 _ _ _ _ h (by simp) (by simp) (by simp) (by simp)

end Verif.BB

namespace Verif.Ex
open Verif.DD Verif.BB

/-- C130: not every new solution gives a line: one that an exact relaxed diagram gives, or the last expansion, does not.
On `g6` at width 2 the solution of value 4 appears in no progress line. -/
theorem report_lines_false : ∃ s r, searchR g6.mdl 2 50 (fun _ => false) (fun _ => false) 50 (-2147483647) = some (s, r) ∧
    s.sols.map (·.1) = [3, 4] ∧ r.lines = [⟨1, 5, 3⟩] := by
  have hv : (searchR g6.mdl 2 50 (fun _ => false) (fun _ => false) 50 (-2147483647)).map (fun a => (a.1.sols.map (·.1), a.2.lines)) =
      some ([3, 4], [⟨1, 5, 3⟩]) := by decide +kernel
  simp only [Option.map_eq_some_iff] at hv
  obtain ⟨⟨s, r⟩, h1, h2⟩ := hv
  simp at h2
  exact ⟨s, r, h1, h2.1, h2.2⟩

/-- The hypotheses of `report_prints`: an iteration of a run on `g6` that starts with a flag set. -/
example : ∃ s' r', loopR g6.mdl (fun _ _ => g6.mdl) (fun _ _ => g6.mdl.loc) 2 50 (fun _ => false) (fun _ => false) 50 0
    (init g6.mdl 2 (-2147483647), { primalBetter := true }) = some (s', r') ∧ ⟨0, 6, -2147483647⟩ ∈ r'.lines := by
  have hv : (loopR g6.mdl (fun _ _ => g6.mdl) (fun _ _ => g6.mdl.loc) 2 50 (fun _ => false) (fun _ => false) 50 0
    (init g6.mdl 2 (-2147483647), { primalBetter := true })).isSome = true := by decide +kernel
  obtain ⟨⟨s', r'⟩, h⟩ := Option.isSome_iff_exists.1 hv
  have hk : (Heap.extractMax (qord g6.mdl) (init g6.mdl 2 (-2147483647)).pq).2.2 = 6 := by decide +kernel
  have := report_prints h (by decide +kernel) rfl (.inl rfl)
  rw [hk] at this
  exact ⟨s', r', h, this⟩

end Verif.Ex
