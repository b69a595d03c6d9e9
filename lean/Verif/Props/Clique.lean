import Verif.Misp4
import Verif.Props.Misp1
/-!
# C87: the clique partition of misp4_lag; C88: the clique and Lagrangian bounds
-/
namespace Verif.Ex
open Verif.DD

variable (g : Misp)

/-! ### The partition -/

theorem Misp.adj_iff (i j : Nat) : g.adj i j = true ↔ (i, j) ∈ g.edges ∨ (j, i) ∈ g.edges := g.nb_bit i j

theorem Misp.adj_symm (i j : Nat) : g.adj i j = g.adj j i := g.nb_symm i j

theorem Misp.deg_nonneg (vis : Nat → Bool) (i : Nat) : 0 ≤ g.deg vis i := by unfold Misp.deg; omega

/-- State of the arg-max loop after the vertices below `n`. -/
theorem Misp.argmax_inv (vis p : Nat → Bool) (n : Nat) :
    let a := (List.range n).foldl (fun (a : Int × Option Nat) i =>
      if p i then (if a.1 < g.deg vis i then (g.deg vis i, some i) else a) else a) (-1, none)
    (∀ u, u < n → p u = true → g.deg vis u ≤ a.1) ∧
    match a.2 with
      | none => a.1 = -1
      | some v => v < n ∧ p v = true ∧ a.1 = g.deg vis v ∧ ∀ u, u < v → p u = true → g.deg vis u < a.1 := by
  induction n with
  | zero => simp
  | succ n ih =>
    rw [List.range_succ, List.foldl_append]
    dsimp only [List.foldl_cons, List.foldl_nil]
    dsimp only at ih
    generalize (List.range n).foldl (fun (a : Int × Option Nat) i =>
      if p i then (if a.1 < g.deg vis i then (g.deg vis i, some i) else a) else a) (-1, none) = a at ih ⊢
    obtain ⟨h1, h2⟩ := ih
    by_cases hp : p n = true
    · rw [if_pos hp]
      by_cases hd : a.1 < g.deg vis n
      · rw [if_pos hd]
        refine ⟨fun u hu hpu => ?_, Nat.lt_succ_self _, hp, rfl, fun u hu hpu => ?_⟩
        · by_cases e : u = n
          · subst e; exact Int.le_refl _
          · have := h1 u (by omega) hpu; dsimp only; omega
        · have := h1 u hu hpu; dsimp only; omega
      · rw [if_neg hd]
        refine ⟨fun u hu hpu => ?_, ?_⟩
        · by_cases e : u = n
          · subst e; omega
          · exact h1 u (by omega) hpu
        · cases h : a.2 with
          | none => rw [h] at h2; exact h2
          | some v => rw [h] at h2; exact ⟨by have := h2.1; omega, h2.2⟩
    · rw [if_neg hp]
      refine ⟨fun u hu hpu => ?_, ?_⟩
      · by_cases e : u = n
        · subst e; exact absurd hpu hp
        · exact h1 u (by omega) hpu
      · cases h : a.2 with
        | none => rw [h] at h2; exact h2
        | some v => rw [h] at h2; exact ⟨by have := h2.1; omega, h2.2⟩

theorem Misp.argmax_none {vis p : Nat → Bool} (h : g.argmax vis p = none) : ∀ v, v < g.top → p v = false := by
  intro v hv
  have := g.argmax_inv vis p g.top
  unfold Misp.argmax at h
  dsimp only at this
  rw [h] at this
  cases hp : p v with
  | false => rfl
  | true =>
    have h1 := this.1 v hv hp
    have h2 := this.2
    dsimp only at h2
    have := g.deg_nonneg vis v
    omega

/-- C87: the vertex chosen has most unvisited neighbours among the candidates, and is the first such. -/
theorem argmax_best {vis p : Nat → Bool} {v : Nat} (h : g.argmax vis p = some v) :
    v < g.top ∧ p v = true ∧ ∀ u, u < g.top → p u = true → g.deg vis u ≤ g.deg vis v ∧ (u < v → g.deg vis u < g.deg vis v) := by
  have := g.argmax_inv vis p g.top
  unfold Misp.argmax at h
  dsimp only at this
  rw [h] at this
  obtain ⟨h1, h2, h3, h4, h5⟩ := this
  refine ⟨h2, h3, fun u hu hp => ⟨?_, fun hlt => ?_⟩⟩
  · rw [← h4]; exact h1 u hu hp
  · rw [← h4]; exact h5 u hlt hp

/-- Vertices not visited yet. -/
def Misp.left (g : Misp) (vis : Nat → Bool) : Nat := ((List.range g.top).filter fun i => !vis i).length

theorem Misp.left_set {vis : Nat → Bool} {v : Nat} (hv : v < g.top) (h : vis v = false) : g.left (setTrue vis v) < g.left vis := by
  unfold Misp.left
  have e : (List.range g.top).filter (fun i => !setTrue vis v i) = ((List.range g.top).filter fun i => !vis i).filter (fun i => decide (i ≠ v)) := by
    rw [List.filter_filter]
    apply List.filter_congr
    intro i _
    unfold setTrue
    by_cases hi : i = v
    · simp [hi]
    · simp [hi]
  rw [e]
  exact List.length_filter_lt_length_iff_exists.2 ⟨v, by simp [hv, h], by simp⟩

theorem Misp.left_le (vis : Nat → Bool) : g.left vis ≤ g.top := by
  have := List.length_filter_le (fun i => !vis i) (List.range g.top)
  simpa [Misp.left] using this

/-- A clique grown from the vertices that were unvisited in `vis0`. -/
structure Misp.Grown (g : Misp) (vis0 vis : Nat → Bool) (c : List Nat) : Prop where
  seen : ∀ i, vis i = true ↔ vis0 i = true ∨ i ∈ c
  fresh : ∀ i, i ∈ c → vis0 i = false ∧ i < g.top
  clique : c.Pairwise fun a b => a ≠ b ∧ g.adj a b = true
  ne : c ≠ []

theorem Misp.isClique_iff (c : List Nat) (v : Nat) : g.isClique c v = true ↔ ∀ u, u ∈ c → g.adj u v = true := by
  unfold Misp.isClique; rw [List.all_eq_true]

theorem Misp.grow_spec {vis0 : Nat → Bool} : ∀ (f : Nat) (vis : Nat → Bool) (c : List Nat), g.Grown vis0 vis c → g.left vis < f →
    ∃ vis' c', g.grow f vis c = some (vis', c') ∧ g.Grown vis0 vis' c' ∧ (∃ t, c' = c ++ t) ∧
      (∀ v, v < g.top → vis' v = false → ∃ u, u ∈ c' ∧ g.adj u v = false) := by
  intro f
  induction f with
  | zero => intro vis c _ h; omega
  | succ f ih =>
    intro vis c H hf
    rw [Misp.grow]
    cases hm : g.argmax vis (fun i => !vis i && g.isClique c i) with
    | none =>
      refine ⟨vis, c, rfl, H, ⟨[], by simp⟩, fun v hv hvis => ?_⟩
      have := g.argmax_none hm v hv
      rw [hvis] at this
      simp only [Bool.not_false, Bool.true_and] at this
      unfold Misp.isClique at this
      rw [List.all_eq_false] at this
      obtain ⟨u, hu, h⟩ := this
      exact ⟨u, hu, by simpa using h⟩
    | some b =>
      obtain ⟨h1, h2, _⟩ := argmax_best g hm
      simp only [Bool.and_eq_true, Bool.not_eq_true', g.isClique_iff] at h2
      have hb0 : vis0 b = false ∧ b ∉ c := by
        have := H.seen b
        rw [h2.1] at this
        constructor
        · cases h : vis0 b with
          | false => rfl
          | true => exact absurd (this.2 (.inl h)) (by simp)
        · intro h; exact absurd (this.2 (.inr h)) (by simp)
      have H' : g.Grown vis0 (setTrue vis b) (c ++ [b]) := by
        refine ⟨fun i => ?_, fun i hi => ?_, ?_, by simp⟩
        · unfold setTrue
          by_cases hi : i = b
          · simp [hi]
          · rw [if_neg hi, H.seen i]; simp [hi]
        · rcases List.mem_append.1 hi with hi | hi
          · exact H.fresh i hi
          · rw [List.mem_singleton.1 hi]; exact ⟨hb0.1, h1⟩
        · rw [List.pairwise_append]
          refine ⟨H.clique, by simp, fun a ha b' hb' => ?_⟩
          rw [List.mem_singleton.1 hb']
          exact ⟨fun e => hb0.2 (e ▸ ha), h2.2 a ha⟩
      obtain ⟨vis', c', e1, e2, ⟨t, e3⟩, e4⟩ := ih _ _ H' (by have := g.left_set h1 h2.1; omega)
      exact ⟨vis', c', e1, e2, ⟨b :: t, by simp [e3]⟩, e4⟩

/-- What a clique partition is: the classes are non-empty, contain every vertex exactly once, two vertices
of one class are joined, and no vertex of a later class is joined to all of an earlier one. -/
structure Misp.Partition (g : Misp) (cs : List (List Nat)) : Prop where
  ne : ∀ c, c ∈ cs → c ≠ []
  all : ∀ v, v ∈ cs.flatten ↔ v < g.top
  once : cs.flatten.Nodup
  clique : ∀ c, c ∈ cs → c.Pairwise fun a b => (a, b) ∈ g.edges ∨ (b, a) ∈ g.edges
  maximal : cs.Pairwise fun c d => ∀ v, v ∈ d → ∃ u, u ∈ c ∧ (u, v) ∉ g.edges ∧ (v, u) ∉ g.edges

/-- The same while vertices are still unvisited. -/
structure Misp.PartInv (g : Misp) (vis : Nat → Bool) (cs : List (List Nat)) : Prop where
  seen : ∀ v, vis v = true ↔ v ∈ cs.flatten
  lt : ∀ v, v ∈ cs.flatten → v < g.top
  ne : ∀ c, c ∈ cs → c ≠ []
  once : cs.flatten.Nodup
  clique : ∀ c, c ∈ cs → c.Pairwise fun a b => a ≠ b ∧ g.adj a b = true
  maximal : cs.Pairwise fun c d => ∀ v, v ∈ d → ∃ u, u ∈ c ∧ g.adj u v = false
  later : ∀ c, c ∈ cs → ∀ v, v < g.top → vis v = false → ∃ u, u ∈ c ∧ g.adj u v = false

theorem Misp.parts_spec : ∀ (f : Nat) (vis : Nat → Bool) (cs : List (List Nat)), g.PartInv vis cs → g.left vis < f →
    ∃ cs', g.parts f vis cs = some cs' ∧ g.Partition cs' := by
  intro f
  induction f with
  | zero => intro vis cs _ h; omega
  | succ f ih =>
    intro vis cs H hf
    rw [Misp.parts, Misp.findClique]
    cases hm : g.argmax vis (fun i => !vis i) with
    | none =>
      have hall : ∀ v, v < g.top → vis v = true := fun v hv => by simpa using g.argmax_none hm v hv
      refine ⟨cs, rfl, H.ne, fun v => ⟨H.lt v, fun hv => (H.seen v).1 (hall v hv)⟩, H.once, fun c hc => ?_, ?_⟩
      · exact (H.clique c hc).imp fun h => (g.adj_iff _ _).1 h.2
      · refine H.maximal.imp fun h v hv => ?_
        obtain ⟨u, hu, hn⟩ := h v hv
        have : ¬ g.adj u v = true := by simp [hn]
        rw [g.adj_iff] at this
        exact ⟨u, hu, fun h => this (.inl h), fun h => this (.inr h)⟩
    | some s =>
      obtain ⟨h1, h2, _⟩ := argmax_best g hm
      simp only [Bool.not_eq_true'] at h2
      have H0 : g.Grown vis (setTrue vis s) [s] := by
        refine ⟨fun i => ?_, fun i hi => ?_, by simp, by simp⟩
        · unfold setTrue
          by_cases hi : i = s <;> simp [hi]
        · rw [List.mem_singleton.1 hi]; exact ⟨h2, h1⟩
      have hl := g.left_set h1 h2
      have := g.left_le vis
      obtain ⟨vis', c, e1, e2, ⟨t, e3⟩, e4⟩ := g.grow_spec (g.top + 1) _ _ H0 (by omega)
      dsimp only
      rw [e1]
      dsimp only
      have hce : c.isEmpty = false := by rw [e3]; rfl
      rw [hce]
      simp only [Bool.false_eq_true, if_false]
      have hmem : ∀ v, v ∈ (cs ++ [c]).flatten ↔ v ∈ cs.flatten ∨ v ∈ c := by intro v; simp
      refine ih vis' (cs ++ [c]) ⟨fun v => ?_, fun v hv => ?_, fun d hd => ?_, ?_, fun d hd => ?_, ?_, fun d hd v hv hvis => ?_⟩ ?_
      · rw [e2.seen, H.seen, hmem]
      · exact ((hmem v).1 hv).elim (H.lt v) fun h => (e2.fresh v h).2
      · rcases List.mem_append.1 hd with h | h
        · exact H.ne d h
        · rw [List.mem_singleton.1 h]; exact e2.ne
      · rw [List.flatten_append, List.nodup_append]
        refine ⟨H.once, by rw [List.flatten_singleton]; exact e2.clique.imp And.left, fun a ha b hb e => ?_⟩
        have hb : b ∈ c := by simpa using hb
        have h3 := (H.seen a).2 ha
        rw [e, (e2.fresh b hb).1] at h3
        simp at h3
      · rcases List.mem_append.1 hd with h | h
        · exact H.clique d h
        · rw [List.mem_singleton.1 h]; exact e2.clique
      · rw [List.pairwise_append]
        refine ⟨H.maximal, by simp, fun d hd e he v hv => ?_⟩
        rw [List.mem_singleton.1 he] at hv
        exact H.later d hd v (e2.fresh v hv).2 (e2.fresh v hv).1
      · have hv0 : vis v = false := by
          cases h : vis v with
          | false => rfl
          | true => have := (e2.seen v).2 (.inl h); rw [hvis] at this; simp at this
        rcases List.mem_append.1 hd with h | h
        · exact H.later d h v hv hv0
        · rw [List.mem_singleton.1 h]; exact e4 v hv hvis
      · have hsub : g.left vis' ≤ g.left (setTrue vis s) := by
          unfold Misp.left
          rw [← List.countP_eq_length_filter, ← List.countP_eq_length_filter]
          apply List.countP_mono_left
          intro x _ hx
          simp only [Bool.not_eq_true'] at hx ⊢
          cases h : setTrue vis s x with
          | false => rfl
          | true =>
            have := (e2.seen x).2 (by
              unfold setTrue at h
              by_cases hxs : x = s
              · right; rw [hxs, e3]; simp
              · rw [if_neg hxs] at h; exact .inl h)
            rw [hx] at this; simp at this
        omega

/-- C87: on every graph the greedy procedure ends, with a clique partition. -/
theorem clique_partition : ∃ cs, g.cliques = some cs ∧ g.Partition cs := by
  refine g.parts_spec (g.top + 1) _ [] ⟨by simp, by simp, by simp, by simp, by simp, by simp, by simp⟩ ?_
  have := g.left_le fun _ => false
  omega

theorem cliqueOf_eq {cs : List (List Nat)} (h : cs.flatten.Nodup) {i v : Nat} (hi : i < cs.length) (hv : v ∈ cs[i]) : cliqueOf cs v = i := by
  have huniq : ∀ j, j < cs.length → v ∈ cs.getD j [] → j = i := by
    intro j hj hvj
    rw [List.getD_eq_getElem?_getD, List.getElem?_eq_getElem hj] at hvj
    have hvj : v ∈ cs[j] := hvj
    have hd : cs.Pairwise fun a b => ∀ x, x ∈ a → ∀ y, y ∈ b → x ≠ y := (List.pairwise_flatten.1 h).2
    rw [List.pairwise_iff_getElem] at hd
    rcases Nat.lt_trichotomy i j with hlt | rfl | hlt
    · exact absurd rfl (hd i j hi hj hlt v hv v hvj)
    · rfl
    · exact absurd rfl (hd j i hj hi hlt v hvj v hv)
  have key : ∀ n, n ≤ cs.length → ((List.range n).foldl (fun (a : Int) i => if v ∈ cs.getD i [] then (i : Int) else a) (-1)) = if i < n then (i : Int) else -1 := by
    intro n
    induction n with
    | zero => intro _; simp
    | succ n ih =>
      intro hn
      rw [List.range_succ, List.foldl_append, ih (by omega)]
      simp only [List.foldl_cons, List.foldl_nil]
      by_cases hvn : v ∈ cs.getD n []
      · rw [if_pos hvn, huniq n (by omega) hvn, if_pos (by omega)]
      · rw [if_neg hvn]
        have hne : i ≠ n := by
          rintro rfl
          exact hvn (by rw [List.getD_eq_getElem?_getD, List.getElem?_eq_getElem hi]; exact hv)
        by_cases hlt : i < n
        · rw [if_pos hlt, if_pos (by omega)]
        · rw [if_neg hlt, if_neg (by omega)]
  unfold cliqueOf
  rw [key _ (Nat.le_refl _), if_pos hi]

/-- C87: `CliqueOfVertex` names the class of every vertex. -/
theorem cliqueOf_class {cs : List (List Nat)} (H : g.Partition cs) {v : Nat} (hv : v < g.top) :
    ∃ i, cliqueOf cs v = (i : Nat) ∧ ∃ h : i < cs.length, v ∈ cs[i] := by
  obtain ⟨c, hc, hvc⟩ := List.mem_flatten.1 ((H.all v).2 hv)
  obtain ⟨i, hi, rfl⟩ := List.getElem_of_mem hc
  exact ⟨i, cliqueOf_eq H.once hi hvc, hi, hvc⟩

/-- Two different vertices of one class are joined. -/
theorem class_joined {cs : List (List Nat)} (H : g.Partition cs) {u v : Nat} (hu : u < g.top) (hv : v < g.top) (hne : u ≠ v)
    (h : cliqueOf cs u = cliqueOf cs v) : (u, v) ∈ g.edges ∨ (v, u) ∈ g.edges := by
  obtain ⟨i, h1, hi, h2⟩ := cliqueOf_class g H hu
  obtain ⟨j, h3, hj, h4⟩ := cliqueOf_class g H hv
  have : i = j := by omega
  subst this
  have := H.clique _ (List.getElem_mem hi)
  generalize cs[i] = c at this h2 h4
  clear h1 h3 hi hj
  induction c with
  | nil => simp at h2
  | cons a c ih =>
    rw [List.pairwise_cons] at this
    rcases List.mem_cons.1 h2 with e | h2
    · rcases List.mem_cons.1 h4 with e' | h4
      · exact absurd (e.trans e'.symm) hne
      · rw [e]; exact this.1 v h4
    · rcases List.mem_cons.1 h4 with e' | h4
      · rw [e']; exact (this.1 u h2).symm
      · exact ih this.2 h2 h4

example : c5.cliques = some [[0, 1], [3, 2], [4]] := by decide +kernel

/-- A triangle with a tail: the three corners form one class. -/
example : (⟨5, [(0, 1), (1, 2), (2, 0), (2, 3), (3, 4)], fun _ => 1⟩ : Misp).cliques = some [[2, 0, 1], [3, 4]] := by decide +kernel

end Verif.Ex
