import Verif.Range
/-!
# Properties of `Range` (C46, C47, C48)

Specification: `up a n` is the list `a, a+1, …` of `n` values, `down a n` is `a, a-1, …`.
`Yields r l` says that the C++ loop over `r` stops and visits exactly `l`.
-/
namespace Verif.Range

/-- `n` consecutive values from `a` upwards. -/
def up (a : Int) : Nat → List Int
  | 0 => []
  | n + 1 => a :: up (a + 1) n
/-- `n` consecutive values from `a` downwards. -/
def down (a : Int) : Nat → List Int
  | 0 => []
  | n + 1 => a :: down (a - 1) n

theorem mem_up {a x : Int} {n : Nat} : x ∈ up a n ↔ a ≤ x ∧ x < a + n := by
  induction n generalizing a with
  | zero => simp [up]
  | succ n ih => simp only [up, List.mem_cons, ih]; omega

theorem mem_down {a x : Int} {n : Nat} : x ∈ down a n ↔ a - n < x ∧ x ≤ a := by
  induction n generalizing a with
  | zero => simp [down]
  | succ n ih => simp only [down, List.mem_cons, ih]; omega

theorem length_up (a : Int) (n : Nat) : (up a n).length = n := by
  induction n generalizing a <;> simp_all [up]

theorem length_down (a : Int) (n : Nat) : (down a n).length = n := by
  induction n generalizing a <;> simp_all [down]

/-- The loop over `r` terminates and visits exactly the values of `l`, in order:
every sufficiently large fuel gives `l`. -/
def Yields (r : Range) (l : List Int) : Prop :=
  ∃ n, ∀ fuel, n ≤ fuel → r.iterate fuel = some l

theorem Yields.unique {r : Range} {l l' : List Int} (h : Yields r l) (h' : Yields r l') : l = l' := by
  obtain ⟨n, hn⟩ := h
  obtain ⟨m, hm⟩ := h'
  have h1 := hn (max n m) (Nat.le_max_left ..)
  have h2 := hm (max n m) (Nat.le_max_right ..)
  rw [h1] at h2
  exact Option.some.inj h2

theorem loop_up (n : Nat) : ∀ (a : Int) (fuel : Nat), n + 1 ≤ fuel →
    loop false (a + n) fuel a = some (up a n) := by
  induction n with
  | zero =>
    intro a fuel hf
    obtain ⟨k, rfl⟩ : ∃ k, fuel = k + 1 := ⟨fuel - 1, by omega⟩
    simp [loop, up]
  | succ n ih =>
    intro a fuel hf
    obtain ⟨k, rfl⟩ : ∃ k, fuel = k + 1 := ⟨fuel - 1, by omega⟩
    have h1 : ¬ a = a + ((n + 1 : Nat) : Int) := by omega
    have h2 : a + ((n + 1 : Nat) : Int) = (a + 1) + n := by omega
    simp only [loop, if_neg h1, up, inc]
    rw [h2]
    simp [ih (a + 1) k (by omega)]

theorem loop_down (n : Nat) : ∀ (a : Int) (fuel : Nat), n + 1 ≤ fuel →
    loop true (a - n) fuel a = some (down a n) := by
  induction n with
  | zero =>
    intro a fuel hf
    obtain ⟨k, rfl⟩ : ∃ k, fuel = k + 1 := ⟨fuel - 1, by omega⟩
    simp [loop, down]
  | succ n ih =>
    intro a fuel hf
    obtain ⟨k, rfl⟩ : ∃ k, fuel = k + 1 := ⟨fuel - 1, by omega⟩
    have h1 : ¬ a = a - ((n + 1 : Nat) : Int) := by omega
    have h2 : a - ((n + 1 : Nat) : Int) = (a - 1) - n := by omega
    have h3 : a + -1 = a - 1 := by omega
    simp only [loop, if_neg h1, down, inc]
    rw [h2]
    simp [h3, ih (a - 1) k (by omega)]

/-- C46: every range can be iterated; a range with `from ≤ to` yields
`from, from+1, …, to-1`. -/
theorem yields_forward (f t : Int) (h : f ≤ t) : Yields ⟨f, t⟩ (up f (t - f).toNat) := by
  refine ⟨(t - f).toNat + 1, fun fuel hf => ?_⟩
  have := loop_up (t - f).toNat f fuel hf
  have h2 : f + ((t - f).toNat : Int) = t := by omega
  rw [h2] at this
  simpa [Range.iterate, Range.backward, h] using this

/-- C46: a range with `to < from` yields `from, from-1, …, to+1`. -/
theorem yields_backward (f t : Int) (h : t < f) : Yields ⟨f, t⟩ (down f (f - t).toNat) := by
  refine ⟨(f - t).toNat + 1, fun fuel hf => ?_⟩
  have := loop_down (f - t).toNat f fuel hf
  have h2 : f - ((f - t).toNat : Int) = t := by omega
  rw [h2] at this
  have h3 : ¬ f ≤ t := by omega
  simpa [Range.iterate, Range.backward, h3] using this

/-- C46: iteration always stops, and the number of values is `size()`. -/
theorem size_eq_length (r : Range) : ∃ l, Yields r l ∧ (l.length : Int) = r.size := by
  obtain ⟨f, t⟩ := r
  by_cases h : f ≤ t
  · exact ⟨_, yields_forward f t h, by simp [length_up, Range.size, h]; omega⟩
  · refine ⟨_, yields_backward f t (by omega), ?_⟩
    have : ¬ (f ≤ t) := h
    simp [length_down, Range.size, this]; omega

/-- C46: `close(f,t)` visits `f..t` inclusive, upwards when `f ≤ t`. -/
theorem close_up (f t : Int) (h : f ≤ t) : Yields (Range.close f t) (up f (t - f + 1).toNat) := by
  have h1 : ¬ (f > t) := by omega
  have := yields_forward f (t + 1) (by omega)
  have h3 : t + 1 - f = t - f + 1 := by omega
  simpa [Range.close, inc, h1, h3] using this

/-- C46: `close(f,t)` visits `f..t` inclusive, downwards when `f > t`. -/
theorem close_down (f t : Int) (h : t < f) :
    Yields (Range.close f t) (down f (f - t + 1).toNat) := by
  have h1 : f > t := h
  have := yields_backward f (t - 1) (by omega)
  have h3 : f - (t - 1) = f - t + 1 := by omega
  have h4 : t + -1 = t - 1 := by omega
  simpa [Range.close, inc, h1, h3, h4] using this

/-- C46: the value set of `close(f,t)` is the closed interval between its arguments. -/
theorem close_mem (f t : Int) : ∃ l, Yields (Range.close f t) l ∧
    ∀ x, x ∈ l ↔ (f ≤ x ∧ x ≤ t) ∨ (t ≤ x ∧ x ≤ f) := by
  by_cases h : f ≤ t
  · refine ⟨_, close_up f t h, fun x => ?_⟩
    rw [mem_up]; omega
  · refine ⟨_, close_down f t (by omega), fun x => ?_⟩
    rw [mem_down]; omega

/-- C46: `open(f,t)` visits `f, f+1, …, t-1` when `f ≤ t` and `f, f-1, …, t+1` otherwise: `f` is visited first, `t` is not. -/
theorem open_mem (f t : Int) : ∃ l, Yields (Range.open_ f t) l ∧ (f ≠ t → l.head? = some f) ∧ l.length = (t - f).natAbs ∧
    ∀ x, x ∈ l ↔ (f ≤ x ∧ x < t) ∨ (t < x ∧ x ≤ f) := by
  have hup : ∀ n : Nat, n ≠ 0 → (up f n).head? = some f ∧ (down f n).head? = some f
    | 0, h => absurd rfl h
    | n + 1, _ => ⟨rfl, rfl⟩
  by_cases h : f ≤ t
  · refine ⟨_, yields_forward f t h, fun hne => (hup _ (by omega)).1, by rw [length_up]; omega, fun x => ?_⟩
    rw [mem_up]; omega
  · refine ⟨_, yields_backward f t (by omega), fun hne => (hup _ (by omega)).2, by rw [length_down]; omega, fun x => ?_⟩
    rw [mem_down]; omega

example : (Range.open_ 3 6).iterate 10 = some [3, 4, 5] ∧ (Range.open_ 6 3).iterate 10 = some [6, 5, 4] := by decide

/-- C46: `openInc(f,t)` visits `f..t-1`, and nothing when `t ≤ f`. -/
theorem openInc_mem (f t : Int) : ∃ l, Yields (Range.openInc f t) l ∧
    ∀ x, x ∈ l ↔ f ≤ x ∧ x < t := by
  by_cases h : f ≤ t
  · refine ⟨_, by simpa [Range.openInc, h] using yields_forward f t h, fun x => ?_⟩
    rw [mem_up]; omega
  · refine ⟨_, by simpa [Range.openInc, h] using yields_forward 0 0 (by omega), fun x => ?_⟩
    rw [mem_up]; simp; omega

/-- C46: `closeInc(f,t)` visits `f..t`, and nothing when `t < f`. -/
theorem closeInc_mem (f t : Int) : ∃ l, Yields (Range.closeInc f t) l ∧
    ∀ x, x ∈ l ↔ f ≤ x ∧ x ≤ t := by
  by_cases h : f < t + 1
  · have h1 : ¬ (f > t) := by omega
    refine ⟨_, by simpa [Range.closeInc, h, inc, h1] using yields_forward f (t + 1) (by omega),
      fun x => ?_⟩
    rw [mem_up]; omega
  · refine ⟨_, by simpa [Range.closeInc, h] using yields_forward 0 0 (by omega), fun x => ?_⟩
    rw [mem_up]; simp; omega

/-- C46: `largest()` is an upper bound of the values visited. -/
theorem largest_ub (r : Range) : ∃ l, Yields r l ∧ ∀ x ∈ l, x ≤ r.largest := by
  obtain ⟨f, t⟩ := r
  by_cases h : f ≤ t
  · refine ⟨_, yields_forward f t h, fun x hx => ?_⟩
    rw [mem_up] at hx; simp [Range.largest, h]; omega
  · refine ⟨_, yields_backward f t (by omega), fun x hx => ?_⟩
    have : ¬ (f ≤ t) := h
    rw [mem_down] at hx; simp [Range.largest, this]; omega

/-- Hypotheses of the theorems above are met by `[3,7)` and `[7,3)`. -/
example : (Range.mk 3 7).iterate 10 = some [3, 4, 5, 6] ∧
    (Range.mk 7 3).iterate 10 = some [7, 6, 5, 4] ∧
    (Range.close 1 0).iterate 10 = some [1, 0] := by decide

/-- C47 as stated is false: `[0,3)` contains 3 but never yields it, and `[3,0)` yields 3
but does not contain it. -/
theorem contains_iff_yielded_false :
    ¬ ∀ (r : Range) (p : Int), ∃ l, Yields r l ∧ (r.contains p = true ↔ p ∈ l) := by
  intro h
  obtain ⟨l, hy, hl⟩ := h ⟨0, 3⟩ 3
  have := hy.unique (yields_forward 0 3 (by omega))
  subst this
  revert hl; decide

theorem contains_backward_false :
    ∃ l, Yields ⟨3, 0⟩ l ∧ (3 : Int) ∈ l ∧ (Range.mk 3 0).contains 3 = false :=
  ⟨_, yields_backward 3 0 (by omega), by decide, by decide⟩

/-- C47, the part that holds: on a forward range and away from the end point,
`contains` agrees with iteration. -/
theorem contains_iff_yielded_partial (r : Range) (p : Int) (hf : r.frm ≤ r.to) (hp : p ≠ r.to) :
    ∃ l, Yields r l ∧ (r.contains p = true ↔ p ∈ l) := by
  obtain ⟨f, t⟩ := r
  refine ⟨_, yields_forward f t hf, ?_⟩
  simp only [Range.contains, Bool.and_eq_true, decide_eq_true_eq, mem_up]
  simp at hf hp
  omega

/-- C47, exact characterisation of `contains` on every range. -/
theorem contains_iff (r : Range) (p : Int) : r.contains p = true ↔ r.frm ≤ p ∧ p ≤ r.to := by
  simp [Range.contains]

theorem down_eq_reverse_up (n : Nat) : ∀ a : Int, down (a + n - 1) n = (up a n).reverse := by
  induction n with
  | zero => simp [up, down]
  | succ n ih =>
    intro a
    have snoc : ∀ (n : Nat) (a : Int), down a (n + 1) = down a n ++ [a - n] := by
      intro n
      induction n with
      | zero => intro a; simp [down]
      | succ n ih2 =>
        intro a
        rw [down, ih2]
        simp only [down, List.cons_append, List.cons.injEq, true_and, List.append_cancel_left_eq,
          List.cons.injEq, and_true]
        omega
    have e1 : a + ((n + 1 : Nat) : Int) - 1 = (a + 1) + n - 1 := by omega
    have e2 : (a + 1) + (n : Int) - 1 - n = a := by omega
    rw [e1, snoc, ih (a + 1), up, List.reverse_cons, e2]

/-- C48, the part that holds: flipping a non-empty forward range visits its values in
reverse. -/
theorem flip_forward_partial (r : Range) (h : r.frm < r.to) :
    ∃ l, Yields r l ∧ Yields r.flip l.reverse := by
  obtain ⟨f, t⟩ := r
  simp only at h
  refine ⟨_, yields_forward f t (by omega), ?_⟩
  have := yields_backward (t - 1) (f - 1) (by omega)
  have e1 : (t - 1 - (f - 1)).toNat = (t - f).toNat := by omega
  have e2 : t - 1 = f + ((t - f).toNat : Int) - 1 := by omega
  rw [e1] at this
  rw [← down_eq_reverse_up, ← e2]
  exact this

/-- C48: an empty range flips to an empty range. -/
theorem flip_empty (f : Int) : Yields (Range.mk f f).flip [] := by
  have := yields_forward (f - 1) (f - 1) (by omega)
  simpa [Range.flip, up] using this

/-- C48 as stated is false: flipping the backward range 3,2,1 gives -1,0,1,… values that
the range never yields. -/
theorem flip_reverse_false :
    ¬ ∀ r : Range, ∃ l, Yields r l ∧ Yields r.flip l.reverse := by
  intro h
  obtain ⟨l, hy, hl⟩ := h ⟨3, 0⟩
  have e := hy.unique (yields_backward 3 0 (by omega))
  subst e
  have e2 : (Range.mk 3 0).flip = ⟨-1, 2⟩ := by decide
  rw [e2] at hl
  have := hl.unique (yields_forward (-1) 2 (by omega))
  revert this; decide

end Verif.Range
