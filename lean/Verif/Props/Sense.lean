import Verif.Spec
/-!
# C23: the laws of `Minimize` and `Maximize`

Stated with `<` and `≤` on the integers, the sense being the only parameter.
-/
namespace Verif.DD

/-- `better` is a strict total order, `betterEQ` its reflexive closure and its complement. -/
theorem sense_order (s : Sense) (a b c : Int) :
    s.better a a = false ∧
    (s.better a b = true → s.better b c = true → s.better a c = true) ∧
    (s.better a b = true ∨ a = b ∨ s.better b a = true) ∧
    (s.better a b = true → s.better b a = false) ∧
    (s.betterEQ a b = true ↔ s.better a b = true ∨ a = b) ∧
    (s.betterEQ a b = !s.better b a) := by
  simp only [Bool.eq_iff_iff (b := !_), Bool.not_eq_true', Sense.better_iff, Sense.better_false, Sense.betterEQ_iff]
  refine ⟨?_, ?_, ?_, ?_, ?_, ?_⟩ <;> cases s <;> simp only [Sense.k] <;> omega

/-- Which of the two orders it is. -/
theorem sense_meaning (a b : Int) :
    (Sense.min.better a b = true ↔ a < b) ∧ (Sense.max.better a b = true ↔ b < a) ∧
    (Sense.min.betterEQ a b = true ↔ a ≤ b) ∧ (Sense.max.betterEQ a b = true ↔ b ≤ a) := by
  simp [Sense.better, Sense.betterEQ]

/-- Adding the same amount on both sides changes nothing. -/
theorem sense_add (s : Sense) (a b d : Int) :
    s.better (a + d) (b + d) = s.better a b ∧ s.better (d + a) (d + b) = s.better a b ∧
    s.betterEQ (a + d) (b + d) = s.betterEQ a b ∧ s.betterEQ (d + a) (d + b) = s.betterEQ a b := by
  refine ⟨?_, ?_, ?_, ?_⟩ <;> cases s <;> simp [Sense.better, Sense.betterEQ]

/-- `DD::better` on values returns the better of the two. -/
theorem sense_pick (s : Sense) (a b : Int) :
    s.betterEQ (s.pick a b) a = true ∧ s.betterEQ (s.pick a b) b = true ∧ (s.pick a b = a ∨ s.pick a b = b) := by
  unfold Sense.pick
  split
  · rename_i h
    rw [Sense.better_iff] at h
    simp only [Sense.betterEQ_iff]
    exact ⟨by omega, by omega, by simp⟩
  · rename_i h
    rw [Sense.better_iff] at h
    simp only [Sense.betterEQ_iff]
    exact ⟨by omega, by omega, by simp⟩

/-- The two sentinels are `±INT_MAX`; every value strictly between is better than the initial bound and
worse than the other one. -/
theorem sense_sentinels (s : Sense) (v : Int) (h : -2147483647 < v ∧ v < 2147483647) :
    s.better v s.best0 = true ∧ s.better s.worst0 v = true := by
  rw [Sense.better_iff, Sense.better_iff]
  cases s <;> simp only [Sense.k, Sense.best0, Sense.worst0] <;> omega

example : Sense.max.better 5 Sense.max.best0 = true ∧ Sense.max.better Sense.max.worst0 5 = true :=
  sense_sentinels .max 5 (by decide)

/-- `INT_MIN`, an `int` cost, is outside: when maximising the initial bound beats it. -/
theorem sense_intmin : Sense.max.better (-2147483648) Sense.max.best0 = false := by decide

end Verif.DD
