import Verif.TspToy
/-!
# C108: the `float` test in the merge of the first toy TSP example
-/
namespace Verif.Ex

/-- Rounding to nearest even reaches an even number at half a unit below it. -/
theorem rne_even {a b c : Nat} (hb : 0 < b) (hc : c % 2 = 0) (h0 : 0 < c) : c ≤ rne a b ↔ (2 * c - 1) * b ≤ 2 * a := by
  unfold rne
  have e : b * (a / b) + a % b = a := Nat.div_add_mod a b
  have hr : a % b < b := Nat.mod_lt _ hb
  generalize hq : a / b = q at *
  generalize a % b = r at *
  have e2 : (2 * c - 1) * b + b = 2 * (b * c) := by
    have : (2 * c - 1) * b + b = (2 * c - 1 + 1) * b := (Nat.succ_mul _ _).symm
    rw [this, show 2 * c - 1 + 1 = 2 * c by omega, Nat.mul_assoc, Nat.mul_comm c b]
  generalize hx : (2 * c - 1) * b = x at *
  rcases Nat.lt_trichotomy (q + 1) c with h | h | h
  · have h1 : b * (q + 2) ≤ b * c := Nat.mul_le_mul_left _ h
    rw [Nat.mul_add] at h1
    generalize b * q = y at *
    generalize b * c = z at *
    split <;> omega
  · subst h
    rw [Nat.mul_add] at e2
    generalize b * q = y at *
    split <;> omega
  · have h1 : b * c ≤ b * q := Nat.mul_le_mul_left _ (by omega)
    generalize b * q = y at *
    generalize b * c = z at *
    split <;> omega

theorem rne_le {a b c : Nat} (hb : 0 < b) (h : a < c * b) : rne a b ≤ c := by
  have : a / b < c := (Nat.div_lt_iff_lt_mul hb).2 h
  unfold rne
  split <;> omega

/-- The quotient has 24 significant bits. -/
theorem fdiv24_spec {v h : Nat} (h0 : 0 < v) (hv : v ≤ h) :
    ∃ k, fdiv24 v h = (rne (v * 2 ^ k) h, k) ∧ 2 ^ 23 * h ≤ v * 2 ^ k ∧ v * 2 ^ k < 2 ^ 24 * h := by
  have l1 : 2 ^ v.log2 ≤ v := Nat.log2_self_le (by omega)
  have l2 : v < 2 ^ (v.log2 + 1) := Nat.lt_log2_self
  have l3 : 2 ^ h.log2 ≤ h := Nat.log2_self_le (by omega)
  have l4 : h < 2 ^ (h.log2 + 1) := Nat.lt_log2_self
  have hl : v.log2 ≤ h.log2 := by
    by_cases hc : v.log2 ≤ h.log2
    · exact hc
    · have : 2 ^ (h.log2 + 1) ≤ 2 ^ v.log2 := Nat.pow_le_pow_right (by decide) (by omega)
      omega
  obtain ⟨d, hd⟩ : ∃ d, h.log2 = v.log2 + d := ⟨h.log2 - v.log2, by omega⟩
  have hk : 24 + h.log2 - v.log2 = 24 + d := by omega
  unfold fdiv24
  dsimp only
  rw [hk]
  rw [hd] at l3 l4
  generalize v.log2 = lv at *
  have lo : 2 ^ 23 * h ≤ v * 2 ^ (24 + d) := by
    have a1 : 2 ^ lv * 2 ^ (24 + d) ≤ v * 2 ^ (24 + d) := Nat.mul_le_mul_right _ l1
    have a2 : 2 ^ 23 * h ≤ 2 ^ 23 * 2 ^ (lv + d + 1) := Nat.mul_le_mul_left _ (by omega)
    have a3 : 2 ^ 23 * 2 ^ (lv + d + 1) = 2 ^ lv * 2 ^ (24 + d) := by rw [← Nat.pow_add, ← Nat.pow_add]; congr 1; omega
    omega
  have hi : v * 2 ^ (23 + d) < 2 ^ 24 * h := by
    have a1 : v * 2 ^ (23 + d) < 2 ^ (lv + 1) * 2 ^ (23 + d) := Nat.mul_lt_mul_of_pos_right l2 (Nat.pow_pos (by decide))
    have a2 : 2 ^ 24 * 2 ^ (lv + d) ≤ 2 ^ 24 * h := Nat.mul_le_mul_left _ l3
    have a3 : 2 ^ 24 * 2 ^ (lv + d) = 2 ^ (lv + 1) * 2 ^ (23 + d) := by rw [← Nat.pow_add, ← Nat.pow_add]; congr 1; omega
    omega
  have hdbl : v * 2 ^ (24 + d) = 2 * (v * 2 ^ (23 + d)) := by
    rw [show 24 + d = (23 + d) + 1 by omega, Nat.pow_succ, Nat.mul_comm (2 ^ (23 + d)) 2, Nat.mul_left_comm]
  by_cases hq : v * 2 ^ (24 + d) / h < 2 ^ 24
  · rw [if_pos hq]
    exact ⟨24 + d, rfl, lo, (Nat.div_lt_iff_lt_mul (by omega)).1 hq⟩
  · rw [if_neg hq, show 24 + d - 1 = 23 + d by omega]
    refine ⟨23 + d, rfl, ?_, hi⟩
    have : 2 ^ 24 * h ≤ v * 2 ^ (24 + d) := by
      have := Nat.mul_le_of_le_div _ _ _ (Nat.not_lt.1 hq)
      omega
    omega

/-- C108: for up to 5592405 hops the `float` test of the merge says that the common cities are more than
seven tenths of the hops; exactly seven tenths fail it. -/
theorem toy_merge_test {v hops : Nat} (hv : v ≤ hops) (hh : hops ≤ 5592405) : nearEnough v hops = decide (7 * hops < 10 * v) := by
  unfold nearEnough
  by_cases h0 : v = 0
  · rw [if_pos h0, h0]; simp
  rw [if_neg h0]
  obtain ⟨k, e, k1, k2⟩ := fdiv24_spec (by omega) hv
  rw [e]
  dsimp only
  have hb : 0 < hops := by omega
  refine decide_eq_decide.2 ?_
  have pow : ∀ {i j : Nat}, i ≤ j → 2 ^ i ≤ 2 ^ j := fun h => Nat.pow_le_pow_right (by decide) h
  by_cases hc : 25 ≤ k
  · have hm : rne (v * 2 ^ k) hops ≤ 2 ^ 24 := rne_le hb k2
    have p := pow hc
    have hsm : 2 * v < hops := by
      have a1 : v * 2 ^ 25 ≤ v * 2 ^ k := Nat.mul_le_mul_left _ p
      omega
    constructor
    · intro h; exfalso; omega
    · intro h; exfalso; omega
  · by_cases hd : k = 24
    · subst hd
      have h1 := rne_even (a := v * 2 ^ 24) hb (show 11744052 % 2 = 0 by decide) (by decide)
      constructor
      · intro h
        have := h1.1 (by omega)
        omega
      · intro h
        have := h1.2 (by omega)
        omega
    · have p : 2 ^ k ≤ 2 ^ 23 := pow (by omega)
      have a1 : v * 2 ^ k ≤ v * 2 ^ 23 := Nat.mul_le_mul_left _ p
      have hvh : v = hops := by omega
      have hk : 2 ^ 23 ≤ 2 ^ k := by
        rw [hvh, Nat.mul_comm] at k1
        exact Nat.le_of_mul_le_mul_left k1 hb
      have hk2 : 2 ^ k = 2 ^ 23 := by omega
      have hr : 2 ^ 23 ≤ rne (v * 2 ^ k) hops := (rne_even hb (by decide) (by decide)).2 (by rw [hk2, hvh]; omega)
      rw [hk2] at *
      constructor
      · intro _; omega
      · intro _; omega

example : (nearEnough 7 10, nearEnough 8 11, nearEnough 0 0, nearEnough 4 5) = (false, true, false, true) := by decide +kernel

/-- The limit is sharp: just above 7/10 the quotient is rounded down to the `float` below 7/10. -/
example : (nearEnough 3914685 5592407, decide (7 * 5592407 < 10 * 3914685)) = (false, true) := by decide +kernel

end Verif.Ex
