import Verif.Props.PyGraph
import Verif.Knapsack2
/-!
# Edges of the readers and of the rounding: carriage returns, numbers out of range, 53 bits
-/
namespace Verif.IO
open Verif.Ex

/-- The text with every newline written as carriage return and newline. -/
def crlf (t : List Char) : List Char := t.flatMap fun c => if c = '\n' then ['\r', '\n'] else [c]

theorem crlf_line : ∀ {l : List Char}, '\n' ∉ l → ∀ t, crlf (l ++ t) = l ++ crlf t
  | [], _, _ => rfl
  | c :: l, h, t => by
    have hc : c ≠ '\n' := fun e => h (e ▸ List.mem_cons_self ..)
    have := crlf_line (l := l) (fun h' => h (List.mem_cons_of_mem _ h')) t
    unfold crlf at this ⊢
    rw [List.cons_append, List.flatMap_cons, if_neg hc, this]
    rfl

theorem words_cr (l : List Char) : words (l ++ ['\r']) = words l := by
  rw [words_append l ['\r'] (by intro c hc; cases hc; decide), words_all_ws (l := ['\r']) (by intro c hc; rw [List.mem_singleton.1 hc]; decide), List.append_nil]

theorem line_cr {l : List Char} {x : DLine} (h : LineIs l x) : LineIs (l ++ ['\r']) x := by
  cases x with
  | comment =>
    obtain ⟨sp, txt, rfl, hs⟩ := h
    exact ⟨sp, txt ++ ['\r'], by simp, hs⟩
  | problem n m =>
    obtain ⟨k, wn, wm, hw, hn⟩ := h
    exact ⟨k, wn, wm, by rw [words_cr]; exact hw, hn⟩
  | edge a b =>
    obtain ⟨wa, wb, hw, hn⟩ := h
    exact ⟨wa, wb, by rw [words_cr]; exact hw, hn⟩
  | skip =>
    intro c hc
    rcases List.mem_append.1 hc with hc | hc
    · exact h c hc
    · rw [List.mem_singleton.1 hc]; decide

theorem shows_crlf {t : List Char} {xs : List DLine} (h : Shows t xs) : Shows (crlf t) xs := by
  induction h with
  | last hn hl =>
    rename_i l x
    have := crlf_line hn []
    rw [List.append_nil] at this
    rw [this, show crlf [] = [] from rfl, List.append_nil]
    exact .last hn hl
  | line hn hl _ ih =>
    rename_i l x t xs _
    rw [crlf_line hn, show crlf ('\n' :: t) = '\r' :: '\n' :: crlf t from rfl, show l ++ '\r' :: '\n' :: crlf t = (l ++ ['\r']) ++ '\n' :: crlf t by simp]
    refine .line (fun h' => ?_) (line_cr hl) ih
    rcases List.mem_append.1 h' with h' | h'
    · exact hn h'
    · exact absurd (List.mem_singleton.1 h') (by decide)

/-- C118: a graph file with carriage returns is read like the one without. -/
theorem dimacs_crlf {t : List Char} {xs : List DLine} (h : Shows t xs) {fuel : Nat} (hf : (crlf t).length + 2 ≤ fuel) :
    readDim fuel (Strm.opened (crlf t)) = .ok ⟨(header xs).map (·.1), (header xs).map (·.2), edgesOf xs⟩ := dimacs_reads (shows_crlf h) hf

/-- A file of two lines. -/
example : crlf "p col 2 1\ne 1 2\n".toList = "p col 2 1\r\ne 1 2\r\n".toList := by decide

/-- A numeral outside of the type is read to its end as the nearest value, and the stream fails. -/
theorem getNum_outside {w r : List Char} {v lo hi : Int} (hn : Numeral w v) (ho : v < lo ∨ hi < v) (hr : ∀ c, r.head? = some c → isDig c = false) :
    getNum lo hi (w ++ r) = (⟨r, r.isEmpty, true⟩, if v < lo then lo else hi) := by
  obtain ⟨ds, hne, hdig, hw⟩ := hn
  have h0 : r.takeWhile isDig = [] ∧ r.dropWhile isDig = r := by
    cases r with
    | nil => exact ⟨rfl, rfl⟩
    | cons c r =>
      have hc : ¬ isDig c = true := by rw [hr c rfl]; simp
      rw [List.takeWhile_cons_of_neg hc, List.dropWhile_cons_of_neg hc]
      exact ⟨rfl, rfl⟩
  have s1 : (ds ++ r).takeWhile isDig = ds := by rw [List.takeWhile_append_of_pos hdig, h0.1, List.append_nil]
  have s2 : (ds ++ r).dropWhile isDig = r := by rw [List.dropWhile_append_of_pos hdig, h0.2]
  have hne' : ds.isEmpty = false := by cases ds with | nil => exact absurd rfl hne | cons _ _ => rfl
  have key : (if v < lo then ((⟨r, r.isEmpty, true⟩, lo) : Strm × Int) else if hi < v then (⟨r, r.isEmpty, true⟩, hi) else (⟨r, r.isEmpty, false⟩, v)) =
      (⟨r, r.isEmpty, true⟩, if v < lo then lo else hi) := by
    by_cases hc : v < lo
    · rw [if_pos hc, if_pos hc]
    · rw [if_neg hc, if_neg hc, if_pos (by omega)]
  rcases hw with ⟨rfl, hv⟩ | ⟨rfl, hv⟩ | ⟨rfl, hv⟩
  · have hh : ((w ++ r).head? == some '-') = false ∧ ((w ++ r).head? == some '+') = false := by
      cases w with
      | nil => exact absurd rfl hne
      | cons c w =>
        have := isDig_ne (hdig c (by simp))
        simp [this.1, this.2]
    unfold getNum
    simp only [hh.1, hh.2, Bool.or_self, Bool.false_eq_true, if_false, s1, s2, hne', ← hv]
    exact key
  · unfold getNum
    simp only [List.cons_append, List.head?_cons, List.tail_cons, BEq.rfl, Bool.true_or, if_true, s1, s2, hne', Bool.false_eq_true, if_false, ← hv]
    exact key
  · have hh : (some '+' == some '-') = false := by decide
    unfold getNum
    simp only [List.cons_append, List.head?_cons, List.tail_cons, hh, BEq.rfl, Bool.false_or, if_true, s1, s2, hne', Bool.false_eq_true, if_false, ← hv]
    exact key

end Verif.IO

namespace Verif.Ex

/-- Rounding to nearest: off by at most a half, even in the middle. -/
theorem rne_half (a : Nat) {b : Nat} (hb : 0 < b) :
    2 * (rne a b * b) ≤ 2 * a + b ∧ 2 * a ≤ 2 * (rne a b * b) + b ∧
      ((2 * (rne a b * b) = 2 * a + b ∨ 2 * a = 2 * (rne a b * b) + b) → rne a b % 2 = 0) := by
  have hd := Nat.div_add_mod a b
  have hm := Nat.mod_lt a hb
  have hc : b * (a / b) = a / b * b := Nat.mul_comm _ _
  have h1 : (a / b + 1) * b = a / b * b + b := by rw [Nat.add_mul, Nat.one_mul]
  unfold rne
  by_cases h : 2 * (a % b) < b ∨ (2 * (a % b) = b ∧ a / b % 2 = 0)
  · rw [if_pos h]
    refine ⟨by omega, by omega, fun h2 => ?_⟩
    omega
  · rw [if_neg h, h1]
    refine ⟨by omega, by omega, fun h2 => ?_⟩
    omega

/-- `rnd53` is IEEE rounding: a value of at most 53 bits, off by at most half a unit `2^s` of the last place, where `s` bits were cut
and `m` had `53 + s` bits; nothing is cut from a value of 53 bits. -/
theorem rnd53_near (m k : Nat) : ∃ s, (rnd53 m k).2 = k - s ∧ (rnd53 m k).1 ≤ 2 ^ 53 ∧ (0 < s → 2 ^ (52 + s) ≤ m) ∧ m < 2 ^ (53 + s) ∧
    (s = 0 → (rnd53 m k).1 = m) ∧ 2 * ((rnd53 m k).1 * 2 ^ s) ≤ 2 * m + 2 ^ s ∧ 2 * m ≤ 2 * ((rnd53 m k).1 * 2 ^ s) + 2 ^ s := by
  by_cases hm : m = 0
  · subst hm
    have h0 : rnd53 0 k = (0, k) := rfl
    rw [h0]
    exact ⟨0, rfl, Nat.zero_le _, by omega, by decide, fun _ => rfl, by simp, by simp⟩
  have hl1 : 2 ^ Nat.log2 m ≤ m := Nat.log2_self_le hm
  have hl2 : m < 2 ^ (Nat.log2 m + 1) := Nat.lt_log2_self
  refine ⟨Nat.log2 m + 1 - 53, ?_⟩
  unfold rnd53
  dsimp only
  by_cases hs : Nat.log2 m + 1 - 53 = 0
  · rw [if_pos hs, hs]
    have h53 : m < 2 ^ 53 := Nat.lt_of_lt_of_le hl2 (Nat.pow_le_pow_right (by decide) (by omega))
    refine ⟨rfl, Nat.le_of_lt h53, by omega, h53, fun _ => rfl, by simp, by simp⟩
  · rw [if_neg hs]
    generalize hS : Nat.log2 m + 1 - 53 = s at hs
    have e1 : 52 + s = Nat.log2 m := by omega
    have e2 : 53 + s = Nat.log2 m + 1 := by omega
    have hp : 0 < 2 ^ s := Nat.pow_pos (by decide)
    obtain ⟨n1, n2, _⟩ := rne_half m hp
    refine ⟨rfl, ?_, fun _ => by rw [e1]; exact hl1, by rw [e2]; exact hl2, fun h => absurd h hs, n1, n2⟩
    show rne m (2 ^ s) ≤ 2 ^ 53
    have hq : m / 2 ^ s < 2 ^ 53 := Nat.div_lt_of_lt_mul (by rw [← Nat.pow_add, Nat.add_comm, e2]; exact hl2)
    unfold rne
    split <;> omega

/-- A product of 54 bits loses its last bit. -/
example : rnd53 (2 ^ 53 + 3) 60 = (2 ^ 52 + 2, 59) := by decide +kernel

end Verif.Ex
