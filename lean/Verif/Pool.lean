/-!
# Model of `Pool` (src/store.cpp, src/store.hpp:33-90)

A segment is its size in bytes; a pointer into the pool is a pair (segment index, offset).
`size_t` is a natural number.  The growth of the segment table (`_mxs`, `_store`) is not
modelled: the table is a list.
-/
namespace Verif.Pool

/-- Data members of `Pool` (src/store.hpp:60-65). -/
structure Pool where
  segs : List Nat
  segSize : Nat
  top : Nat
  seg : Nat

/-- `PoolMark` (src/store.hpp:33-40). -/
structure Mark where
  top : Nat
  seg : Nat

/-- Constructor (src/store.cpp:22-32). -/
def mk' (defSize : Nat) : Pool := ⟨[defSize], defSize, 0, 0⟩

/-- Size adjustment at the head of `allocate` (src/store.cpp:43-44). -/
def round16 (sz : Nat) : Nat := if sz &&& 15 ≠ 0 then (sz ||| 15) + 1 else sz

/-- The `while` loop of `allocate` (src/store.cpp:46-62); `none` if the fuel runs out. -/
def seek (sz : Nat) : Nat → Pool → Option Pool
  | 0, _ => none
  | n + 1, p =>
    if p.top + sz > p.segs.getD p.seg 0 then
      let sg := p.seg + 1
      let segs := if sg ≥ p.segs.length then p.segs ++ [max p.segSize sz] else p.segs
      seek sz n { p with segs := segs, seg := sg, top := 0 }
    else some p

/-- `allocate` (src/store.cpp:41-66): new pool and the block's (segment, offset). -/
def allocate (p : Pool) (sz : Nat) : Option (Pool × (Nat × Nat)) :=
  let rs := round16 sz
  (seek rs (p.segs.length - p.seg + 2) p).map
    (fun q => ({ q with top := q.top + rs }, (q.seg, q.top)))

/-- `clear()` (src/store.hpp:76). -/
def clear (p : Pool) : Pool := { p with top := 0, seg := 0 }
/-- `clear(const PoolMark&)` (src/store.hpp:81). -/
def clearTo (p : Pool) (m : Mark) : Pool := { p with top := m.top, seg := m.seg }
/-- `mark()` (src/store.hpp:86). -/
def mark (p : Pool) : Mark := ⟨p.top, p.seg⟩
/-- `usage()` (src/store.hpp:88). -/
def usage (p : Pool) : Nat := (p.segs.length - 1) * p.segSize + p.top

/-! ### Helper lemmas -/

theorem and15 (n : Nat) : n &&& 15 = n % 16 := Nat.and_two_pow_sub_one_eq_mod n 4

theorem or15 (n : Nat) : n ||| 15 = n / 16 * 16 + 15 := by
  have h : n ||| 15 = 2 ^ 4 * (n / 16) ||| 15 := by
    apply Nat.eq_of_testBit_eq
    intro i
    rw [Nat.testBit_or, Nat.testBit_or, show (15 : Nat) = 2 ^ 4 - 1 from rfl, Nat.testBit_two_pow_sub_one,
      Nat.testBit_two_pow_mul, show (16 : Nat) = 2 ^ 4 from rfl, Nat.testBit_div_two_pow]
    by_cases hi : i < 4
    · simp [hi]
    · have : 4 ≤ i := by omega
      simp [hi, this]
  rw [h, ← Nat.two_pow_add_eq_or_of_lt (by decide : (15 : Nat) < 2 ^ 4)]
  omega

/-- `round16 n` is the least multiple of 16 that is at least `n`. -/
theorem round16_spec (n : Nat) : n ≤ round16 n ∧ round16 n < n + 16 ∧ round16 n % 16 = 0 := by
  simp only [round16, and15, or15]
  split <;> omega

/-- Position `(s,t)` is a valid allocation point of the pool. -/
def ValidPos (p : Pool) (s t : Nat) : Prop :=
  s < p.segs.length ∧ t ≤ p.segs.getD s 0 ∧ t % 16 = 0

theorem getD_append_lt (l m : List Nat) (i : Nat) (h : i < l.length) : (l ++ m).getD i 0 = l.getD i 0 := by
  simp [List.getD_eq_getElem?_getD, List.getElem?_append_left h]

/-- `q`'s segment table extends `p`'s. -/
def Extends (q p : Pool) : Prop := (∃ m, q.segs = p.segs ++ m) ∧ q.segSize = p.segSize

theorem Extends.refl (p : Pool) : Extends p p := ⟨⟨[], by simp⟩, rfl⟩
theorem Extends.trans {p q r : Pool} (h1 : Extends q p) (h2 : Extends r q) : Extends r p := by
  obtain ⟨⟨m1, e1⟩, s1⟩ := h1
  obtain ⟨⟨m2, e2⟩, s2⟩ := h2
  exact ⟨⟨m1 ++ m2, by rw [e2, e1, List.append_assoc]⟩, s2.trans s1⟩

theorem ValidPos.mono {p q : Pool} {s t : Nat} (h : ValidPos p s t) (he : Extends q p) : ValidPos q s t := by
  obtain ⟨⟨m, e⟩, _⟩ := he
  obtain ⟨h1, h2, h3⟩ := h
  refine ⟨?_, ?_, h3⟩
  · rw [e, List.length_append]; omega
  · rw [e, getD_append_lt _ _ _ h1]; exact h2

/-- The segment search always succeeds, extends the table, and stops at a valid position no
earlier than the start with room for the request. -/
theorem seek_spec (sz : Nat) : ∀ (n : Nat) (p : Pool), ValidPos p p.seg p.top →
    p.segs.length - p.seg + 1 ≤ n →
    ∃ q, seek sz n p = some q ∧ Extends q p ∧ ValidPos q q.seg q.top ∧
      q.top + sz ≤ q.segs.getD q.seg 0 ∧ (p.seg < q.seg ∨ (p.seg = q.seg ∧ p.top = q.top)) := by
  intro n
  induction n with
  | zero => intro p hv hn; have := hv.1; omega
  | succ n ih =>
    intro p hv hn
    by_cases h : p.top + sz > p.segs.getD p.seg 0
    · simp only [seek, if_pos h]
      by_cases hs : p.seg + 1 ≥ p.segs.length
      · -- a fresh segment that fits
        obtain ⟨hv1, hv2, hv3⟩ := hv
        have hl : p.seg + 1 = p.segs.length := by omega
        rw [if_pos hs]
        obtain ⟨k, rfl⟩ : ∃ k, n = k + 1 := ⟨n - 1, by omega⟩
        have hg : (p.segs ++ [max p.segSize sz]).getD (p.seg + 1) 0 = max p.segSize sz := by
          rw [hl]; simp [List.getD_eq_getElem?_getD]
        simp only [seek, hg, Nat.zero_add]
        rw [if_neg (by omega)]
        refine ⟨_, rfl, ⟨⟨_, rfl⟩, rfl⟩, ⟨?_, ?_, ?_⟩, ?_, ?_⟩
        · simp [← hl]
        · simp
        · simp
        · simp only [hg]; omega
        · left; simp
      · rw [if_neg hs]
        have hv' : ValidPos { p with segs := p.segs, seg := p.seg + 1, top := 0 } (p.seg + 1) 0 :=
          ⟨by simp only; omega, by simp, by simp⟩
        obtain ⟨q, h1, h2, h3, h4, h5⟩ := ih { p with segs := p.segs, seg := p.seg + 1, top := 0 } hv'
          (by simp only; omega)
        refine ⟨q, h1, h2, h3, h4, ?_⟩
        simp only at h5; left; omega
    · simp only [seek, if_neg h]
      exact ⟨p, rfl, Extends.refl p, hv, by omega, Or.inr ⟨rfl, rfl⟩⟩

end Verif.Pool
