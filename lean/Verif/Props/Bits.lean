import Verif.Bits
/-!
# C56: bit reversal; and what the word loops do, for C49-C55
-/
namespace Verif.Bits

/-! ### C56 -/

/-- An exchange moves bit `i + k` to `i` where the mask is set and `i - k` to `i` where it is not. -/
theorem swap_bit {k : Nat} {m : W} (h1 : ∀ i < 64, m.getLsbD i = true → i + k < 64 ∧ m.getLsbD (i + k) = false)
    (h2 : ∀ i < 64, m.getLsbD i = false → k ≤ i ∧ m.getLsbD (i - k) = true) (v : W) {i : Nat} (hi : i < 64) :
    (swap k m v).getLsbD i = v.getLsbD (if m.getLsbD i then i + k else i - k) := by
  unfold swap
  simp only [BitVec.getLsbD_or, BitVec.getLsbD_and, BitVec.getLsbD_ushiftRight, BitVec.getLsbD_shiftLeft]
  cases hm : m.getLsbD i with
  | true =>
    obtain ⟨h3, h4⟩ := h1 i hi hm
    simp only [Bool.and_true, if_true]
    by_cases hk : i < k
    · simp [hk, Nat.add_comm]
    · have : m.getLsbD (i - k) = false := by
        by_cases hk0 : k = 0
        · subst hk0; simp at h4; rw [hm] at h4; exact absurd h4 (by simp)
        · cases hc : m.getLsbD (i - k) with
          | false => rfl
          | true =>
            have := (h1 (i - k) (by omega) hc).2
            rw [show i - k + k = i by omega, hm] at this
            exact absurd this (by simp)
      simp [this, Nat.add_comm]
  | false =>
    obtain ⟨h3, h4⟩ := h2 i hi hm
    simp [h4, hi, Nat.not_lt.2 h3]

/-- C56, 64 bits. -/
theorem revLong_bit (v : W) {i : Nat} (hi : i < 64) : (revLong v).getLsbD i = v.getLsbD (63 - i) := by
  unfold revLong
  simp only [BitVec.getLsbD_or, BitVec.getLsbD_ushiftRight, BitVec.getLsbD_shiftLeft]
  have key : ∀ j, j < 64 → (swap 16 0x0000FFFF0000FFFF#64 (swap 8 0x00FF00FF00FF00FF#64 (swap 4 0x0F0F0F0F0F0F0F0F#64
      (swap 2 0x3333333333333333#64 (swap 1 0x5555555555555555#64 v))))).getLsbD j = v.getLsbD (if j < 32 then 31 - j else 95 - j) := by
    intro j hj
    have b5 : ∀ i < 64, (if (0x0000FFFF0000FFFF#64).getLsbD i then i + 16 else i - 16) < 64 := by decide
    have b4 : ∀ i < 64, (if (0x00FF00FF00FF00FF#64).getLsbD i then i + 8 else i - 8) < 64 := by decide
    have b3 : ∀ i < 64, (if (0x0F0F0F0F0F0F0F0F#64).getLsbD i then i + 4 else i - 4) < 64 := by decide
    have b2 : ∀ i < 64, (if (0x3333333333333333#64).getLsbD i then i + 2 else i - 2) < 64 := by decide
    rw [swap_bit (by decide) (by decide) _ hj, swap_bit (by decide) (by decide) _ (b5 j hj),
      swap_bit (by decide) (by decide) _ (b4 _ (b5 j hj)), swap_bit (by decide) (by decide) _ (b3 _ (b4 _ (b5 j hj))),
      swap_bit (by decide) (by decide) _ (b2 _ (b3 _ (b4 _ (b5 j hj))))]
    congr 1
    revert j
    decide +kernel
  by_cases h : i < 32
  · rw [key (32 + i) (by omega), if_neg (by omega)]
    simp [h, hi]
    congr 1; omega
  · rw [key (i - 32) (by omega), if_pos (by omega)]
    rw [BitVec.getLsbD_of_ge _ (32 + i) (by omega)]
    simp [h, hi]
    congr 1; omega

/-- C56, 8 bits: all 256 bytes. -/
theorem revByte_bit : ∀ (b : BitVec 8) (i : Fin 8), (revByte b).getLsbD i = b.getLsbD (7 - i) := by
  decide +kernel

/-- C56, `revBitsOfWord`: the seven low bytes are the reversal, the eighth is left over from the
uninitialised local. -/
theorem revWord_partial (out w : W) {i : Nat} (hi : i < 8) : revWordByte out w i = if i < 7 then byte (revLong w) i else byte out 7 := by
  unfold revWordByte
  split
  · rename_i h7
    refine BitVec.eq_of_getLsbD_eq (fun j hj => ?_)
    have := revByte_bit (byte w (7 - i)) ⟨j, hj⟩
    simp only at this
    rw [this]
    unfold byte
    simp only [BitVec.getLsbD_setWidth, BitVec.getLsbD_ushiftRight]
    rw [revLong_bit w (by omega)]
    simp only [hj, show 7 - j < 8 by omega, decide_true, Bool.true_and]
    congr 1; omega
  · rw [show i = 7 by omega]

/-- C56 is false for `revBitsOfWord`: the result depends on the uninitialised byte. -/
theorem revWord_false : ¬ ∀ (out w : W) (i : Nat), i < 8 → revWordByte out w i = byte (revLong w) i := by
  intro h
  have := h 0 1 7 (by decide)
  revert this
  decide

example : revLong 0x1#64 = 0x8000000000000000#64 ∧ revLong 0x8000000000000002#64 = 0x4000000000000001#64 := by decide

/-! ### Words -/

theorem bit_get {k i : Nat} (hk : k < 64) : (bit k).getLsbD i = decide (i = k) := by
  unfold bit
  rw [BitVec.getLsbD_shiftLeft]
  by_cases h : i = k
  · subst h; simp [hk]
  · by_cases h2 : i < k
    · simp [h2, h]
    · have h3 : i - k ≠ 0 := by omega
      simp [h]
      intro _ _
      omega

theorem low_get {k i : Nat} (hk : k < 64) : (low k).getLsbD i = decide (i < k) := by
  have h1 : (low k).toNat = 2 ^ k - 1 := by
    unfold low bit
    have hp : 2 ^ k < 2 ^ 64 := Nat.pow_lt_pow_right (by omega) hk
    have hp1 : 1 ≤ 2 ^ k := Nat.one_le_two_pow
    rw [BitVec.toNat_sub, BitVec.toNat_shiftLeft]
    simp only [BitVec.toNat_ofNat, Nat.shiftLeft_eq, Nat.one_mod, Nat.reducePow, Nat.one_mul] at hp ⊢
    rw [Nat.mod_eq_of_lt hp]
    omega
  rw [BitVec.getLsbD, h1, Nat.testBit_two_pow_sub_one]

theorem eq_zero_iff (w : W) : w = 0 ↔ ∀ i < 64, w.getLsbD i = false := by
  constructor
  · rintro rfl i _; exact BitVec.getLsbD_zero
  · intro h
    refine BitVec.eq_of_getLsbD_eq (fun i hi => ?_)
    rw [h i hi]; exact BitVec.getLsbD_zero.symm

/-- Elements of a word. -/
def wl (w : W) : List Nat := (List.range 64).filter w.getLsbD

theorem mem_wl {w : W} {i : Nat} : i ∈ wl w ↔ w.getLsbD i = true := by
  unfold wl
  rw [List.mem_filter, List.mem_range]
  refine ⟨And.right, fun h => ⟨?_, h⟩⟩
  exact BitVec.lt_of_getLsbD h

theorem wl_nil {w : W} : wl w = [] ↔ w = 0 := by
  rw [eq_zero_iff, List.eq_nil_iff_forall_not_mem]
  constructor
  · intro h i _
    cases hc : w.getLsbD i with
    | false => rfl
    | true => exact absurd (mem_wl.2 hc) (h i)
  · intro h i hi
    have := mem_wl.1 hi
    rw [h i (BitVec.lt_of_getLsbD this)] at this
    exact absurd this (by simp)

theorem pop_eq (w : W) : pop w = (wl w).length := List.countP_eq_length_filter

theorem find_filter {p : Nat → Bool} {a : Nat} : ∀ {L : List Nat}, L.Pairwise (· < ·) → L.find? p = some a →
    L.filter p = a :: L.filter (fun x => p x && decide (x ≠ a)) ∧ ∀ x ∈ L, p x = true → a ≤ x := by
  intro L
  induction L with
  | nil => intro _ h; simp at h
  | cons y L ih =>
    intro hp h
    rw [List.pairwise_cons] at hp
    rw [List.find?_cons] at h
    cases hy : p y with
    | true =>
      simp only [hy, Option.some.injEq] at h
      subst h
      refine ⟨?_, ?_⟩
      · rw [List.filter_cons_of_pos hy, List.filter_cons_of_neg (by simp)]
        congr 1
        refine List.filter_congr (fun x hx => ?_)
        have : x ≠ y := by have := hp.1 x hx; omega
        simp [this]
      · intro x hx _
        rcases List.mem_cons.1 hx with rfl | hx
        · exact Nat.le_refl _
        · exact Nat.le_of_lt (hp.1 x hx)
    | false =>
      simp only [hy] at h
      obtain ⟨h1, h2⟩ := ih hp.2 h
      refine ⟨?_, ?_⟩
      · rw [List.filter_cons_of_neg (by simp [hy]), List.filter_cons_of_neg (by simp [hy]), h1]
      · intro x hx hpx
        rcases List.mem_cons.1 hx with rfl | hx
        · rw [hy] at hpx; exact absurd hpx (by simp)
        · exact h2 x hx hpx

theorem ctz_spec {w : W} (h : w ≠ 0) : w.getLsbD (ctz w) = true ∧ ctz w < 64 ∧ ∀ j, w.getLsbD j = true → ctz w ≤ j := by
  cases hf : (List.range 64).find? w.getLsbD with
  | none =>
    exfalso
    apply h
    rw [eq_zero_iff]
    intro i hi
    have := List.find?_eq_none.1 hf i (List.mem_range.2 hi)
    simpa using this
  | some a =>
    have ha : ctz w = a := by unfold ctz; rw [hf]; rfl
    rw [ha]
    have h1 := List.find?_some hf
    refine ⟨h1, BitVec.lt_of_getLsbD h1, fun j hj => ?_⟩
    exact (find_filter List.pairwise_lt_range hf).2 j (List.mem_range.2 (BitVec.lt_of_getLsbD hj)) hj

theorem top_spec {w : W} (h : w ≠ 0) : w.getLsbD (top w) = true ∧ top w < 64 ∧ ∀ j, w.getLsbD j = true → j ≤ top w := by
  cases hf : (List.range 64).reverse.find? w.getLsbD with
  | none =>
    exfalso
    apply h
    rw [eq_zero_iff]
    intro i hi
    have := List.find?_eq_none.1 hf i (by simpa using hi)
    simpa using this
  | some a =>
    have ha : top w = a := by unfold top; rw [hf]; rfl
    rw [ha]
    have h1 := List.find?_some hf
    refine ⟨h1, BitVec.lt_of_getLsbD h1, fun j hj => ?_⟩
    rw [List.find?_eq_some_iff_append] at hf
    obtain ⟨_, as, bs, h2, h3⟩ := hf
    have hs : (List.range 64).reverse.Pairwise (· > ·) := by
      rw [List.pairwise_reverse]; exact List.pairwise_lt_range
    rw [h2, List.pairwise_append] at hs
    have hjm : j ∈ (List.range 64).reverse := by simpa using BitVec.lt_of_getLsbD hj
    rw [h2] at hjm
    rcases List.mem_append.1 hjm with hjm | hjm
    · have := h3 j hjm; rw [hj] at this; simp at this
    · rcases List.mem_cons.1 hjm with rfl | hjm
      · exact Nat.le_refl _
      · exact Nat.le_of_lt ((List.pairwise_cons.1 hs.2.1).1 j hjm)

/-- `w & -w` is the lowest bit. -/
theorem lsb_get {w : W} (h : w ≠ 0) (i : Nat) : (w &&& -w).getLsbD i = decide (i = ctz w) := by
  obtain ⟨h1, h2, h3⟩ := ctz_spec h
  rw [BitVec.getLsbD_and, BitVec.getLsbD_neg]
  by_cases hi : i = ctz w
  · subst hi
    have : ¬ ∃ j, j < ctz w ∧ w.getLsbD j = true := by
      rintro ⟨j, hj, hw⟩
      have := h3 j hw; omega
    rw [h1]
    simp only [this, decide_false, Bool.and_false, Bool.xor_false, decide_true, Bool.and_self]
  · cases hw : w.getLsbD i with
    | false => simp [hi]
    | true =>
      have hlt : ctz w < i := by have := h3 i hw; omega
      have : ∃ j, j < i ∧ w.getLsbD j = true := ⟨_, hlt, h1⟩
      have h64 := BitVec.lt_of_getLsbD hw
      simp only [this, decide_true, h64, Bool.and_self, Bool.xor_true, Bool.not_true, Bool.and_false, hi, decide_false]

theorem clear_get {w : W} (h : w ≠ 0) (i : Nat) : (w ^^^ (w &&& -w)).getLsbD i = (w.getLsbD i && decide (i ≠ ctz w)) := by
  rw [BitVec.getLsbD_xor, lsb_get h]
  by_cases hi : i = ctz w
  · subst hi; rw [(ctz_spec h).1]; simp
  · simp [hi]

theorem wl_cons {w : W} (h : w ≠ 0) : wl w = ctz w :: wl (w ^^^ (w &&& -w)) := by
  cases hf : (List.range 64).find? w.getLsbD with
  | none =>
    exfalso
    apply h
    rw [eq_zero_iff]
    intro i hi
    have := List.find?_eq_none.1 hf i (List.mem_range.2 hi)
    simpa using this
  | some a =>
    have ha : ctz w = a := by unfold ctz; rw [hf]; rfl
    have := (find_filter List.pairwise_lt_range hf).1
    unfold wl
    rw [this, ha]
    congr 1
    refine List.filter_congr (fun x _ => ?_)
    rw [clear_get h, ha]

/-! ### Arrays of words -/

/-- Membership of `p` in the set stored in the first `n` words. -/
def inW (t : Nat → W) (n p : Nat) : Bool := decide (p < 64 * n) && (t (p / 64)).getLsbD (p % 64)

theorem inW_iff {t : Nat → W} {n p : Nat} : inW t n p = true ↔ p < 64 * n ∧ (t (p / 64)).getLsbD (p % 64) = true := by
  simp [inW]

theorem each_apply (f : Nat → W → W) : ∀ (n : Nat) (t : Nat → W) (i : Nat), each f n t i = if i < n then f i (t i) else t i := by
  intro n
  induction n with
  | zero => intro t i; simp [each]
  | succ n ih =>
    intro t i
    rw [each, upd_apply, ih, ih]
    by_cases h : i = n
    · subst h; simp
    · rw [if_neg h]
      by_cases h2 : i < n
      · rw [if_pos h2, if_pos (by omega)]
      · rw [if_neg h2, if_neg (by omega)]

/-- The members in increasing order. -/
def elems (t : Nat → W) (n : Nat) : List Nat := (List.range (64 * n)).filter (inW t n)

/-- Members in the words `i, ..., i + k - 1`. -/
def wordsL (t : Nat → W) (i k : Nat) : List Nat := (List.range' i k).flatMap (fun j => (wl (t j)).map (64 * j + ·))

theorem range_words (t : Nat → W) (N : Nat) : ∀ n, n ≤ N → (List.range (64 * n)).filter (inW t N) = wordsL t 0 n := by
  intro n
  induction n with
  | zero => intro _; rfl
  | succ n ih =>
    intro h
    unfold wordsL at ih ⊢
    rw [List.range'_1_concat, List.flatMap_append, ← ih (by omega)]
    rw [show 64 * (n + 1) = 64 * n + 64 by omega, List.range_add, List.filter_append]
    congr 1
    simp only [List.flatMap_cons, List.flatMap_nil, List.append_nil, Nat.zero_add]
    unfold wl
    rw [List.filter_map]
    congr 1
    refine List.filter_congr (fun x hx => ?_)
    have hx := List.mem_range.1 hx
    simp only [Function.comp, inW]
    rw [show (64 * n + x) / 64 = n by omega, show (64 * n + x) % 64 = x by omega]
    simp; intro _; omega

theorem elems_words (t : Nat → W) (n : Nat) : elems t n = wordsL t 0 n := range_words t n n (Nat.le_refl _)

theorem wordsL_succ (t : Nat → W) (i k : Nat) : wordsL t i (k + 1) = (wl (t i)).map (64 * i + ·) ++ wordsL t (i + 1) k := by
  unfold wordsL
  rw [List.range'_succ, List.flatMap_cons]

theorem popAll_eq (t : Nat → W) : ∀ n, popAll t n = (elems t n).length := by
  intro n
  rw [elems_words]
  induction n with
  | zero => rfl
  | succ n ih =>
    unfold wordsL at ih ⊢
    rw [popAll, ih, List.range'_1_concat, List.flatMap_append, List.length_append, pop_eq]
    simp

theorem lastWord_none {t : Nat → W} : ∀ {n}, lastWord t n = none ↔ ∀ i < n, t i = 0 := by
  intro n
  induction n with
  | zero => simp [lastWord]
  | succ n ih =>
    rw [lastWord]
    split
    · rename_i h
      rw [ih]
      refine ⟨fun h1 i hi => ?_, fun h1 i hi => h1 i (by omega)⟩
      by_cases hin : i = n
      · rw [hin, h]
      · exact h1 i (by omega)
    · rename_i h
      simp only [reduceCtorEq, false_iff]
      intro h1
      exact h (h1 n (by omega))

theorem lastWord_some {t : Nat → W} : ∀ {n lw}, lastWord t n = some lw → lw < n ∧ t lw ≠ 0 ∧ ∀ i, lw < i → i < n → t i = 0 := by
  intro n
  induction n with
  | zero => intro lw h; simp [lastWord] at h
  | succ n ih =>
    intro lw h
    rw [lastWord] at h
    split at h
    · rename_i h0
      obtain ⟨h1, h2, h3⟩ := ih h
      refine ⟨by omega, h2, fun i hi hin => ?_⟩
      by_cases hc : i = n
      · rw [hc, h0]
      · exact h3 i hi (by omega)
    · rename_i h0
      simp only [Option.some.injEq] at h
      subst h
      exact ⟨by omega, h0, fun i hi hin => by omega⟩

/-- The last non-zero word and its highest bit give the largest member. -/
theorem largest_spec {t : Nat → W} {n lw : Nat} (h : lastWord t n = some lw) :
    inW t n (64 * lw + top (t lw)) = true ∧ ∀ p, inW t n p = true → p ≤ 64 * lw + top (t lw) := by
  obtain ⟨h1, h2, h3⟩ := lastWord_some h
  obtain ⟨t1, t2, t3⟩ := top_spec h2
  refine ⟨?_, fun p hp => ?_⟩
  · rw [inW_iff, show (64 * lw + top (t lw)) / 64 = lw by omega, show (64 * lw + top (t lw)) % 64 = top (t lw) by omega]
    exact ⟨by omega, t1⟩
  · obtain ⟨p1, p2⟩ := inW_iff.1 hp
    rcases Nat.lt_trichotomy (p / 64) lw with hl | hl | hl
    · omega
    · rw [hl] at p2; have := t3 _ p2; omega
    · rw [h3 (p / 64) hl (by omega)] at p2
      simp at p2

/-! ### Iteration -/

/-- What an iterator still has to visit. -/
def rest (t : Nat → W) (n : Nat) (it : Nat × W) : List Nat :=
  (wl it.2).map (64 * it.1 + ·) ++ wordsL t (it.1 + 1) (n - (it.1 + 1))

/-- Iterators between `begin` and `end`. -/
def Good (n : Nat) (it : Nat × W) : Prop := (it.1 < n ∧ it.2 ≠ 0) ∨ it = (n, 0)

theorem adv_spec (t : Nat → W) (n : Nat) : ∀ (f i : Nat) (w : W), n - i ≤ f → i < n →
    Good n (adv t n f i w) ∧ rest t n (adv t n f i w) = rest t n (i, w) := by
  intro f
  induction f with
  | zero => intro i w h1 h2; omega
  | succ f ih =>
    intro i w h1 h2
    rw [adv]
    split
    · rename_i hw
      split
      · rename_i hlt
        obtain ⟨g1, g2⟩ := ih (i + 1) (t (i + 1)) (by omega) hlt
        refine ⟨g1, g2.trans ?_⟩
        unfold rest
        dsimp only
        rw [hw, wl_nil.2 rfl, List.map_nil, List.nil_append]
        rw [show n - (i + 1) = (n - (i + 1 + 1)) + 1 by omega, wordsL_succ]
      · rename_i hlt
        have hn : i + 1 = n := by omega
        subst hn
        refine ⟨.inr (by rw [hw]), ?_⟩
        unfold rest
        dsimp only
        rw [hw, wl_nil.2 rfl]
        simp [wordsL]
    · rename_i hw
      exact ⟨.inl ⟨h2, hw⟩, rfl⟩

theorem rest_next {t : Nat → W} {n : Nat} {it : Nat × W} (h1 : it.1 < n) (h2 : it.2 ≠ 0) :
    Good n (next t n it) ∧ rest t n it = (64 * it.1 + ctz it.2) :: rest t n (next t n it) := by
  obtain ⟨g1, g2⟩ := adv_spec t n (n + 1) it.1 (it.2 ^^^ (it.2 &&& -it.2)) (by omega) h1
  refine ⟨g1, ?_⟩
  show _ = _ :: rest t n (adv t n (n + 1) it.1 (it.2 ^^^ (it.2 &&& -it.2)))
  rw [g2]
  unfold rest
  dsimp only
  rw [wl_cons h2, List.map_cons, List.cons_append]

theorem rest_end (t : Nat → W) (n : Nat) : rest t n (n, 0) = [] := by
  unfold rest
  dsimp only
  rw [wl_nil.2 rfl]
  simp [wordsL]

theorem iterL_spec (t : Nat → W) (n : Nat) {nx : Nat × W → Nat × W} (hx : ∀ it, it.1 < n → it.2 ≠ 0 → nx it = next t n it) :
    ∀ (f : Nat) (it : Nat × W), Good n it → (rest t n it).length < f → iterL nx n f it = some ((rest t n it).map toShort) := by
  intro f
  induction f with
  | zero => intro it _ h; omega
  | succ f ih =>
    intro it hg hf
    rw [iterL]
    split
    · rename_i he
      rw [he, rest_end]; rfl
    · rename_i he
      rcases hg with ⟨h1, h2⟩ | hg
      · obtain ⟨g1, g2⟩ := rest_next (t := t) h1 h2
        rw [g2, List.length_cons] at hf
        rw [hx it h1 h2, ih _ g1 (by omega), g2]; rfl
      · exact absurd hg he

theorem rest_begin {t : Nat → W} {n : Nat} (hn : 0 < n) : Good n (adv t n (n + 1) 0 (t 0)) ∧ rest t n (adv t n (n + 1) 0 (t 0)) = elems t n := by
  obtain ⟨g1, g2⟩ := adv_spec t n (n + 1) 0 (t 0) (by omega) hn
  refine ⟨g1, g2.trans ?_⟩
  rw [elems_words, show n = (n - 1) + 1 by omega, wordsL_succ]
  unfold rest
  simp

theorem elems_sorted (t : Nat → W) (n : Nat) : (elems t n).Pairwise (· < ·) := List.pairwise_lt_range.filter _

theorem mem_elems {t : Nat → W} {n p : Nat} : p ∈ elems t n ↔ inW t n p = true := by
  unfold elems
  rw [List.mem_filter, List.mem_range]
  exact ⟨And.right, fun h => ⟨(inW_iff.1 h).1, h⟩⟩

theorem toShort_eq {x : Nat} (h : x < 2 ^ 15) : toShort x = x := by
  unfold toShort
  rw [Int.bmod_eq_of_le] <;> omega

end Verif.Bits
