/-!
# Model of `mergeSort` (src/msort.hpp)

The two C arrays are functions `Nat → α`; writing an element is `set`.  The cursor
arithmetic, the exchange of the roles of the two arrays at every level of the recursion
and the three copy loops are kept.  Recursion depth is bounded by a fuel argument so that
the function is structurally recursive; `mergeSort` supplies enough fuel.
-/
namespace Verif.MSort

variable {α : Type}

/-- One C array cell write. -/
def set (v : Nat → α) (k : Nat) (x : α) : Nat → α := fun i => if i = k then x else v i

/-- `while (i != d) *k++ = aux[i++];` (src/msort.hpp:28-29); `n` is the number of elements
left, `d - i`. -/
def copyLoop (aux : Nat → α) : Nat → Nat → Nat → (Nat → α) → (Nat → α)
  | 0, _, _, v => v
  | n + 1, i, k, v => copyLoop aux n (i + 1) (k + 1) (set v k (aux i))

/-- The merge loop and the two copy loops (src/msort.hpp:21-29).  `n` is fuel,
`(d - i) + (to - j)` suffices. -/
def mergeLoop (cmp : α → α → Bool) (aux : Nat → α) (d to : Nat) :
    Nat → Nat → Nat → Nat → (Nat → α) → (Nat → α)
  | 0, _, _, _, v => v
  | n + 1, i, j, k, v =>
    if i ≠ d ∧ j ≠ to then
      if cmp (aux i) (aux j) then mergeLoop cmp aux d to n (i + 1) j (k + 1) (set v k (aux i))
      else mergeLoop cmp aux d to n i (j + 1) (k + 1) (set v k (aux j))
    else copyLoop aux (to - j) j (k + (d - i)) (copyLoop aux (d - i) i k v)

/-- `mergeSortAux(v,from,to,cmp,aux)` (src/msort.hpp:8-31): returns the new contents of
`v` and `aux`. -/
def mergeSortAux (cmp : α → α → Bool) :
    Nat → Nat → Nat → (Nat → α) → (Nat → α) → (Nat → α) × (Nat → α)
  | 0, _, _, v, aux => (v, aux)
  | n + 1, frm, to, v, aux =>
    if frm + 1 ≥ to then (v, aux)
    else
      let d := frm + (to - frm) / 2
      let r1 := mergeSortAux cmp n frm d aux v
      let r2 := mergeSortAux cmp n d to r1.1 r1.2
      (mergeLoop cmp r2.1 d to (to - frm + 1) frm d frm r2.2, r2.1)

/-- `mergeSort(c,sz,cmp)` (src/msort.hpp:33-39): copy `c` to `aux`, sort `c`. -/
def mergeSort (cmp : α → α → Bool) (c : Nat → α) (sz : Nat) : Nat → α :=
  (mergeSortAux cmp (sz + 1) 0 sz c c).1

/-- The cells `[from,to)` of an array, as a list. -/
def seg (v : Nat → α) (frm : Nat) : Nat → List α
  | 0 => []
  | n + 1 => v frm :: seg v (frm + 1) n

/-- Merge of two lists with the tie rule of the C loop (src/msort.hpp:23-27). -/
def mergeL (cmp : α → α → Bool) : List α → List α → List α
  | [], ys => ys
  | x :: xs, [] => x :: xs
  | x :: xs, y :: ys =>
    if cmp x y then x :: mergeL cmp xs (y :: ys) else y :: mergeL cmp (x :: xs) ys

/-- Inner recursion of `mergeS`. -/
def mergeIn (cmp : α → α → Bool) (f : List α → List α) (x : α) (xs : List α) : List α → List α
  | [] => x :: xs
  | y :: ys => if cmp x y then x :: f (y :: ys) else y :: mergeIn cmp f x xs ys

/-- `mergeL` in structurally recursive form, so that the kernel can compute with it. -/
def mergeS (cmp : α → α → Bool) : List α → List α → List α
  | [] => fun ys => ys
  | x :: xs => mergeIn cmp (mergeS cmp xs) x xs

/-- `mergeSort` as a function on lists (proved equal to the array version in
`mergeSort_seg`); used by the decision-diagram model. -/
def msortFuel (cmp : α → α → Bool) : Nat → List α → List α
  | 0, l => l
  | n + 1, l =>
    if l.length ≤ 1 then l
    else mergeS cmp (msortFuel cmp n (l.take (l.length / 2))) (msortFuel cmp n (l.drop (l.length / 2)))

/-- `msortFuel` with enough fuel. -/
def msortL (cmp : α → α → Bool) (l : List α) : List α := msortFuel cmp (l.length + 1) l

/-! ### Helper lemmas -/

theorem mergeS_eq (cmp : α → α → Bool) (xs ys : List α) : mergeS cmp xs ys = mergeL cmp xs ys := by
  fun_induction mergeL cmp xs ys with
  | case1 ys => rfl
  | case2 x xs => rfl
  | case3 x xs y ys h ih =>
    simp only [mergeS, mergeIn, h, if_true]; rw [ih]
  | case4 x xs y ys h ih =>
    simp only [mergeS] at ih
    simp only [mergeS, mergeIn, h]
    simp only [Bool.false_eq_true, if_false]; rw [ih]

theorem seg_length (v : Nat → α) (frm n : Nat) : (seg v frm n).length = n := by
  induction n generalizing frm <;> simp_all [seg]

theorem seg_congr {v w : Nat → α} {frm n : Nat} (h : ∀ i, frm ≤ i → i < frm + n → v i = w i) :
    seg v frm n = seg w frm n := by
  induction n generalizing frm with
  | zero => rfl
  | succ n ih =>
    simp only [seg]
    rw [h frm (by omega) (by omega), ih (fun i h1 h2 => h i (by omega) (by omega))]

theorem seg_append (v : Nat → α) (frm n m : Nat) :
    seg v frm (n + m) = seg v frm n ++ seg v (frm + n) m := by
  induction n generalizing frm with
  | zero => simp [seg]
  | succ n ih =>
    have : n + 1 + m = (n + m) + 1 := by omega
    rw [this]; simp only [seg, List.cons_append]
    rw [ih]; congr 3; omega

theorem seg_getElem? (v : Nat → α) (frm n i : Nat) (h : i < n) : (seg v frm n)[i]? = some (v (frm + i)) := by
  induction n generalizing frm i with
  | zero => omega
  | succ n ih =>
    cases i with
    | zero => simp [seg]
    | succ i =>
      have h1 : i < n := by omega
      simp only [seg, List.getElem?_cons_succ]
      rw [ih _ _ h1]; congr 2; omega

theorem set_same (v : Nat → α) (k : Nat) (x : α) : set v k x k = x := by simp [set]
theorem set_ne (v : Nat → α) (k i : Nat) (x : α) (h : i ≠ k) : set v k x i = v i := by simp [set, h]

theorem copyLoop_spec (aux : Nat → α) (n : Nat) : ∀ (i k : Nat) (v : Nat → α),
    seg (copyLoop aux n i k v) k n = seg aux i n ∧
    ∀ p, (p < k ∨ k + n ≤ p) → copyLoop aux n i k v p = v p := by
  induction n with
  | zero => intro i k v; simp [copyLoop, seg]
  | succ n ih =>
    intro i k v
    obtain ⟨h1, h2⟩ := ih (i + 1) (k + 1) (set v k (aux i))
    constructor
    · simp only [copyLoop, seg, h1]
      rw [h2 k (by omega), set_same]
    · intro p hp
      simp only [copyLoop]
      rw [h2 p (by omega), set_ne _ _ _ _ (by omega)]

theorem mergeLoop_spec (cmp : α → α → Bool) (aux : Nat → α) (d to : Nat) :
    ∀ (n i j k : Nat) (v : Nat → α), i ≤ d → j ≤ to → (d - i) + (to - j) < n →
    seg (mergeLoop cmp aux d to n i j k v) k ((d - i) + (to - j)) =
      mergeL cmp (seg aux i (d - i)) (seg aux j (to - j)) ∧
    ∀ p, (p < k ∨ k + ((d - i) + (to - j)) ≤ p) → mergeLoop cmp aux d to n i j k v p = v p := by
  intro n
  induction n with
  | zero => intro i j k v _ _ h; omega
  | succ n ih =>
    intro i j k v hi hj hn
    by_cases hc : i ≠ d ∧ j ≠ to
    · obtain ⟨a, ha⟩ : ∃ a, d - i = a + 1 := ⟨d - i - 1, by omega⟩
      obtain ⟨b, hb⟩ : ∃ b, to - j = b + 1 := ⟨to - j - 1, by omega⟩
      by_cases hcmp : cmp (aux i) (aux j) = true
      · obtain ⟨h1, h2⟩ := ih (i + 1) j (k + 1) (set v k (aux i)) (by omega) hj (by omega)
        have e : d - (i + 1) = a := by omega
        rw [e, hb] at h1 h2
        rw [ha, hb]
        have e2 : a + 1 + (b + 1) = (a + (b + 1)) + 1 := by omega
        constructor
        · rw [e2]
          simp only [mergeLoop, if_pos hc, hcmp, if_true, seg, mergeL]
          rw [h2 k (by omega), set_same]
          simp only [seg] at h1
          rw [h1]
        · intro p hp
          simp only [mergeLoop, if_pos hc, hcmp, if_true]
          rw [h2 p (by omega), set_ne _ _ _ _ (by omega)]
      · obtain ⟨h1, h2⟩ := ih i (j + 1) (k + 1) (set v k (aux j)) hi (by omega) (by omega)
        have e : to - (j + 1) = b := by omega
        rw [e, ha] at h1 h2
        rw [ha, hb]
        have e2 : a + 1 + (b + 1) = (a + 1 + b) + 1 := by omega
        constructor
        · rw [e2]
          simp only [mergeLoop, if_pos hc, hcmp, seg, mergeL]
          simp only [Bool.false_eq_true, if_false]
          rw [h2 k (by omega), set_same]
          simp only [seg] at h1
          rw [h1]
        · intro p hp
          simp only [mergeLoop, if_pos hc, hcmp]
          simp only [Bool.false_eq_true, if_false]
          rw [h2 p (by omega), set_ne _ _ _ _ (by omega)]
    · simp only [mergeLoop, if_neg hc]
      obtain ⟨a1, a2⟩ := copyLoop_spec aux (d - i) i k v
      obtain ⟨b1, b2⟩ := copyLoop_spec aux (to - j) j (k + (d - i)) (copyLoop aux (d - i) i k v)
      constructor
      · rw [seg_append, b1]
        rw [seg_congr (w := copyLoop aux (d - i) i k v) (fun p h1 h2 => b2 p (by omega)), a1]
        by_cases h0 : i = d
        · subst h0; simp [seg, mergeL]
        · have : to - j = 0 := by omega
          rw [this]
          cases h : seg aux i (d - i) <;> simp [seg, mergeL]
      · intro p hp
        rw [b2 p (by omega), a2 p (by omega)]

theorem msortFuel_stable (cmp : α → α → Bool) : ∀ (n m : Nat) (l : List α),
    l.length < n → l.length < m → msortFuel cmp n l = msortFuel cmp m l := by
  intro n
  induction n with
  | zero => intro m l h; omega
  | succ n ih =>
    intro m l h1 h2
    obtain ⟨m, rfl⟩ : ∃ k, m = k + 1 := ⟨m - 1, by omega⟩
    by_cases h : l.length ≤ 1
    · simp [msortFuel, h]
    · simp only [msortFuel, mergeS_eq, if_neg h]
      rw [ih m (l.take _) (by simp; omega) (by simp; omega),
        ih m (l.drop _) (by simp; omega) (by simp; omega)]

theorem mergeSortAux_spec (cmp : α → α → Bool) : ∀ (n frm len : Nat) (v aux : Nat → α),
    len < n → (∀ i, frm ≤ i → i < frm + len → v i = aux i) →
    seg (mergeSortAux cmp n frm (frm + len) v aux).1 frm len = msortFuel cmp n (seg v frm len) ∧
    (∀ p, (p < frm ∨ frm + len ≤ p) → (mergeSortAux cmp n frm (frm + len) v aux).1 p = v p) ∧
    (∀ p, (p < frm ∨ frm + len ≤ p) → (mergeSortAux cmp n frm (frm + len) v aux).2 p = aux p) := by
  intro n
  induction n with
  | zero => intro frm len v aux h; omega
  | succ n ih =>
    intro frm len v aux hn heq
    by_cases h : frm + 1 ≥ frm + len
    · simp only [mergeSortAux, if_pos h, msortFuel, seg_length, if_pos (show len ≤ 1 by omega)]
      simp
    · simp only [mergeSortAux, if_neg h]
      have e0 : frm + len - frm = len := by omega
      rw [e0]
      have ih1 := ih frm (len / 2) aux v (by omega)
        (fun i h1 h2 => (heq i h1 (by omega)).symm)
      generalize mergeSortAux cmp n frm (frm + len / 2) aux v = r1 at *
      obtain ⟨a1, a2, a3⟩ := ih1
      have ed : frm + len = (frm + len / 2) + (len - len / 2) := by omega
      have ih2 := ih (frm + len / 2) (len - len / 2) r1.1 r1.2 (by omega)
        (fun i h1 h2 => by
          rw [a2 i (by omega), a3 i (by omega), heq i (by omega) (by omega)])
      rw [← ed] at ih2
      generalize mergeSortAux cmp n (frm + len / 2) (frm + len) r1.1 r1.2 = r2 at *
      obtain ⟨b1, b2, b3⟩ := ih2
      obtain ⟨c1, c2⟩ := mergeLoop_spec cmp r2.1 (frm + len / 2) (frm + len) (len + 1) frm
        (frm + len / 2) frm r2.2 (by omega) (by omega) (by omega)
      have e1 : frm + len / 2 - frm = len / 2 := by omega
      have e2 : frm + len - (frm + len / 2) = len - len / 2 := by omega
      have e3 : len / 2 + (len - len / 2) = len := by omega
      rw [e1, e2, e3] at c1 c2
      refine ⟨?_, ?_, ?_⟩
      · rw [c1, b1, seg_congr (w := r1.1) (v := r2.1) (frm := frm) (n := len / 2)
          (fun i h1 h2 => b2 i (by omega)), a1]
        rw [seg_congr (v := r1.1) (w := aux) (fun i h1 h2 => a2 i (by omega))]
        have hs : seg v frm len = seg aux frm len := seg_congr (fun i h1 h2 => heq i h1 h2)
        have hl : seg aux frm len = seg aux frm (len / 2) ++ seg aux (frm + len / 2) (len - len / 2) := by
          rw [← seg_append, e3]
        rw [hs]
        simp only [msortFuel, mergeS_eq, seg_length, if_neg (show ¬ len ≤ 1 by omega)]
        rw [hl, List.take_append_of_le_length (by simp [seg_length]),
          List.drop_append_of_le_length (by simp [seg_length]), List.take_of_length_le (by simp [seg_length]),
          List.drop_of_length_le (by simp [seg_length])]
        simp
      · intro p hp
        rw [c2 p (by omega), b3 p (by omega), a3 p (by omega)]
      · intro p hp
        rw [b2 p (by omega), a2 p (by omega)]

/-- The array sort and the list sort agree, and cells beyond `sz` are untouched. -/
theorem mergeSort_seg (cmp : α → α → Bool) (c : Nat → α) (sz : Nat) :
    seg (mergeSort cmp c sz) 0 sz = msortL cmp (seg c 0 sz) ∧
    ∀ p, sz ≤ p → mergeSort cmp c sz p = c p := by
  have := mergeSortAux_spec cmp (sz + 1) 0 sz c c (by omega) (fun _ _ _ => rfl)
  simp only [Nat.zero_add] at this
  refine ⟨?_, fun p hp => this.2.1 p (Or.inr hp)⟩
  rw [mergeSort, this.1, msortL, seg_length]

theorem mergeL_perm (cmp : α → α → Bool) (xs ys : List α) : (mergeL cmp xs ys).Perm (xs ++ ys) := by
  fun_induction mergeL cmp xs ys with
  | case1 ys => simp
  | case2 x xs => simp
  | case3 x xs y ys h ih => simpa using ih
  | case4 x xs y ys h ih =>
    refine (List.Perm.cons y ih).trans ?_
    exact (List.perm_middle (a := y) (l₁ := x :: xs) (l₂ := ys)).symm

theorem msortFuel_perm (cmp : α → α → Bool) (n : Nat) (l : List α) :
    (msortFuel cmp n l).Perm l := by
  induction n generalizing l with
  | zero => simp [msortFuel]
  | succ n ih =>
    by_cases h : l.length ≤ 1
    · simp [msortFuel, h]
    · simp only [msortFuel, mergeS_eq, if_neg h]
      refine (mergeL_perm ..).trans ?_
      refine ((ih _).append (ih _)).trans ?_
      simp

theorem msortL_perm (cmp : α → α → Bool) (l : List α) : (msortL cmp l).Perm l :=
  msortFuel_perm ..

end Verif.MSort
