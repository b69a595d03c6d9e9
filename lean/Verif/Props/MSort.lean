import Verif.MSort
/-!
# Properties of `mergeSort` (C30, C31)

The comparator may be strict (`a < b`) or non-strict (`a <= b`): `Compat cmp le` says that
`cmp` decides consistently with the total preorder `le`, ties being decided either way.
-/
namespace Verif.MSort
variable {α : Type}

/-- `le` is a total preorder. -/
structure TotalPreorder (le : α → α → Prop) : Prop where
  total : ∀ a b, le a b ∨ le b a
  trans : ∀ a b c, le a b → le b c → le a c

/-- `cmp` answers according to `le`, with any answer on ties. -/
def Compat (cmp : α → α → Bool) (le : α → α → Prop) : Prop :=
  ∀ a b, (cmp a b = true → le a b) ∧ (cmp a b = false → le b a)

theorem mergeL_sorted {cmp : α → α → Bool} {le : α → α → Prop} (hp : TotalPreorder le)
    (hc : Compat cmp le) (xs ys : List α) (hx : xs.Pairwise le) (hy : ys.Pairwise le) :
    (mergeL cmp xs ys).Pairwise le := by
  fun_induction mergeL cmp xs ys with
  | case1 ys => exact hy
  | case2 x xs => exact hx
  | case3 x xs y ys h ih =>
    rw [List.pairwise_cons] at hx
    refine List.pairwise_cons.2 ⟨fun z hz => ?_, ih hx.2 hy⟩
    rcases List.mem_append.1 ((mergeL_perm cmp xs (y :: ys)).mem_iff.1 hz) with hz | hz
    · exact hx.1 z hz
    · rw [List.pairwise_cons] at hy
      rcases List.mem_cons.1 hz with rfl | hz
      · exact (hc _ _).1 h
      · exact hp.trans _ _ _ ((hc _ _).1 h) (hy.1 z hz)
  | case4 x xs y ys h ih =>
    have h' : le y x := (hc x y).2 (by simpa using h)
    rw [List.pairwise_cons] at hy
    refine List.pairwise_cons.2 ⟨fun z hz => ?_, ih hx hy.2⟩
    rcases List.mem_append.1 ((mergeL_perm cmp (x :: xs) ys).mem_iff.1 hz) with hz | hz
    · rw [List.pairwise_cons] at hx
      rcases List.mem_cons.1 hz with rfl | hz
      · exact h'
      · exact hp.trans _ _ _ h' (hx.1 z hz)
    · exact hy.1 z hz

theorem msortFuel_sorted {cmp : α → α → Bool} {le : α → α → Prop} (hp : TotalPreorder le)
    (hc : Compat cmp le) : ∀ (n : Nat) (l : List α), l.length < n → (msortFuel cmp n l).Pairwise le := by
  intro n
  induction n with
  | zero => intro l h; omega
  | succ n ih =>
    intro l hl
    by_cases h : l.length ≤ 1
    · simp only [msortFuel, if_pos h]
      match l, h with
      | [], _ => exact List.Pairwise.nil
      | [a], _ => exact List.pairwise_singleton ..
    · simp only [msortFuel, mergeS_eq, if_neg h]
      exact mergeL_sorted hp hc _ _ (ih _ (by simp; omega)) (ih _ (by simp; omega))

/-- List form of C30, used by the decision-diagram proofs. -/
theorem msortL_sorted {cmp : α → α → Bool} {le : α → α → Prop} (hp : TotalPreorder le)
    (hc : Compat cmp le) (l : List α) : (msortL cmp l).Pairwise le :=
  msortFuel_sorted hp hc _ _ (by omega)

/-- C30: after `mergeSort(c,sz,cmp)` the first `sz` cells are a permutation of the original
ones, sorted by the order of the comparator; the cells beyond `sz` are unchanged. -/
theorem mergeSort_sorts {cmp : α → α → Bool} {le : α → α → Prop} (hp : TotalPreorder le)
    (hc : Compat cmp le) (c : Nat → α) (sz : Nat) :
    (seg (mergeSort cmp c sz) 0 sz).Perm (seg c 0 sz) ∧
    (∀ i j, i < j → j < sz → le (mergeSort cmp c sz i) (mergeSort cmp c sz j)) ∧
    ∀ p, sz ≤ p → mergeSort cmp c sz p = c p := by
  obtain ⟨h1, h2⟩ := mergeSort_seg cmp c sz
  refine ⟨h1 ▸ msortL_perm cmp _, fun i j hij hj => ?_, h2⟩
  have hs : (seg (mergeSort cmp c sz) 0 sz).Pairwise le := h1 ▸ msortL_sorted hp hc _
  rw [List.pairwise_iff_getElem] at hs
  have := hs i j (by simp [seg_length]; omega) (by simp [seg_length]; omega) hij
  have e1 := seg_getElem? (mergeSort cmp c sz) 0 sz i (by omega)
  have e2 := seg_getElem? (mergeSort cmp c sz) 0 sz j hj
  rw [List.getElem?_eq_getElem (by simp [seg_length]; omega)] at e1 e2
  simp only [Nat.zero_add, Option.some.injEq] at e1 e2
  rwa [e1, e2] at this

/-- The permutation holds for every comparator, even an inconsistent one. -/
theorem mergeSort_perm (cmp : α → α → Bool) (c : Nat → α) (sz : Nat) :
    (seg (mergeSort cmp c sz) 0 sz).Perm (seg c 0 sz) :=
  (mergeSort_seg cmp c sz).1 ▸ msortL_perm cmp _

/-- Integer `<` and `<=` both satisfy the hypotheses of `mergeSort_sorts`. -/
example : TotalPreorder (fun a b : Int => a ≤ b) ∧
    Compat (fun a b : Int => decide (a < b)) (· ≤ ·) ∧ Compat (fun a b : Int => decide (a ≤ b)) (· ≤ ·) :=
  ⟨⟨fun a b => by omega, fun a b c => by omega⟩, fun a b => by simp; omega, fun a b => by simp; omega⟩

example : seg (mergeSort (fun a b : Nat => decide (a < b)) (fun i => [5, 1, 4, 2, 3].getD i 0) 5) 0 5 =
    [1, 2, 3, 4, 5] := by decide

/-! ### Stability -/

/-- `p` selects one class of elements that the order does not distinguish. -/
def IsClass (le : α → α → Prop) (p : α → Bool) : Prop :=
  (∀ a b, p a = true → p b = true → le a b) ∧
  (∀ a b, p a = true → le a b → le b a → p b = true)

theorem filter_eq_nil_of_lt {le : α → α → Prop} {p : α → Bool}
    (hcl : IsClass le p) {x : α} {l : List α} (hx : p x = true)
    (hl : ∀ z ∈ l, ¬ le z x) : l.filter p = [] := by
  rw [List.filter_eq_nil_iff]
  intro z hz hpz
  exact hl z hz (hcl.1 _ _ hpz hx)

theorem mergeL_filter_stable {cmp : α → α → Bool} {le : α → α → Prop} (hp : TotalPreorder le)
    (hc : ∀ a b, cmp a b = true ↔ le a b) {p : α → Bool} (hcl : IsClass le p)
    (xs ys : List α) (hx : xs.Pairwise le) (hy : ys.Pairwise le) :
    (mergeL cmp xs ys).filter p = xs.filter p ++ ys.filter p := by
  fun_induction mergeL cmp xs ys with
  | case1 ys => simp
  | case2 x xs => simp
  | case3 x xs y ys h ih =>
    rw [List.pairwise_cons] at hx
    rw [List.filter_cons, ih hx.2 hy, List.filter_cons (x := x)]
    by_cases hpx : p x = true <;> simp [hpx]
  | case4 x xs y ys h ih =>
    have hle : ¬ le x y := fun h' => h ((hc _ _).2 h')
    rw [List.filter_cons, ih hx (List.pairwise_cons.1 hy).2]
    by_cases hpy : p y = true
    · have : (x :: xs).filter p = [] := by
        apply filter_eq_nil_of_lt hcl hpy
        intro z hz hzy
        rcases List.mem_cons.1 hz with rfl | hz
        · exact hle hzy
        · exact hle (hp.trans _ _ _ ((List.pairwise_cons.1 hx).1 z hz) hzy)
      rw [this]; simp [hpy]
    · simp [hpy]

theorem mergeL_filter_strict {cmp : α → α → Bool} {le : α → α → Prop} (hp : TotalPreorder le)
    (hc : ∀ a b, cmp a b = true ↔ ¬ le b a) {p : α → Bool} (hcl : IsClass le p)
    (xs ys : List α) (hx : xs.Pairwise le) (hy : ys.Pairwise le) :
    (mergeL cmp xs ys).filter p = ys.filter p ++ xs.filter p := by
  fun_induction mergeL cmp xs ys with
  | case1 ys => simp
  | case2 x xs => simp
  | case3 x xs y ys h ih =>
    have hle : ¬ le y x := (hc _ _).1 h
    rw [List.filter_cons, ih (List.pairwise_cons.1 hx).2 hy, List.filter_cons (x := x)]
    by_cases hpx : p x = true
    · have : (y :: ys).filter p = [] := by
        apply filter_eq_nil_of_lt hcl hpx
        intro z hz hzx
        rcases List.mem_cons.1 hz with rfl | hz
        · exact hle hzx
        · exact hle (hp.trans _ _ _ ((List.pairwise_cons.1 hy).1 z hz) hzx)
      rw [this]; simp [hpx]
    · simp [hpx]
  | case4 x xs y ys h ih =>
    rw [List.filter_cons, ih hx (List.pairwise_cons.1 hy).2, List.filter_cons (x := y)]
    by_cases hpy : p y = true <;> simp [hpy]

/-- Both tie rules at once: `rev` says whether classes come out reversed. -/
theorem msortFuel_filter {cmp : α → α → Bool} {le : α → α → Prop} (hp : TotalPreorder le)
    (hc : Compat cmp le) (rev : Bool)
    (hm : ∀ (p : α → Bool), IsClass le p → ∀ xs ys : List α, xs.Pairwise le → ys.Pairwise le →
      (mergeL cmp xs ys).filter p =
        if rev then ys.filter p ++ xs.filter p else xs.filter p ++ ys.filter p)
    (p : α → Bool) (hcl : IsClass le p) : ∀ (n : Nat) (l : List α), l.length < n →
    (msortFuel cmp n l).filter p = if rev then (l.filter p).reverse else l.filter p := by
  intro n
  induction n with
  | zero => intro l h; omega
  | succ n ih =>
    intro l hl
    by_cases h : l.length ≤ 1
    · simp only [msortFuel, if_pos h]
      match l, h with
      | [], _ => simp
      | [a], _ => cases hpa : p a <;> simp [hpa]
    · simp only [msortFuel, mergeS_eq, if_neg h]
      have h1 : (l.take (l.length / 2)).length < n := by simp; omega
      have h2 : (l.drop (l.length / 2)).length < n := by simp; omega
      rw [hm p hcl _ _ (msortFuel_sorted hp hc n _ h1) (msortFuel_sorted hp hc n _ h2),
        ih _ h1, ih _ h2]
      have e : l.filter p = (l.take (l.length / 2)).filter p ++ (l.drop (l.length / 2)).filter p := by
        rw [← List.filter_append, List.take_append_drop]
      cases rev
      · simp [← e]
      · simp only [if_true]; rw [← List.reverse_append, ← e]

/-- C31, the part that holds: with a non-strict comparator (`a <= b`) equal elements keep
their order. -/
theorem mergeSort_stable_partial {cmp : α → α → Bool} {le : α → α → Prop} (hp : TotalPreorder le)
    (hc : ∀ a b, cmp a b = true ↔ le a b) (p : α → Bool) (hcl : IsClass le p)
    (c : Nat → α) (sz : Nat) :
    (seg (mergeSort cmp c sz) 0 sz).filter p = (seg c 0 sz).filter p := by
  have hcomp : Compat cmp le := fun a b =>
    ⟨fun h => (hc a b).1 h, fun h => (hp.total a b).resolve_left (fun h' => by simp [(hc a b).2 h'] at h)⟩
  rw [(mergeSort_seg cmp c sz).1, msortL]
  have := msortFuel_filter hp hcomp false
    (fun p hcl xs ys hx hy => by simpa using mergeL_filter_stable hp hc hcl xs ys hx hy) p hcl
    ((seg c 0 sz).length + 1) (seg c 0 sz) (by omega)
  simpa using this

/-- C31: with a strict comparator (`a < b`) every class of equal elements comes out in
reverse order. -/
theorem mergeSort_strict_reverses {cmp : α → α → Bool} {le : α → α → Prop} (hp : TotalPreorder le)
    (hc : ∀ a b, cmp a b = true ↔ ¬ le b a) (p : α → Bool) (hcl : IsClass le p)
    (c : Nat → α) (sz : Nat) :
    (seg (mergeSort cmp c sz) 0 sz).filter p = ((seg c 0 sz).filter p).reverse := by
  have hcomp : Compat cmp le := fun a b =>
    ⟨fun h => (hp.total a b).resolve_right ((hc a b).1 h),
      fun h => by
        rcases Classical.em (le b a) with h' | h'
        · exact h'
        · simp [(hc a b).2 h'] at h⟩
  rw [(mergeSort_seg cmp c sz).1, msortL]
  have := msortFuel_filter hp hcomp true
    (fun p hcl xs ys hx hy => by simpa using mergeL_filter_strict hp hc hcl xs ys hx hy) p hcl
    ((seg c 0 sz).length + 1) (seg c 0 sz) (by omega)
  simpa using this

/-- C31 as stated is false: with a strict comparator two equal keys are exchanged. -/
theorem mergeSort_stable_false :
    ¬ ∀ (c : Nat → Nat × Nat) (sz : Nat),
      (seg (mergeSort (fun a b => decide (a.1 < b.1)) c sz) 0 sz).filter (fun a => a.1 == 7) =
        (seg c 0 sz).filter (fun a => a.1 == 7) := by
  intro h
  have := h (fun i => (7, i)) 2
  revert this; decide

example : IsClass (fun a b : Nat × Nat => a.1 ≤ b.1) (fun a => a.1 == 7) := by
  constructor <;> intro a b <;> simp <;> omega

end Verif.MSort
