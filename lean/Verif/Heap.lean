import Verif.Basic
/-!
# Model of `Heap` (src/heap.hpp)

`Location` objects are identified by naturals; `val` and `pos` are their two fields and
`data` is the array of location pointers.  `nloc` counts the locations allocated so far.
The table of location segments (`_lseg`, `_ms`, `_nbs`), only used to keep memory
reachable, is left out.  `int` overflow is not modelled.
-/
namespace Verif.Heap
variable {α : Type}

/-- Data members (src/heap.hpp:42-51) and `Location` fields (28-29). -/
structure H (α : Type) where
  data : Nat → Nat
  val : Nat → α
  pos : Nat → Nat
  mxs : Nat
  at_ : Nat
  nloc : Nat

/-- Value at heap position `i`: `_data[i]->_val`. -/
def H.v (h : H α) (i : Nat) : α := h.val (h.data i)

/-- `swap(_data[a],_data[b]); _data[a]->_p = a; _data[b]->_p = b;`
(src/heap.hpp:78-80, 96-98, 113-115). -/
def swap (h : H α) (a b : Nat) : H α :=
  let d := upd (upd h.data a (h.data b)) b (h.data a)
  { h with data := d, pos := upd (upd h.pos (d a) a) (d b) b }

/-- Choice of `best` (src/heap.hpp:88-94 and 105-111). -/
def best (ord : α → α → Bool) (at_ : Nat) (v : Nat → α) (p : Nat) : Nat :=
  let l := p * 2
  let r := p * 2 + 1
  let b := if l < at_ ∧ ord (v l) (v p) = true then l else p
  if r < at_ ∧ ord (v r) (v b) = true then r else b

/-- `resize` (src/heap.hpp:52-73). -/
def resize (h : H α) : H α :=
  let newSize := h.mxs <<< 1
  { h with
    data := fun i => if i < h.at_ then h.data i
                     else if h.mxs ≤ i ∧ i < newSize then h.nloc + i - h.mxs else h.data i
    pos := fun l => if h.nloc ≤ l ∧ l < h.nloc + (newSize - h.mxs) then l - h.nloc + h.mxs else h.pos l
    mxs := newSize
    nloc := h.nloc + h.mxs }

/-- `sendToRoot` (src/heap.hpp:74-84); first argument is fuel. -/
def sendToRoot : Nat → H α → Nat → H α
  | 0, h, _ => h
  | n + 1, h, p =>
    if p > 0 then
      let gp := p / 2
      sendToRoot n (if gp ≠ 0 then swap h p gp else h) gp
    else h

/-- `refloat` (src/heap.hpp:86-102); first argument is fuel. -/
def refloat (ord : α → α → Bool) : Nat → H α → Nat → H α
  | 0, h, _ => h
  | n + 1, h, p =>
    if p > 0 then
      withNat (p / 2) fun p2 => withNat (best ord h.at_ h.v p) fun b =>
      if b ≠ p then refloat ord n (swap h p b) p2 else refloat ord n h p2
    else h

/-- `heapify` (src/heap.hpp:103-119); first argument is fuel. -/
def heapify (ord : α → α → Bool) : Nat → H α → Nat → H α
  | 0, h, _ => h
  | n + 1, h, p =>
    withNat (best ord h.at_ h.v p) fun b =>
    if b ≠ p then heapify ord n (swap h p b) b else h

/-- Constructor (src/heap.hpp:121-131); `dflt` is `T()`. -/
def mk' (dflt : α) (sz : Nat) : H α :=
  { data := fun i => i, val := fun _ => dflt, pos := fun i => i, mxs := sz, at_ := 1, nloc := sz }

/-- `clear` (src/heap.hpp:132). -/
def clear (h : H α) : H α := { h with at_ := 1 }
/-- `size` (src/heap.hpp:133). -/
def size (h : H α) : Nat := h.at_ - 1
/-- `empty` (src/heap.hpp:134). -/
def empty (h : H α) : Bool := h.at_ == 1
/-- `operator[]` (src/heap.hpp:135-137). -/
def get (h : H α) (i : Nat) : Nat := h.data (i + 1)

/-- `insert` (src/heap.hpp:138-144): new heap and location. -/
def insert (h0 : H α) (x : α) : H α × Nat :=
  let h := if h0.at_ ≥ h0.mxs then resize h0 else h0
  let l := h.data h.at_
  ({ h with val := upd h.val l x, pos := upd h.pos l h.at_, at_ := h.at_ + 1 }, l)

/-- `find` (src/heap.hpp:145-150): scans all slots below the capacity. -/
def findLoop [DecidableEq α] (h : H α) (x : α) : Nat → Nat → Option Nat
  | 0, _ => none
  | n + 1, i => if h.v i = x then some (h.data i) else findLoop h x n (i + 1)
def find [DecidableEq α] (h : H α) (x : α) : Option Nat := findLoop h x (h.mxs - 1) 1

/-- `decrease` (src/heap.hpp:151-154); `dec` is `_val--`. -/
def decrease (ord : α → α → Bool) (dec : α → α) (h : H α) (l : Nat) : H α :=
  let h1 := { h with val := upd h.val l (dec (h.val l)) }
  refloat ord (h1.pos l + 1) h1 (h1.pos l)

/-- `extractMax` (src/heap.hpp:168-177) on a non-empty heap: new heap and value. -/
def extractMax (ord : α → α → Bool) (h : H α) : H α × α :=
  let rv := h.data 1
  let h1 := swap h 1 (h.at_ - 1)
  let h2 := { h1 with at_ := h1.at_ - 1 }
  (heapify ord (h2.at_ + 1) h2 1, h.val rv)

/-- `remove` (src/heap.hpp:155-158). -/
def remove (ord : α → α → Bool) (h : H α) (l : Nat) : H α × α :=
  extractMax ord (sendToRoot (h.pos l + 1) h (h.pos l))

/-- `insertHeap` (src/heap.hpp:159-163). -/
def insertHeap (ord : α → α → Bool) (h : H α) (x : α) : H α × Nat :=
  let r := insert h x
  (refloat ord (r.1.at_ + 1) r.1 (r.1.at_ - 1), r.2)

/-- `buildHeap` (src/heap.hpp:164-167). -/
def buildLoop (ord : α → α → Bool) : Nat → H α → H α
  | 0, h => h
  | i + 1, h => buildLoop ord i (heapify ord (h.at_ + 1) h (i + 1))
def buildHeap (ord : α → α → Bool) (h : H α) : H α := buildLoop ord (h.at_ / 2) h

/-! ### Order lemmas on the value array -/

/-- Strict weak order: `ord` is asymmetric and `fun a b => ¬ ord b a` is transitive. -/
structure SWO (ord : α → α → Bool) : Prop where
  asymm : ∀ a b, ord a b = true → ¬ ord b a = true
  ntrans : ∀ a b c, ¬ ord b a = true → ¬ ord c b = true → ¬ ord c a = true

/-- Exchange two cells. -/
def sw (v : Nat → α) (a b : Nat) : Nat → α := fun i => if i = a then v b else if i = b then v a else v i

/-- Pair (child `i`, parent `i/2`) is ordered. -/
def OK (ord : α → α → Bool) (v : Nat → α) (i : Nat) : Prop := ¬ ord (v i) (v (i / 2)) = true

/-- Heap order on positions `1 .. at_-1`, for parents `≥ k`. -/
def HOfrom (ord : α → α → Bool) (at_ : Nat) (v : Nat → α) (k : Nat) : Prop :=
  ∀ i, 2 ≤ i → i < at_ → k ≤ i / 2 → OK ord v i

/-- Full heap order. -/
def HO (ord : α → α → Bool) (at_ : Nat) (v : Nat → α) : Prop := ∀ i, 2 ≤ i → i < at_ → OK ord v i

theorem SWO.trans_lt {ord : α → α → Bool} (h : SWO ord) {a b c : α} (h1 : ord a b = true)
    (h2 : ¬ ord c b = true) : ord a c = true := by
  by_cases hac : ord a c = true
  · exact hac
  · exact absurd h1 (h.ntrans b c a h2 hac)

theorem best_cases (ord : α → α → Bool) (at_ : Nat) (v : Nat → α) (p : Nat) :
    best ord at_ v p = p ∨ (best ord at_ v p = p * 2 ∧ p * 2 < at_) ∨
      (best ord at_ v p = p * 2 + 1 ∧ p * 2 + 1 < at_) := by
  by_cases h1 : p * 2 < at_ ∧ ord (v (p * 2)) (v p) = true
  · simp only [best, if_pos h1]
    split
    · right; right; exact ⟨rfl, by omega⟩
    · right; left; exact ⟨rfl, by omega⟩
  · simp only [best, if_neg h1]
    split
    · right; right; exact ⟨rfl, by omega⟩
    · left; rfl

theorem best_max {ord : α → α → Bool} (ho : SWO ord) (at_ : Nat) (v : Nat → α) (p k : Nat)
    (hk : k = p * 2 ∨ k = p * 2 + 1) (hka : k < at_) : ¬ ord (v k) (v (best ord at_ v p)) = true := by
  have hirr : ∀ x, ¬ ord x x = true := fun x h => ho.asymm _ _ h h
  simp only [best]
  by_cases h1 : p * 2 < at_ ∧ ord (v (p * 2)) (v p) = true
  · simp only [if_pos h1]
    by_cases h2 : p * 2 + 1 < at_ ∧ ord (v (p * 2 + 1)) (v (p * 2)) = true
    · simp only [if_pos h2]
      rcases hk with rfl | rfl
      · exact ho.asymm _ _ h2.2
      · exact hirr _
    · simp only [if_neg h2]
      rcases hk with rfl | rfl
      · exact hirr _
      · exact fun h => h2 ⟨hka, h⟩
  · simp only [if_neg h1]
    by_cases h2 : p * 2 + 1 < at_ ∧ ord (v (p * 2 + 1)) (v p) = true
    · simp only [if_pos h2]
      rcases hk with rfl | rfl
      · intro h
        have h3 : ¬ ord (v (p * 2)) (v p) = true := fun h' => h1 ⟨hka, h'⟩
        exact h3 (ho.trans_lt h (ho.asymm _ _ h2.2))
      · exact hirr _
    · simp only [if_neg h2]
      rcases hk with rfl | rfl
      · exact fun h => h1 ⟨hka, h⟩
      · exact fun h => h2 ⟨hka, h⟩

theorem best_better {ord : α → α → Bool} (ho : SWO ord) (at_ : Nat) (v : Nat → α) (p : Nat)
    (h : best ord at_ v p ≠ p) : ord (v (best ord at_ v p)) (v p) = true := by
  simp only [best] at *
  by_cases h1 : p * 2 < at_ ∧ ord (v (p * 2)) (v p) = true
  · simp only [if_pos h1] at *
    split
    · rename_i h2
      exact ho.trans_lt h2.2 (ho.asymm _ _ h1.2)
    · exact h1.2
  · simp only [if_neg h1] at *
    split
    · rename_i h2; exact h2.2
    · rename_i h2; simp [h2] at h

theorem best_eq_of_ok {ord : α → α → Bool} (ho : SWO ord) (at_ : Nat) (v : Nat → α) (p : Nat)
    (h : ∀ k, (k = p * 2 ∨ k = p * 2 + 1) → k < at_ → ¬ ord (v k) (v p) = true) :
    best ord at_ v p = p := by
  rcases best_cases ord at_ v p with hb | hb | hb
  · exact hb
  · by_cases hp : best ord at_ v p = p
    · exact hp
    · exact absurd (hb.1 ▸ best_better ho at_ v p hp) (h _ (Or.inl rfl) hb.2)
  · by_cases hp : best ord at_ v p = p
    · exact hp
    · exact absurd (hb.1 ▸ best_better ho at_ v p hp) (h _ (Or.inr rfl) hb.2)

theorem kids {p k : Nat} : (k = p * 2 ∨ k = p * 2 + 1) ↔ k / 2 = p := by omega

theorem v_swap (h : H α) (a b i : Nat) : (swap h a b).v i = sw h.v a b i := by
  simp only [H.v, swap, sw, upd]
  by_cases h1 : i = b
  · by_cases h2 : i = a
    · subst h1; subst h2; simp
    · subst h1; simp [h2]
  · by_cases h2 : i = a
    · subst h2; simp [h1]
    · simp [h1, h2]

theorem v_swap' (h : H α) (a b : Nat) : (swap h a b).v = sw h.v a b := funext (v_swap h a b)

/-- One sift-up step restores the order at `p` and moves the violation to `p`. -/
theorem siftup_step {ord : α → α → Bool} (ho : SWO ord) {at_ : Nat} {v : Nat → α} {q : Nat}
    (hq : 2 ≤ q) (hqa : q < at_)
    (hok : ∀ i, 2 ≤ i → i < at_ → i ≠ q → OK ord v i)
    (hkid : ∀ k, k < at_ → k / 2 = q → ¬ ord (v k) (v (q / 2)) = true) :
    (best ord at_ v (q / 2) = q / 2 ∧ HO ord at_ v) ∨
    (best ord at_ v (q / 2) = q ∧
      (∀ i, 2 ≤ i → i < at_ → i ≠ q / 2 → OK ord (sw v (q / 2) q) i) ∧
      (∀ k, k < at_ → k / 2 = q / 2 → 2 ≤ q / 2 → ¬ ord (sw v (q / 2) q k) (sw v (q / 2) q (q / 2 / 2)) = true)) := by
  by_cases hv : ord (v q) (v (q / 2)) = true
  · right
    have hb : best ord at_ v (q / 2) = q := by
      have hne : best ord at_ v (q / 2) ≠ q / 2 := by
        intro he
        have := best_max ho at_ v (q / 2) q (kids.2 rfl) hqa
        rw [he] at this; exact this hv
      have hbt := best_better ho at_ v (q / 2) hne
      rcases best_cases ord at_ v (q / 2) with hb | hb | hb
      · exact absurd hb hne
      · by_cases hqe : q = q / 2 * 2
        · omega
        · have h2 : 2 ≤ q / 2 * 2 := by omega
          have := hok (q / 2 * 2) h2 hb.2 (by omega)
          rw [hb.1] at hbt
          simp only [OK] at this
          rw [show q / 2 * 2 / 2 = q / 2 by omega] at this
          exact absurd hbt this
      · by_cases hqe : q = q / 2 * 2 + 1
        · omega
        · have h2 : 2 ≤ q / 2 * 2 + 1 := by omega
          have := hok (q / 2 * 2 + 1) h2 hb.2 (by omega)
          rw [hb.1] at hbt
          simp only [OK] at this
          rw [show (q / 2 * 2 + 1) / 2 = q / 2 by omega] at this
          exact absurd hbt this
    refine ⟨hb, ?_, ?_⟩
    · intro i hi2 hia hip
      simp only [OK, sw, if_neg hip]
      by_cases hiq : i = q
      · subst hiq
        rw [if_pos rfl, if_pos rfl]; exact ho.asymm _ _ hv
      · rw [if_neg hiq]
        have hoki := hok i hi2 hia hiq
        simp only [OK] at hoki
        by_cases h1 : i / 2 = q / 2
        · rw [if_pos h1]; rw [h1] at hoki
          intro h; exact hoki (ho.trans_lt h (ho.asymm _ _ hv))
        · rw [if_neg h1]
          by_cases h2 : i / 2 = q
          · rw [if_pos h2]; exact hkid i hia h2
          · rw [if_neg h2]; exact hoki
    · intro k hka hk hq2
      have hpp := hok (q / 2) hq2 (by omega) (by omega)
      simp only [OK] at hpp
      have e1 : ¬ (q / 2 / 2 = q / 2) := by omega
      have e2 : ¬ (q / 2 / 2 = q) := by omega
      simp only [sw, if_neg e1, if_neg e2]
      have e3 : ¬ (k = q / 2) := by omega
      rw [if_neg e3]
      by_cases hkq : k = q
      · rw [if_pos hkq]; exact hpp
      · rw [if_neg hkq]
        have := hok k (by omega) hka hkq
        simp only [OK] at this
        rw [hk] at this
        exact ho.ntrans _ _ _ hpp this
  · left
    have hHO : HO ord at_ v := by
      intro i h1 h2
      by_cases hiq : i = q
      · subst hiq; exact hv
      · exact hok i h1 h2 hiq
    refine ⟨best_eq_of_ok ho at_ v _ (fun k hk hka => ?_), hHO⟩
    have := hHO k (by rw [kids] at hk; omega) hka
    simp only [OK] at this
    rwa [kids.1 hk] at this

theorem refloat_id {ord : α → α → Bool} (ho : SWO ord) : ∀ (n : Nat) (h : H α) (p : Nat),
    HO ord h.at_ h.v → refloat ord n h p = h := by
  intro n
  induction n with
  | zero => intros; rfl
  | succ n ih =>
    intro h p hh
    simp only [refloat, withNat_eq]
    split
    · rename_i hp
      have : best ord h.at_ h.v p = p := best_eq_of_ok ho _ _ _ (fun k hk hka => by
        have := hh k (by omega) hka
        simp only [OK] at this
        rwa [kids.1 hk] at this)
      rw [this]; simp only [ne_eq, not_true_eq_false, if_false]
      exact ih h (p / 2) hh
    · rfl

/-- Sift-up from a single violation at `q` restores heap order. -/
theorem refloat_up {ord : α → α → Bool} (ho : SWO ord) : ∀ (n : Nat) (h : H α) (q : Nat),
    q / 2 < n → 1 ≤ q → q < h.at_ →
    (∀ i, 2 ≤ i → i < h.at_ → i ≠ q → OK ord h.v i) →
    (∀ k, k < h.at_ → k / 2 = q → 2 ≤ q → ¬ ord (h.v k) (h.v (q / 2)) = true) →
    HO ord h.at_ (refloat ord n h (q / 2)).v := by
  intro n
  induction n with
  | zero => intro h q hn; omega
  | succ n ih =>
    intro h q hn hq1 hqa hok hkid
    by_cases hq : 2 ≤ q
    · rcases siftup_step ho hq hqa hok (fun k a b => hkid k a b hq) with ⟨h1, h2⟩ | ⟨h1, h2, h3⟩
      · rw [refloat_id ho _ _ _ h2]; exact h2
      · simp only [refloat, withNat_eq]
        rw [if_pos (by omega), h1, if_pos (by omega)]
        have hat : (swap h (q / 2) q).at_ = h.at_ := rfl
        have := ih (swap h (q / 2) q) (q / 2) (by omega) (by omega) (by rw [hat]; omega)
          (by rw [hat, v_swap']; exact h2) (by rw [hat, v_swap']; exact fun k a b c => h3 k a b c)
        rw [hat] at this; exact this
    · have hHO : HO ord h.at_ h.v := fun i h1 h2 => hok i h1 h2 (by omega)
      rw [refloat_id ho _ _ _ hHO]; exact hHO

/-- The same when `refloat` starts at the violating position itself. -/
theorem refloat_from {ord : α → α → Bool} (ho : SWO ord) (n : Nat) (h : H α) (q : Nat)
    (hn : q < n) (hq1 : 1 ≤ q) (hqa : q < h.at_)
    (hok : ∀ i, 2 ≤ i → i < h.at_ → i ≠ q → OK ord h.v i)
    (hkid : ∀ k, k < h.at_ → k / 2 = q → 2 ≤ q → ¬ ord (h.v k) (h.v (q / 2)) = true) :
    HO ord h.at_ (refloat ord n h q).v := by
  obtain ⟨m, rfl⟩ : ∃ m, n = m + 1 := ⟨n - 1, by omega⟩
  simp only [refloat, withNat_eq]
  rw [if_pos (by omega)]
  have : best ord h.at_ h.v q = q := best_eq_of_ok ho _ _ _ (fun k hk hka => by
    have := hok k (by omega) hka (by omega)
    simp only [OK] at this
    rwa [kids.1 hk] at this)
  rw [this]; simp only [ne_eq, not_true_eq_false, if_false]
  exact refloat_up ho m h q (by omega) hq1 hqa hok hkid

/-- Sift-down: `heapify p` restores the order for all parents `≥ k`. -/
theorem heapify_down {ord : α → α → Bool} (ho : SWO ord) (k : Nat) : ∀ (n : Nat) (h : H α) (p : Nat),
    h.at_ ≤ n + p → 1 ≤ k → k ≤ p →
    (∀ i, 2 ≤ i → i < h.at_ → k ≤ i / 2 → i / 2 ≠ p → OK ord h.v i) →
    (∀ c, c < h.at_ → c / 2 = p → k ≤ p / 2 → ¬ ord (h.v c) (h.v (p / 2)) = true) →
    HOfrom ord h.at_ (heapify ord n h p).v k := by
  intro n
  induction n with
  | zero =>
    intro h p hn hk hkp hok _ i h2 hia hki
    exact hok i h2 hia hki (by omega)
  | succ n ih =>
    intro h p hn hk hkp hok hkid
    simp only [heapify, withNat_eq]
    by_cases hb : best ord h.at_ h.v p = p
    · rw [if_neg (by simp [hb])]
      intro i h2 hia hki
      by_cases hip : i / 2 = p
      · have := best_max ho h.at_ h.v p i (kids.2 hip) hia
        rw [hb] at this
        simp only [OK]; rw [hip]; exact this
      · exact hok i h2 hia hki hip
    · rw [if_pos hb]
      have hbk : (best ord h.at_ h.v p) / 2 = p ∧ best ord h.at_ h.v p < h.at_ ∧ p < best ord h.at_ h.v p := by
        rcases best_cases ord h.at_ h.v p with hc | hc | hc
        · exact absurd hc hb
        · omega
        · omega
      have hbt := best_better ho h.at_ h.v p hb
      have hbm := best_max ho h.at_ h.v p
      generalize best ord h.at_ h.v p = b at *
      obtain ⟨hb1, hb2, hb3⟩ := hbk
      have hat : (swap h p b).at_ = h.at_ := rfl
      have := ih (swap h p b) b (by rw [hat]; omega) hk (by omega) ?_ ?_
      · rw [hat] at this; exact this
      · rw [hat, v_swap']
        intro i h2 hia hki hib
        simp only [OK, sw]
        by_cases hip : i = p
        · subst hip
          have e1 : ¬ (i / 2 = i) := by omega
          rw [if_pos rfl, if_neg e1, if_neg hib]
          exact hkid b hb2 hb1 hki
        · rw [if_neg hip]
          by_cases hib' : i = b
          · subst hib'
            rw [if_pos rfl, if_pos hb1]; exact ho.asymm _ _ hbt
          · rw [if_neg hib']
            by_cases hi2p : i / 2 = p
            · rw [if_pos hi2p]; exact hbm i (kids.2 hi2p) hia
            · rw [if_neg hi2p, if_neg hib]; exact hok i h2 hia hki hi2p
      · rw [hat, v_swap']
        intro c hca hcb _
        have e1 : ¬ c = p := by omega
        have e2 : ¬ c = b := by omega
        simp only [sw, if_neg e1, if_neg e2, hb1, if_true]
        have := hok c (by omega) hca (by omega) (by omega)
        simp only [OK] at this
        rwa [hcb] at this

/-! ### Locations -/

/-- Live locations. -/
def Live (h : H α) (l : Nat) : Prop := ∃ i, 1 ≤ i ∧ i < h.at_ ∧ h.data i = l

/-- Representation invariant (without heap order). -/
structure WF (h : H α) : Prop where
  one_le : 1 ≤ h.at_
  cap : h.at_ ≤ h.mxs
  pos_eq : ∀ i, i < h.mxs → h.pos (h.data i) = i
  alloc : ∀ i, i < h.mxs → h.data i < h.nloc

theorem WF.inj {h : H α} (w : WF h) {i j : Nat} (hi : i < h.mxs) (hj : j < h.mxs)
    (he : h.data i = h.data j) : i = j := by
  rw [← w.pos_eq i hi, ← w.pos_eq j hj, he]

theorem WF.live_iff {h : H α} (w : WF h) (l : Nat) :
    Live h l ↔ 1 ≤ h.pos l ∧ h.pos l < h.at_ ∧ h.data (h.pos l) = l := by
  constructor
  · rintro ⟨i, h1, h2, rfl⟩
    rw [w.pos_eq i (by have := w.cap; omega)]; exact ⟨h1, h2, rfl⟩
  · rintro ⟨h1, h2, h3⟩; exact ⟨_, h1, h2, h3⟩

theorem data_swap (h : H α) (a b i : Nat) :
    (swap h a b).data i = h.data (if i = a then b else if i = b then a else i) := by
  simp only [swap, upd]
  by_cases h1 : i = b
  · by_cases h2 : i = a
    · subst h1; subst h2; simp
    · subst h1; simp [h2]
  · by_cases h2 : i = a
    · subst h2; simp [h1]
    · simp [h1, h2]

theorem WF.swap {h : H α} (w : WF h) {a b : Nat} (ha : a < h.mxs) (hb : b < h.mxs) : WF (swap h a b) := by
  refine ⟨w.one_le, w.cap, ?_, ?_⟩
  · intro i hi
    have hi : i < h.mxs := hi
    rw [data_swap]
    show upd (upd h.pos ((Heap.swap h a b).data a) a) ((Heap.swap h a b).data b) b _ = i
    rw [data_swap, data_swap]
    have hbb : (if b = a then b else if b = b then a else b) = a := by split <;> simp_all
    rw [hbb]
    simp only [if_true]
    by_cases h1 : i = a
    · subst h1
      simp only [if_true]
      by_cases h2 : b = i
      · subst h2; simp
      · rw [upd_ne _ _ (fun he => h2 (w.inj hb ha he)), upd_same]
    · rw [if_neg h1]
      by_cases h2 : i = b
      · subst h2; rw [if_pos rfl, upd_same]
      · rw [if_neg h2, upd_ne _ _ (fun he => h1 (w.inj hi ha he)), upd_ne _ _ (fun he => h2 (w.inj hi hb he))]
        exact w.pos_eq i hi
  · intro i hi
    have hi : i < h.mxs := hi
    rw [data_swap]
    apply w.alloc
    show _ < h.mxs
    split
    · exact hb
    · split
      · exact ha
      · exact hi

theorem live_swap {h : H α} {a b : Nat} (ha : 1 ≤ a) (ha' : a < h.at_) (hb : 1 ≤ b) (hb' : b < h.at_)
    (l : Nat) : Live (swap h a b) l ↔ Live h l := by
  constructor
  · rintro ⟨i, h1, h2, h3⟩
    rw [data_swap] at h3
    refine ⟨_, ?_, ?_, h3⟩
    · split
      · exact hb
      · split <;> assumption
    · split
      · exact hb'
      · split <;> assumption
  · rintro ⟨i, h1, h2, h3⟩
    refine ⟨if i = a then b else if i = b then a else i, ?_, ?_, ?_⟩
    · split
      · exact hb
      · split <;> assumption
    · show _ < h.at_
      split
      · exact hb'
      · split <;> assumption
    · rw [data_swap, ← h3]
      congr 1
      by_cases h4 : i = a
      · subst h4
        by_cases h5 : b = i
        · simp [h5]
        · simp [h5]
      · by_cases h5 : i = b
        · subst h5; simp [h4]
        · simp [h4, h5]

/-- Only `data` and `pos` change, and the live locations are the same. -/
structure Same (h h' : H α) : Prop where
  wf : WF h'
  val : h'.val = h.val
  at_eq : h'.at_ = h.at_
  mxs_eq : h'.mxs = h.mxs
  nloc_eq : h'.nloc = h.nloc
  live : ∀ l, Live h' l ↔ Live h l
  hi : ∀ i, h.at_ ≤ i → h'.data i = h.data i

theorem Same.refl {h : H α} (w : WF h) : Same h h := ⟨w, rfl, rfl, rfl, rfl, fun _ => Iff.rfl, fun _ _ => rfl⟩
theorem Same.trans {h1 h2 h3 : H α} (a : Same h1 h2) (b : Same h2 h3) : Same h1 h3 :=
  ⟨b.wf, b.val.trans a.val, b.at_eq.trans a.at_eq, b.mxs_eq.trans a.mxs_eq, b.nloc_eq.trans a.nloc_eq,
    fun l => (b.live l).trans (a.live l), fun i hi => (b.hi i (by rw [a.at_eq]; exact hi)).trans (a.hi i hi)⟩

theorem Same.swap {h : H α} (w : WF h) {a b : Nat} (ha : 1 ≤ a) (ha' : a < h.at_) (hb : 1 ≤ b)
    (hb' : b < h.at_) : Same h (swap h a b) :=
  ⟨w.swap (by have := w.cap; omega) (by have := w.cap; omega), rfl, rfl, rfl, rfl,
    live_swap ha ha' hb hb', fun i hi => by
      rw [data_swap, if_neg (by omega), if_neg (by omega)]⟩

theorem refloat_same (ord : α → α → Bool) : ∀ (n : Nat) (h : H α) (p : Nat), WF h → p < h.at_ →
    Same h (refloat ord n h p) := by
  intro n
  induction n with
  | zero => intro h p w _; exact Same.refl w
  | succ n ih =>
    intro h p w hp
    simp only [refloat, withNat_eq]
    split
    · by_cases hb : best ord h.at_ h.v p = p
      · rw [if_neg (by simp [hb])]; exact ih h _ w (by omega)
      · rw [if_pos hb]
        have : 1 ≤ best ord h.at_ h.v p ∧ best ord h.at_ h.v p < h.at_ := by
          rcases best_cases ord h.at_ h.v p with hc | hc | hc <;> omega
        have s := Same.swap w (a := p) (by omega) hp this.1 this.2
        exact s.trans (ih _ _ s.wf (by show _ < h.at_; omega))
    · exact Same.refl w

theorem heapify_same (ord : α → α → Bool) : ∀ (n : Nat) (h : H α) (p : Nat), WF h → 1 ≤ p →
    Same h (heapify ord n h p) := by
  intro n
  induction n with
  | zero => intro h p w _; exact Same.refl w
  | succ n ih =>
    intro h p w hp
    simp only [heapify, withNat_eq]
    by_cases hb : best ord h.at_ h.v p = p
    · rw [if_neg (by simp [hb])]; exact Same.refl w
    · rw [if_pos hb]
      have : 1 ≤ best ord h.at_ h.v p ∧ best ord h.at_ h.v p < h.at_ ∧ p < h.at_ := by
        rcases best_cases ord h.at_ h.v p with hc | hc | hc <;> omega
      have s := Same.swap w (a := p) hp this.2.2 this.1 this.2.1
      exact s.trans (ih _ _ s.wf this.1)

/-- `sendToRoot p` moves the location at `p` to the root; every other location on the path
moves one step down. -/
theorem sendToRoot_spec {ord : α → α → Bool} (ho : SWO ord) : ∀ (n : Nat) (h : H α) (p : Nat), WF h →
    p < n → 1 ≤ p → p < h.at_ →
    (∀ i, 2 ≤ i → i < h.at_ → i / 2 ≠ p → i ≠ p → OK ord h.v i) →
    (∀ i, i < h.at_ → i / 2 = p → 2 ≤ p → ¬ ord (h.v i) (h.v (p / 2)) = true) →
    Same h (sendToRoot n h p) ∧ (sendToRoot n h p).data 1 = h.data p ∧
    (∀ i, 2 ≤ i → i < h.at_ → i / 2 ≠ 1 → OK ord (sendToRoot n h p).v i) := by
  intro n
  induction n with
  | zero => intro h p _ hn; omega
  | succ n ih =>
    intro h p w hn hp hpa hok hkid
    simp only [sendToRoot]
    rw [if_pos (by omega)]
    by_cases h1 : p / 2 = 0
    · have hp1 : p = 1 := by omega
      subst hp1
      have hs : sendToRoot n h (1 / 2) = h := by
        cases n with
        | zero => rfl
        | succ n => simp [sendToRoot]
      simp only [h1, ne_eq, not_true_eq_false, if_false]
      have hs' : sendToRoot n h 0 = h := hs
      rw [hs']
      exact ⟨Same.refl w, rfl, fun i h2 h3 h4 => hok i h2 h3 h4 (by omega)⟩
    · rw [if_pos h1]
      have s := Same.swap w (a := p) (b := p / 2) hp hpa (by omega) (by omega)
      have hih := ih (swap h p (p / 2)) (p / 2) s.wf (by omega) (by omega) (by show _ < h.at_; omega) ?_ ?_
      · obtain ⟨a, b, c⟩ := hih
        refine ⟨s.trans a, ?_, ?_⟩
        · rw [b, data_swap, if_neg (by omega), if_pos rfl]
        · exact c
      · intro i h2 h3 h4 h5
        have h3 : i < h.at_ := h3
        rw [v_swap']
        simp only [OK, sw]
        by_cases hip : i = p
        · subst hip; exact absurd rfl h4
        · rw [if_neg hip, if_neg h5]
          by_cases h6 : i / 2 = p
          · rw [if_pos h6]; exact hkid i h3 h6 (by omega)
          · rw [if_neg h6, if_neg h4]; exact hok i h2 h3 h6 hip
      · intro i h3 h4 h5
        have h3 : i < h.at_ := h3
        rw [v_swap']
        have e1 : ¬ (p / 2 / 2 = p) := by omega
        have e2 : ¬ (p / 2 / 2 = p / 2) := by omega
        simp only [sw, if_neg e1, if_neg e2]
        have hpar := hok (p / 2) (by omega) (by omega) (by omega) (by omega)
        simp only [OK] at hpar
        by_cases hip : i = p
        · rw [if_pos hip]; exact hpar
        · rw [if_neg hip, if_neg (by omega)]
          have := hok i (by omega) h3 (by omega) hip
          simp only [OK] at this
          rw [h4] at this
          exact ho.ntrans _ _ _ hpar this

/-! ### Whole operations -/

theorem WF_mk (dflt : α) (sz : Nat) (h : 1 ≤ sz) : WF (mk' dflt sz) :=
  ⟨Nat.le_refl _, h, fun _ _ => rfl, fun _ h => h⟩

theorem resize_spec {h : H α} (w : WF h) (hf : h.at_ ≥ h.mxs) :
    WF (resize h) ∧ (resize h).val = h.val ∧ (resize h).at_ = h.at_ ∧ (resize h).at_ < (resize h).mxs ∧
    (∀ l, Live (resize h) l ↔ Live h l) ∧ (resize h).v = (resize h).v ∧
    ∀ i, i < h.at_ → (resize h).data i = h.data i := by
  have hc := w.cap
  have h1 := w.one_le
  have hsh : h.mxs <<< 1 = 2 * h.mxs := by rw [Nat.shiftLeft_eq]; omega
  have hd : ∀ i, i < h.at_ → (resize h).data i = h.data i := by
    intro i hi; simp only [resize]; rw [if_pos hi]
  have hd2 : ∀ i, h.at_ ≤ i → i < 2 * h.mxs → (resize h).data i = h.nloc + i - h.mxs := by
    intro i hi hi2; simp only [resize]; rw [if_neg (by omega), if_pos (by omega)]
  refine ⟨⟨h1, ?_, ?_, ?_⟩, rfl, rfl, ?_, ?_, rfl, hd⟩
  · show h.at_ ≤ h.mxs <<< 1; omega
  · intro i hi
    have hi : i < h.mxs <<< 1 := hi
    by_cases hia : i < h.at_
    · rw [hd i hia]
      have ha := w.alloc i (by omega)
      simp only [resize]
      rw [if_neg (by omega)]; exact w.pos_eq i (by omega)
    · rw [hd2 i (by omega) (by omega)]
      simp only [resize]
      rw [if_pos (by omega)]; omega
  · intro i hi
    have hi : i < h.mxs <<< 1 := hi
    show _ < h.nloc + h.mxs
    by_cases hia : i < h.at_
    · rw [hd i hia]
      have ha := w.alloc i (by omega); omega
    · rw [hd2 i (by omega) (by omega)]; omega
  · show h.at_ < h.mxs <<< 1; omega
  · intro l
    constructor
    · rintro ⟨i, a, b, c⟩
      exact ⟨i, a, b, by rw [← hd i b]; exact c⟩
    · rintro ⟨i, a, b, c⟩
      exact ⟨i, a, b, by rw [hd i b]; exact c⟩

theorem insert_spec {h : H α} (w : WF h) (x : α) :
    WF (insert h x).1 ∧ ¬ Live h (insert h x).2 ∧
    (∀ l, Live (insert h x).1 l ↔ (Live h l ∨ l = (insert h x).2)) ∧
    (insert h x).1.val (insert h x).2 = x ∧ (∀ l, Live h l → (insert h x).1.val l = h.val l) ∧
    (insert h x).1.at_ = h.at_ + 1 ∧ (∀ i, i < h.at_ → (insert h x).1.data i = h.data i) ∧
    (insert h x).1.data h.at_ = (insert h x).2 := by
  have key : ∀ g : H α, WF g → g.at_ < g.mxs →
      let l := g.data g.at_
      let g' : H α := { g with val := upd g.val l x, pos := upd g.pos l g.at_, at_ := g.at_ + 1 }
      WF g' ∧ ¬ Live g l ∧ (∀ k, Live g' k ↔ (Live g k ∨ k = l)) ∧ (∀ k, Live g k → g'.val k = g.val k) := by
    intro g wg hg l g'
    have hnl : ¬ Live g l := by
      rintro ⟨i, h1, h2, h3⟩
      have := wg.inj (by omega) hg h3; omega
    refine ⟨⟨?_, ?_, ?_, wg.alloc⟩, hnl, ?_, ?_⟩
    · show 1 ≤ g.at_ + 1; omega
    · show g.at_ + 1 ≤ g.mxs; omega
    · intro i hi
      have hi : i < g.mxs := hi
      show upd g.pos l g.at_ (g.data i) = i
      by_cases hia : i = g.at_
      · rw [hia]; exact upd_same ..
      · rw [upd_ne _ _ (fun he => hia (wg.inj hi hg he))]; exact wg.pos_eq i hi
    · intro k
      constructor
      · rintro ⟨i, h1, h2, h3⟩
        have h2 : i < g.at_ + 1 := h2
        by_cases hia : i = g.at_
        · right; subst hia; exact h3.symm
        · left; exact ⟨i, h1, by omega, h3⟩
      · rintro (⟨i, h1, h2, h3⟩ | rfl)
        · exact ⟨i, h1, by show i < g.at_ + 1; omega, h3⟩
        · exact ⟨g.at_, wg.one_le, by show g.at_ < g.at_ + 1; omega, rfl⟩
    · intro k hk
      exact upd_ne _ _ (fun he => hnl (he ▸ hk))
  by_cases hf : h.at_ ≥ h.mxs
  · obtain ⟨r1, r2, r3, r4, r5, _, r6⟩ := resize_spec w hf
    obtain ⟨k1, k2, k3, k4⟩ := key (resize h) r1 r4
    simp only [insert, if_pos hf]
    refine ⟨k1, fun hl => k2 ((r5 _).2 hl), fun l => ?_, upd_same .., fun l hl => ?_, rfl, fun i hi => ?_, rfl⟩
    · rw [k3, r5]
    · exact (k4 l ((r5 l).2 hl)).trans (by rw [r2])
    · exact r6 i hi
  · obtain ⟨k1, k2, k3, k4⟩ := key h w (by omega)
    simp only [insert, if_neg hf]
    refine ⟨k1, k2, k3, upd_same .., k4, ?_, ?_, ?_⟩ <;> simp

/-- Heap order of a heap object. -/
def Ordered (ord : α → α → Bool) (h : H α) : Prop := HO ord h.at_ h.v

theorem insertHeap_spec {ord : α → α → Bool} (ho : SWO ord) {h : H α} (w : WF h) (hord : Ordered ord h) (x : α) :
    WF (insertHeap ord h x).1 ∧ Ordered ord (insertHeap ord h x).1 ∧ ¬ Live h (insertHeap ord h x).2 ∧
    (∀ l, Live (insertHeap ord h x).1 l ↔ (Live h l ∨ l = (insertHeap ord h x).2)) ∧
    (insertHeap ord h x).1.val (insertHeap ord h x).2 = x ∧
    (∀ l, Live h l → (insertHeap ord h x).1.val l = h.val l) ∧
    (insertHeap ord h x).1.at_ = h.at_ + 1 := by
  obtain ⟨a1, a2, a3, a4, a5, a6, a7, a8⟩ := insert_spec w x
  have h1 := w.one_le
  have s := refloat_same ord ((insert h x).1.at_ + 1) (insert h x).1 ((insert h x).1.at_ - 1) a1 (by omega)
  have hv : ∀ i, 1 ≤ i → i < h.at_ → (insert h x).1.v i = h.v i := by
    intro i hi hia
    simp only [H.v]; rw [a7 i hia]; exact a5 _ ⟨i, hi, hia, rfl⟩
  simp only [insertHeap]
  refine ⟨s.wf, ?_, a2, fun l => (s.live l).trans (a3 l), by rw [s.val]; exact a4, fun l hl => by rw [s.val]; exact a5 l hl,
    by rw [s.at_eq]; exact a6⟩
  simp only [Ordered]
  rw [s.at_eq]
  have e : (insert h x).1.at_ - 1 = h.at_ := by omega
  rw [e]
  refine refloat_from ho _ _ _ (by omega) (by omega) (by omega) ?_ ?_
  · intro i h2 h3 h4
    have := hord i h2 (by omega)
    simp only [OK] at *
    rw [hv i (by omega) (by omega), hv (i / 2) (by omega) (by omega)]; exact this
  · intro k hk1 hk2; omega

/-- Removing the root position. -/
theorem extract_root {ord : α → α → Bool} (ho : SWO ord) {h : H α} (w : WF h) (hne : 2 ≤ h.at_)
    (hord : ∀ i, 2 ≤ i → i < h.at_ → i / 2 ≠ 1 → OK ord h.v i) :
    WF (extractMax ord h).1 ∧ Ordered ord (extractMax ord h).1 ∧
    (extractMax ord h).2 = h.val (h.data 1) ∧ Live h (h.data 1) ∧
    (∀ l, Live (extractMax ord h).1 l ↔ (Live h l ∧ l ≠ h.data 1)) ∧
    (extractMax ord h).1.val = h.val ∧ (extractMax ord h).1.at_ = h.at_ - 1 := by
  have hc := w.cap
  have s := Same.swap w (a := 1) (b := h.at_ - 1) (by omega) (by omega) (by omega) (by omega)
  let h2 : H α := { swap h 1 (h.at_ - 1) with at_ := (swap h 1 (h.at_ - 1)).at_ - 1 }
  have hat2 : h2.at_ = h.at_ - 1 := rfl
  have w2 : WF h2 := ⟨by rw [hat2]; omega, by rw [hat2]; show _ ≤ h.mxs; omega, s.wf.pos_eq, s.wf.alloc⟩
  have hv2 : h2.v = sw h.v 1 (h.at_ - 1) := v_swap' h 1 (h.at_ - 1)
  have s2 := heapify_same ord (h2.at_ + 1) h2 1 w2 (by omega)
  have hl2 : ∀ l, Live h2 l ↔ (Live h l ∧ l ≠ h.data 1) := by
    intro l
    constructor
    · rintro ⟨i, h1, h3, h4⟩
      have h3 : i < h.at_ - 1 := h3
      have h4 : (swap h 1 (h.at_ - 1)).data i = l := h4
      refine ⟨(s.live l).1 ⟨i, h1, by show i < h.at_; omega, h4⟩, ?_⟩
      intro he
      rw [data_swap] at h4
      have hlt : (if i = 1 then h.at_ - 1 else if i = h.at_ - 1 then 1 else i) < h.mxs := by
        split
        · omega
        · split <;> omega
      have := w.inj hlt (show 1 < h.mxs by omega) (h4.trans he)
      split at this
      · omega
      · split at this <;> omega
    · rintro ⟨hl, hne'⟩
      obtain ⟨i, h1, h3, h4⟩ := (s.live l).2 hl
      have h3 : i < h.at_ := h3
      refine ⟨i, h1, ?_, h4⟩
      show i < h.at_ - 1
      rcases Nat.lt_or_ge i (h.at_ - 1) with h5 | h5
      · exact h5
      · exfalso
        have hi : i = h.at_ - 1 := by omega
        rw [data_swap] at h4
        apply hne'
        rw [← h4]; congr 1
        split
        · omega
        · rfl
  have hord2 : HOfrom ord h2.at_ (heapify ord (h2.at_ + 1) h2 1).v 1 := by
    apply heapify_down ho 1 _ _ _ (by omega) (by omega) (by omega)
    · intro i h3 h4 _ h5
      have h4 : i < h.at_ - 1 := h4
      have := hord i h3 (by omega) h5
      rw [hv2]
      simp only [OK, sw] at *
      rw [if_neg (by omega), if_neg (by omega), if_neg h5, if_neg (by omega)]
      exact this
    · intro c _ _ h5; omega
  show WF (heapify ord (h2.at_ + 1) h2 1) ∧ Ordered ord (heapify ord (h2.at_ + 1) h2 1) ∧
    h.val (h.data 1) = h.val (h.data 1) ∧ Live h (h.data 1) ∧
    (∀ l, Live (heapify ord (h2.at_ + 1) h2 1) l ↔ (Live h l ∧ l ≠ h.data 1)) ∧
    (heapify ord (h2.at_ + 1) h2 1).val = h.val ∧ (heapify ord (h2.at_ + 1) h2 1).at_ = h.at_ - 1
  refine ⟨s2.wf, ?_, rfl, ⟨1, by omega, by omega, rfl⟩, fun l => (s2.live l).trans (hl2 l), s2.val, s2.at_eq⟩
  intro i h3 h4
  rw [s2.at_eq] at h4
  exact hord2 i h3 h4 (by omega)

theorem root_best {ord : α → α → Bool} (ho : SWO ord) {h : H α} (hord : Ordered ord h) :
    ∀ i, 1 ≤ i → i < h.at_ → ¬ ord (h.v i) (h.v 1) = true := by
  intro i
  induction i using Nat.strongRecOn with
  | ind i ih =>
    intro h1 h2
    by_cases hi : i = 1
    · subst hi; exact fun h => ho.asymm _ _ h h
    · have a := ih (i / 2) (by omega) (by omega) (by omega)
      have b := hord i (by omega) h2
      exact ho.ntrans _ _ _ a b

theorem extractMax_spec {ord : α → α → Bool} (ho : SWO ord) {h : H α} (w : WF h) (hord : Ordered ord h)
    (hne : 2 ≤ h.at_) :
    WF (extractMax ord h).1 ∧ Ordered ord (extractMax ord h).1 ∧ ∃ l, Live h l ∧
    (extractMax ord h).2 = h.val l ∧ (∀ k, Live h k → ¬ ord (h.val k) (h.val l) = true) ∧
    (∀ k, Live (extractMax ord h).1 k ↔ (Live h k ∧ k ≠ l)) ∧
    (extractMax ord h).1.val = h.val ∧ (extractMax ord h).1.at_ = h.at_ - 1 := by
  obtain ⟨a, b, c, d, e, f, g⟩ := extract_root ho w hne (fun i h1 h2 _ => hord i h1 h2)
  refine ⟨a, b, h.data 1, d, c, ?_, e, f, g⟩
  rintro k ⟨i, h1, h2, rfl⟩
  exact root_best ho hord i h1 h2

theorem remove_spec {ord : α → α → Bool} (ho : SWO ord) {h : H α} (w : WF h) (hord : Ordered ord h)
    {l : Nat} (hl : Live h l) :
    WF (remove ord h l).1 ∧ Ordered ord (remove ord h l).1 ∧ (remove ord h l).2 = h.val l ∧
    (∀ k, Live (remove ord h l).1 k ↔ (Live h k ∧ k ≠ l)) ∧
    (remove ord h l).1.val = h.val ∧ (remove ord h l).1.at_ = h.at_ - 1 := by
  obtain ⟨h1, h2, h3⟩ := (w.live_iff l).1 hl
  obtain ⟨s, e1, e2⟩ := sendToRoot_spec ho (h.pos l + 1) h (h.pos l) w (by omega) h1 h2
    (fun i a b _ _ => hord i a b)
    (fun i a b c => by
      have x := hord (h.pos l) c h2
      have y := hord i (by omega) a
      simp only [OK] at x y
      rw [b] at y
      exact ho.ntrans _ _ _ x y)
  obtain ⟨a, b, c, _, e, f, g⟩ := extract_root ho s.wf (by rw [s.at_eq]; omega)
    (by rw [s.at_eq]; exact e2)
  simp only [remove]
  refine ⟨a, b, ?_, ?_, ?_, ?_⟩
  · rw [c, e1, h3, s.val]
  · intro k; rw [e, s.live, e1, h3]
  · rw [f, s.val]
  · rw [g, s.at_eq]

theorem decrease_spec {ord : α → α → Bool} (ho : SWO ord) (dec : α → α) {h : H α} (w : WF h)
    (hord : Ordered ord h) {l : Nat} (hl : Live h l) (hdec : ¬ ord (h.val l) (dec (h.val l)) = true) :
    WF (decrease ord dec h l) ∧ Ordered ord (decrease ord dec h l) ∧
    (∀ k, Live (decrease ord dec h l) k ↔ Live h k) ∧
    (decrease ord dec h l).val = upd h.val l (dec (h.val l)) ∧ (decrease ord dec h l).at_ = h.at_ := by
  obtain ⟨h1, h2, h3⟩ := (w.live_iff l).1 hl
  let g : H α := { h with val := upd h.val l (dec (h.val l)) }
  have wg : WF g := ⟨w.one_le, w.cap, w.pos_eq, w.alloc⟩
  have s := refloat_same ord (g.pos l + 1) g (g.pos l) wg h2
  have hvl : g.v (h.pos l) = dec (h.val l) := by
    show upd h.val l (dec (h.val l)) (h.data (h.pos l)) = _
    rw [h3]; simp
  have hvo : ∀ i, i < h.at_ → i ≠ h.pos l → g.v i = h.v i := by
    intro i hi hne
    show upd h.val l (dec (h.val l)) (h.data i) = _
    apply upd_ne
    intro he
    rw [← h3] at he
    exact hne (w.inj (by have := w.cap; omega) (by have := w.cap; omega) he)
  have hvp : h.v (h.pos l) = h.val l := by show h.val (h.data (h.pos l)) = _; rw [h3]
  show WF (refloat ord (g.pos l + 1) g (g.pos l)) ∧ Ordered ord (refloat ord (g.pos l + 1) g (g.pos l)) ∧
    (∀ k, Live (refloat ord (g.pos l + 1) g (g.pos l)) k ↔ Live h k) ∧
    (refloat ord (g.pos l + 1) g (g.pos l)).val = upd h.val l (dec (h.val l)) ∧
    (refloat ord (g.pos l + 1) g (g.pos l)).at_ = h.at_
  refine ⟨s.wf, ?_, fun k => s.live k, s.val, s.at_eq⟩
  simp only [Ordered]
  rw [s.at_eq]
  refine refloat_from ho _ _ _ (Nat.lt_succ_self _) h1 h2 ?_ ?_
  · intro i h4 h5 h6
    have h5 : i < h.at_ := h5
    have h6 : i ≠ h.pos l := h6
    have := hord i h4 h5
    simp only [OK] at *
    rw [hvo i h5 h6]
    by_cases h7 : i / 2 = h.pos l
    · rw [h7, hvl]; rw [h7, hvp] at this
      exact ho.ntrans _ _ _ hdec this
    · rw [hvo _ (by omega) h7]; exact this
  · intro k h4 h5 h6
    have h4 : k < h.at_ := h4
    have h5 : k / 2 = h.pos l := h5
    have h6 : 2 ≤ h.pos l := h6
    show ¬ ord (g.v k) (g.v (h.pos l / 2)) = true
    rw [hvo k h4 (by omega), hvo _ (by omega) (by omega)]
    have x := hord (h.pos l) h6 h2
    have y := hord k (by omega) h4
    simp only [OK] at x y
    rw [h5] at y
    exact ho.ntrans _ _ _ x y

theorem buildLoop_spec {ord : α → α → Bool} (ho : SWO ord) : ∀ (k : Nat) (h : H α), WF h →
    HOfrom ord h.at_ h.v (k + 1) →
    Same h (buildLoop ord k h) ∧ HOfrom ord h.at_ (buildLoop ord k h).v 1 := by
  intro k
  induction k with
  | zero => intro h w hh; exact ⟨Same.refl w, hh⟩
  | succ k ih =>
    intro h w hh
    have s := heapify_same ord (h.at_ + 1) h (k + 1) w (by omega)
    have hd := heapify_down ho (k + 1) (h.at_ + 1) h (k + 1) (by omega) (by omega) (by omega)
      (fun i h1 h2 h3 h4 => hh i h1 h2 (by omega)) (fun c _ _ h5 => by omega)
    obtain ⟨a, b⟩ := ih _ s.wf (by rw [s.at_eq]; exact hd)
    rw [s.at_eq] at b
    exact ⟨s.trans a, b⟩

theorem buildHeap_spec {ord : α → α → Bool} (ho : SWO ord) {h : H α} (w : WF h) :
    Same h (buildHeap ord h) ∧ Ordered ord (buildHeap ord h) := by
  obtain ⟨a, b⟩ := buildLoop_spec ho (h.at_ / 2) h w (fun i h1 h2 h3 => by omega)
  refine ⟨a, ?_⟩
  intro i h1 h2
  have h2 : i < (buildLoop ord (h.at_ / 2) h).at_ := h2
  rw [a.at_eq] at h2
  exact b i h1 h2 (by omega)

/-- Live locations in position order; `pq[k]` for `k < size` enumerates it. -/
def locs (h : H α) : List Nat := (List.range (size h)).map (get h)

theorem mem_locs {h : H α} (l : Nat) : l ∈ locs h ↔ Live h l := by
  simp only [locs, List.mem_map, List.mem_range, Live, size, get]
  constructor
  · rintro ⟨i, h1, h2⟩; exact ⟨i + 1, by omega, by omega, h2⟩
  · rintro ⟨i, h1, h2, h3⟩; exact ⟨i - 1, by omega, by rw [show i - 1 + 1 = i by omega]; exact h3⟩

theorem nodup_locs {h : H α} (w : WF h) : (locs h).Nodup := by
  rw [List.Nodup, List.pairwise_iff_getElem]
  intro i j hi hj hij
  simp only [locs, List.length_map, List.length_range, size] at hi hj
  simp only [locs, List.getElem_map, List.getElem_range, ne_eq, get]
  intro he
  have := w.inj (by have := w.cap; omega) (by have := w.cap; omega) he
  omega

end Verif.Heap
