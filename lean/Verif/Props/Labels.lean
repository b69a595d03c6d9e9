import Verif.Labels
import Verif.Props.Range
import Verif.Props.GNMask
import Verif.Knapsack2
import Verif.Foo
import Verif.ColoringV
import Verif.GrulerMid
/-!
# The labels of a state (C145)

C145: a generator that returns a `Range` has its labels tried in the order of the range.  False for every backward range with
two or more values: they are tried in ascending order.
-/
namespace Verif.Labels
open Verif.Range Verif.GNSet Verif.Bits Verif.NatSet

theorem insertI_nat : ∀ (l : List Nat) (g : G), insertI (l.map fun x : Nat => (x : Int)) g = insertAll l g
  | [], _ => rfl
  | p :: l, g => by
    rw [List.map_cons, insertI, insertAll, if_neg (by omega), Int.toNat_natCast]
    congr 1
    exact funext (insertI_nat l)

/-- What is inserted comes out sorted. -/
theorem insertI_iter {m b : Nat} (hm : 0 < m) (hm2 : m ≤ 512) {l L : List Nat} (hl : ∀ p ∈ l, p < 32768) (hL : Lists L (· ∈ l)) :
    (insertI (l.map fun x : Nat => (x : Int)) ⟨m, b, false, fun _ => 0⟩).bind iter = some (L.map fun x : Nat => (x : Int)) := by
  rw [insertI_nat]
  have hb := foldl_growTo_bound (B := 1024) l m hm (by omega) (fun p hp => by have := hl p hp; omega)
  have hle := foldl_growTo_le l m hm
  obtain ⟨g, h1, R, h2, _⟩ := Rep.insertAll l (g := ⟨m, b, false, fun _ => 0⟩) (n := m) (M := fun _ => False)
    ⟨fun h => by simp at h, rfl, by omega, fun q => by show inW (fun _ => 0) _ q = true ↔ _; rw [zero_has]; simp⟩ hm rfl (by omega)
  rw [h1, Option.bind_some, iter_elems h2 (by rw [R.mxw]; omega), R.elems (l := L) ⟨hL.1, fun q => by rw [hL.2]; simp⟩]
  refine congrArg some (List.map_congr_left fun x hx => toShort_eq ?_)
  have := hl x ((hL.2 x).1 hx); omega

theorem up_nat : ∀ (n a : Nat), up (a : Int) n = (List.range' a n).map fun x : Nat => (x : Int)
  | 0, _ => rfl
  | n + 1, a => by
    rw [up, List.range'_succ, List.map_cons, ← up_nat n (a + 1)]
    rfl

theorem range'_lists (a n : Nat) : Lists (List.range' a n) (fun q => a ≤ q ∧ q < a + n) :=
  ⟨List.pairwise_lt_range', fun q => by rw [List.mem_range'_1]⟩

/-- One step more than the size is enough to iterate. -/
theorem iterate_size {r : Range} {l : List Int} (hy : Yields r l) : r.iterate (r.size.toNat + 1) = some l := by
  obtain ⟨f, t⟩ := r
  by_cases hft : f ≤ t
  · have hs : (Range.mk f t).size = t - f := by unfold Range.size; rw [if_pos hft]
    have := loop_up (t - f).toNat f ((t - f).toNat + 1) (by omega)
    rw [show f + ((t - f).toNat : Int) = t by omega] at this
    rw [hy.unique (yields_forward f t hft), hs]
    simpa [Range.iterate, Range.backward, hft] using this
  · have hs : (Range.mk f t).size = f - t := by unfold Range.size; rw [if_neg (by show ¬ f ≤ t; exact hft)]
    have := loop_down (f - t).toNat f ((f - t).toNat + 1) (by omega)
    rw [show f - ((f - t).toNat : Int) = t by omega] at this
    rw [hy.unique (yields_backward f t (by omega)), hs]
    simpa [Range.iterate, Range.backward, hft] using this

/-- Ascending ranges below 32768. -/
theorem labels_forward {f t : Int} (h0 : 0 ≤ f) (hft : f ≤ t) (ht : t ≤ 32768) : labels ⟨f, t⟩ = some (up f (t - f).toNat) := by
  obtain ⟨a, rfl⟩ := Int.eq_ofNat_of_zero_le h0
  obtain ⟨b, rfl⟩ := Int.eq_ofNat_of_zero_le (Int.le_trans h0 hft)
  have hs : (Range.mk (a : Int) b).size = ((b - a : Nat) : Int) := by unfold Range.size; rw [if_pos hft]; show (b : Int) - a = _; omega
  unfold labels ofRange
  rw [hs]
  by_cases he : ((b - a : Nat) : Int) = 0
  · rw [if_pos he, show ((b : Int) - a).toNat = 0 by omega]; rfl
  · rw [if_neg he]
    have hi := iterate_size (yields_forward (a : Int) b hft)
    rw [hs, show ((b : Int) - a).toNat = b - a by omega] at hi
    have hlg : (Range.mk (a : Int) b).largest = b := by unfold Range.largest; rw [if_pos hft]
    rw [hi, Option.bind_some, hlg, show ((b : Int) - a).toNat = b - a by omega, up_nat]
    refine insertI_iter ?_ ?_ (fun p hp => ?_) ⟨List.pairwise_lt_range', fun _ => Iff.rfl⟩
    · split <;> omega
    · split <;> omega
    · have := ((range'_lists a (b - a)).2 p).1 hp; omega

theorem down_nat : ∀ (n : Nat) (t : Int), -1 ≤ t → down (t + n) n = ((List.range' (t + 1).toNat n).reverse).map fun x : Nat => (x : Int)
  | 0, _, _ => rfl
  | n + 1, t, h => by
    rw [Range.down, show t + ((n + 1 : Nat) : Int) - 1 = t + n by omega, down_nat n t h, List.range'_concat, List.reverse_append,
      List.map_append]
    simp only [List.reverse_cons, List.reverse_nil, List.nil_append, List.map_cons, List.map_nil, List.singleton_append]
    congr 1
    omega

/-- Descending ranges below 32768: the same labels, ascending.  `Range(0,-1)`, whose only value is 0, is excluded. -/
theorem labels_backward {f t : Int} (ht : -1 ≤ t) (hft : t < f) (h1 : 1 ≤ f) (hf : f < 32768) :
    labels ⟨f, t⟩ = some (up (t + 1) (f - t).toNat) := by
  have hnot : ¬ t ≥ f := by omega
  have hs : (Range.mk f t).size = f - t := by unfold Range.size; rw [if_neg hnot]
  have hlg : (Range.mk f t).largest = f := by unfold Range.largest; rw [if_neg hnot]
  unfold labels ofRange
  rw [hs, if_neg (by omega)]
  have hi := iterate_size (yields_backward f t hft)
  rw [hs] at hi
  have hd := down_nat (f - t).toNat t ht
  rw [show t + ((f - t).toNat : Int) = f by omega] at hd
  have hu := up_nat (f - t).toNat (t + 1).toNat
  rw [show ((t + 1).toNat : Int) = t + 1 by omega] at hu
  rw [hi, Option.bind_some, hlg, hd, hu]
  have hl := range'_lists (t + 1).toNat (f - t).toNat
  refine insertI_iter ?_ ?_ (fun p hp => ?_) ⟨hl.1, fun q => List.mem_reverse.symm⟩
  · split <;> omega
  · split <;> omega
  · have := (hl.2 p).1 (List.mem_reverse.1 hp); omega

theorem up_sorted : ∀ (n : Nat) (a : Int), (up a n).Pairwise (· < ·)
  | 0, _ => List.Pairwise.nil
  | n + 1, a => List.pairwise_cons.2 ⟨fun x hx => by have := mem_up.1 hx; omega, up_sorted n (a + 1)⟩

/-- C145, what holds of every range: its values are tried once each, in ascending order, whatever the direction of the range.
Missing: the order of the range itself, which `labels_order_false` refutes. -/
theorem labels_order_partial {r : Range} {l : List Int} (hy : Yields r l) (hl : ∀ x ∈ l, 0 ≤ x ∧ x < 32768) (hr : r ≠ ⟨0, -1⟩) :
    ∃ L, labels r = some L ∧ L.Perm l ∧ L.Pairwise (· < ·) ∧ (r.frm ≤ r.to → L = l) ∧ (r.to < r.frm → L = l.reverse) := by
  obtain ⟨f, t⟩ := r
  by_cases hft : f ≤ t
  · have he := hy.unique (yields_forward f t hft)
    subst he
    by_cases h0 : f = t
    · subst h0
      refine ⟨[], ?_, ?_, List.Pairwise.nil, fun _ => ?_, fun h => absurd h (by show ¬ f < f; omega)⟩
      · unfold labels ofRange Range.size
        rw [if_pos]
        · rfl
        · rw [if_pos (by show f ≥ f; omega)]; show f - f = 0; omega
      · rw [show (f - f).toNat = 0 by omega]; exact List.Perm.refl _
      · rw [show (f - f).toNat = 0 by omega]; rfl
    · have hf := hl f (mem_up.2 ⟨by omega, by omega⟩)
      have ht := hl (t - 1) (mem_up.2 ⟨by omega, by omega⟩)
      exact ⟨_, labels_forward hf.1 hft (by omega), List.Perm.refl _, up_sorted _ _, fun _ => rfl, fun h => absurd h (by show ¬ t < f; omega)⟩
  · have htf : t < f := by omega
    have he := hy.unique (yields_backward f t htf)
    subst he
    have hf := hl f (mem_down.2 ⟨by omega, by omega⟩)
    have ht := hl (t + 1) (mem_down.2 ⟨by omega, by omega⟩)
    have h1 : 1 ≤ f := by
      refine Int.not_lt.1 fun hc => hr ?_
      have e1 : f = 0 := by omega
      have e2 : t = -1 := by omega
      rw [e1, e2]
    have hrev : up (t + 1) (f - t).toNat = (down f (f - t).toNat).reverse := by
      have := down_eq_reverse_up (f - t).toNat (t + 1)
      rw [show t + 1 + ((f - t).toNat : Int) - 1 = f by omega] at this
      rw [this, List.reverse_reverse]
    exact ⟨_, labels_backward (by omega) htf h1 hf.2, hrev ▸ List.reverse_perm _, up_sorted _ _,
      fun h => absurd h (by show ¬ f ≤ t; omega), fun _ => hrev⟩

/-- C145 is false: knapsack.cpp's `Range::close(1,0)` runs 1, 0 and is tried as 0, 1. -/
theorem labels_order_false : Yields (Range.close 1 0) [1, 0] ∧ labels (Range.close 1 0) = some [0, 1] :=
  ⟨close_down 1 0 (by decide), (labels_backward (f := 1) (t := -1) (by decide) (by decide) (by decide) (by decide) :)⟩

/-- A negative label is written before the array. -/
theorem labels_negative {r : Range} {l : List Int} (hy : Yields r l) {x : Int} (hx : x ∈ l) (h0 : x < 0) : labels r = none := by
  have key : ∀ (l : List Int) (g : G), x ∈ l → insertI l g = none := by
    intro l
    induction l with
    | nil => intro g h; cases h
    | cons p l ih =>
      intro g h
      rw [insertI]
      by_cases hp : p < 0
      · rw [if_pos hp]
      · rw [if_neg hp]
        rcases List.mem_cons.1 h with rfl | h
        · exact absurd h0 hp
        · cases GNSet.insert g p.toNat with
          | none => rfl
          | some g => exact ih g h
  obtain ⟨l', hy', hs⟩ := size_eq_length r
  obtain rfl := hy.unique hy'
  unfold labels ofRange
  have : 0 < l.length := List.length_pos_of_mem hx
  rw [if_neg (by omega)]
  rw [iterate_size hy, Option.bind_some, key l _ hx]
  rfl

/-- The excluded range never returns: the set has no words, so the growth loop of `insert` does not end. -/
theorem labels_zero_hangs : Yields ⟨0, -1⟩ [0] ∧ labels ⟨0, -1⟩ = none :=
  ⟨yields_backward 0 (-1) (by decide), by decide +kernel⟩

/-- Both directions of the hypotheses of `labels_order_partial`. -/
example : labels (Range.close 62 65) = some [62, 63, 64, 65] ∧ labels (Range.close 65 62) = some [62, 63, 64, 65] :=
  ⟨labels_forward (f := 62) (t := 66) (by decide) (by decide) (by decide),
    labels_backward (f := 65) (t := 61) (by decide) (by decide) (by decide) (by decide)⟩

/-! ### The generators of the examples -/

theorem up_range (n : Nat) : up 1 n = (List.range n).map (fun i : Nat => (i : Int) + 1) := by
  rw [show (1 : Int) = ((1 : Nat) : Int) from rfl, up_nat, List.range'_eq_map_range, List.map_map]
  exact List.map_congr_left fun i _ => by show ((1 + i : Nat) : Int) = (i : Int) + 1; omega

theorem close_labels {f t : Int} (h0 : 0 ≤ f) (hft : f ≤ t) (ht : t < 32768) : labels (Range.close f t) = some (up f (t - f + 1).toNat) := by
  have : Range.close f t = ⟨f, t + 1⟩ := by unfold Range.close inc; rw [if_neg (by simp; omega)]
  rw [this, labels_forward h0 (by omega) (by omega)]
  congr 2; omega

/-- knapsack.cpp: `close(s.c >= weight[s.n], 0)` (examples/knapsack.cpp:95). -/
theorem labels_knapsack (k : Ex.Knap) (s : Nat × Int) : labels (Range.close (if s.2 ≥ k.w s.1 then 1 else 0) 0) = some (k.mdl.lgf s) := by
  show _ = some (if s.2 ≥ k.w s.1 then [0, 1] else [0])
  by_cases h : s.2 ≥ k.w s.1
  · rw [if_pos h, if_pos h]; exact labels_order_false.2
  · rw [if_neg h, if_neg h]; exact close_labels (by decide) (by decide) (by decide)

/-- knapsack2.cpp: `close(0, s.c >= w[s.n])` (examples/knapsack2.cpp:115). -/
theorem labels_knapsack2 (k : Ex.Knap) (fl : Int → Int → Int → Int) (s : Nat × Int) :
    labels (Range.close 0 (if s.2 ≥ k.w s.1 then 1 else 0)) = some ((k.mdl2 fl).lgf s) := by
  show _ = some (if s.2 ≥ k.w s.1 then [0, 1] else [0])
  by_cases h : s.2 ≥ k.w s.1
  · rw [if_pos h, if_pos h]; exact close_labels (by decide) (by decide) (by decide)
  · rw [if_neg h, if_neg h]; exact close_labels (by decide) (by decide) (by decide)

/-- misp2.cpp to misp5.cpp: `close(0,1)`. -/
theorem labels_misp : labels (Range.close 0 1) = some [0, 1] := close_labels (by decide) (by decide) (by decide)

/-- foo.cpp: `close(1,top)` (examples/foo.cpp:69). -/
theorem labels_foo (f : Ex.Foo) (h1 : 1 ≤ f.top) (h2 : f.top < 32768) (s : Nat) : labels (Range.close 1 f.top) = some (f.mdl.lgf s) := by
  rw [close_labels (by decide) (by omega) (by omega), show ((f.top : Int) - 1 + 1).toNat = f.top by omega, up_range]
  rfl

theorem filter_le (n : Nat) (p : Int) (hp : 0 ≤ p) :
    ((List.range n).map (fun i : Nat => (i : Int) + 1)).filter (fun l => decide (l ≤ p)) = up 1 (min p n).toNat := by
  rw [up_range]
  induction n with
  | zero => rw [show (min p ((0 : Nat) : Int)).toNat = 0 by omega]; rfl
  | succ n ih =>
    rw [List.range_succ, List.map_append, List.filter_append, ih]
    by_cases h : (n : Int) + 1 ≤ p
    · rw [show (min p ((n + 1 : Nat) : Int)).toNat = n + 1 by omega, show (min p (n : Int)).toNat = n by omega, List.range_succ, List.map_append]
      simp [h]
    · rw [show (min p ((n + 1 : Nat) : Int)).toNat = (min p (n : Int)).toNat by omega]
      simp [h]

/-- The range of the colouring programs (examples/coloring.cpp:211-214, examples/coloringtoy.cpp:78-81); `p` is the primal bound. -/
def colourRange (K vtx last : Nat) (p : Int) : Range :=
  if vtx ≥ K then Range.open_ 0 0 else Range.close 1 (min p ((last : Int) + 1))

theorem labels_colours {K vtx last : Nat} {p : Int} (hp : 1 ≤ p) (hl : last + 1 < 32768) :
    labels (colourRange K vtx last p) = some (if vtx ≥ K then [] else Ex.colours last (some p)) := by
  unfold colourRange
  by_cases h : vtx ≥ K
  · rw [if_pos h, if_pos h]; exact labels_forward (f := 0) (t := 0) (by decide) (by decide) (by decide)
  · rw [if_neg h, if_neg h, close_labels (by decide) (by omega) (by omega)]
    unfold Ex.colours
    show _ = some (((List.range (last + 1)).map (fun i : Nat => (i : Int) + 1)).filter (fun l => decide (l ≤ p)))
    rw [filter_le _ _ (by omega)]
    congr 2
    omega

/-- coloring.cpp. -/
theorem labels_coloring (t : Ex.Col) (U : Nat) {p : Int} (hp : 1 ≤ p) (x : Ex.ColS) (hl : x.last + 1 < 32768) :
    labels (colourRange t.K x.vtx x.last p) = some ((t.mdlU U (some p)).lgf x) := labels_colours hp hl

/-- coloringtoy.cpp. -/
theorem labels_coloringtoy (t : Ex.Col) {p : Int} (hp : 1 ≤ p) (x : Ex.ColS) (hl : x.last + 1 < 32768) :
    labels (colourRange t.K x.vtx x.last p) = some ((t.mdl (some p)).lgf x) := labels_colours hp hl

theorem closeInc_labels {f t : Int} (h0 : 0 ≤ f) (ht : t < 32768) : labels (Range.closeInc f t) = some (up f (t - f + 1).toNat) := by
  unfold Range.closeInc
  by_cases h : f < t + 1
  · rw [if_pos h]; exact close_labels h0 (by omega) ht
  · rw [if_neg h, show (t - f + 1).toNat = 0 by omega]
    exact labels_forward (f := 0) (t := 0) (by decide) (by decide) (by decide)

theorem sorted_unique : ∀ {l l' : List Int}, l.Pairwise (· < ·) → l'.Pairwise (· < ·) → (∀ x, x ∈ l ↔ x ∈ l') → l = l'
  | [], [], _, _, _ => rfl
  | [], b :: _, _, _, h => absurd ((h b).2 (List.mem_cons_self ..)) (by simp)
  | a :: _, [], _, _, h => absurd ((h a).1 (List.mem_cons_self ..)) (by simp)
  | a :: l, b :: l', h1, h2, h => by
    rw [List.pairwise_cons] at h1 h2
    have hab : a = b := by
      rcases List.mem_cons.1 ((h a).1 (List.mem_cons_self ..)) with x | x
      · exact x
      · rcases List.mem_cons.1 ((h b).2 (List.mem_cons_self ..)) with y | y
        · exact y.symm
        · have := h2.1 a x; have := h1.1 b y; omega
    subst hab
    refine congrArg _ (sorted_unique h1.2 h2.2 fun x => ?_)
    constructor
    · intro hx
      rcases List.mem_cons.1 ((h x).1 (List.mem_cons_of_mem _ hx)) with y | y
      · have := h1.1 x hx; omega
      · exact y
    · intro hx
      rcases List.mem_cons.1 ((h x).2 (List.mem_cons_of_mem _ hx)) with y | y
      · have := h2.1 x hx; omega
      · exact y

theorem up_filter {lb : Nat} {ub : Int} {n : Nat} (h : ub < n) :
    up lb (ub - lb + 1).toNat = ((List.range n).map (fun i : Nat => (i : Int))).filter (fun l => decide ((lb : Int) ≤ l ∧ l ≤ ub)) := by
  refine sorted_unique (up_sorted _ _) (List.Pairwise.filter _ (List.pairwise_map.2 (List.pairwise_lt_range.imp fun h => by omega))) fun x => ?_
  rw [mem_up, List.mem_filter, decide_eq_true_iff, List.mem_map]
  constructor
  · intro hx; exact ⟨⟨x.toNat, List.mem_range.2 (by omega), by omega⟩, by omega, by omega⟩
  · rintro ⟨_, h1, h2⟩; omega

/-- gruler.cpp: `closeInc(lb,ub)` (examples/gruler.cpp:94-101). -/
theorem labels_gruler (t : Ex.Gol) (hL : t.L + 1 < 32768) (p : Int) (x : Ex.GolS) :
    labels (Range.closeInc (t.lb x) (t.ub p x)) = some ((t.mdl (some p)).lgf x) := by
  have hu : t.ub p x < ((t.L + 2 : Nat) : Int) := by unfold Ex.Gol.ub; omega
  rw [closeInc_labels (by omega) (by omega), up_filter hu]
  rfl

/-- gruler_mid.cpp (examples/gruler_mid.cpp:96-111). -/
theorem labels_gruler_mid (t : Ex.Gol) (hL : t.L + 1 < 32768) (p : Int) (x : Ex.GolS) :
    labels (Range.closeInc (t.lb x) (t.ubMid p x.k)) = some ((t.mid p).lgf x) := by
  have hu : t.ubMid p x.k < ((t.L + 2 : Nat) : Int) := by unfold Ex.Gol.ubMid; split <;> omega
  rw [closeInc_labels (by omega) (by omega), up_filter hu]
  rfl

/-- The hypotheses of the two colouring links in a state with two colours used and a bound of 7. -/
example : labels (colourRange 5 3 2 7) = some [1, 2, 3] := labels_colours (by decide) (by decide)

end Verif.Labels
