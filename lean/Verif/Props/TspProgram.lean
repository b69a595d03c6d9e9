import Verif.Props.TspRead4
import Verif.Props.TspRoom
import Verif.Props.AnyLoc
/-!
# C128: the TSP programs from text to tour
-/
namespace Verif.Ex
open Verif.DD Verif.IO

/-- The cities and distances a list of numbers gives, row by row. -/
def rowsTsp (n : Nat) (vs : List Int) : Tsp := ⟨n, fun i j => vs.getD (i * n + j) 0⟩

/-- The same for the programs with depot 0. -/
def rowsTsp4 (n : Nat) (vs : List Int) : Tsp4 := ⟨n, fun i j => vs.getD (i * n + j) 0⟩

/-- The lower triangle gives both directions. -/
def triTsp4 (n : Nat) (vs : List Int) : Tsp4 := ⟨n, fun i j => vs.getD (max i j * (max i j + 1) / 2 + min i j) 0⟩

theorem Tsp.length_congr {t u : Tsp} (hd : ∀ i j, i < t.nv → j < t.nv → t.d i j = u.d i j) : ∀ (p : List Nat) (a : Nat), a < t.nv → (∀ i, i ∈ p → i < t.nv) →
    t.length a p = u.length a p := by
  intro p
  induction p with
  | nil => intro a _ _; rfl
  | cons b p ih =>
    intro a ha hp
    have hb := hp b (.head _)
    simp only [Tsp.length]
    rw [hd a b ha hb, ih b hb fun i hi => hp i (.tail _ hi)]

theorem Tsp.tour_congr {t u : Tsp} (hn : 1 < t.nv) (hnv : t.nv = u.nv) (hd : ∀ i j, i < t.nv → j < t.nv → t.d i j = u.d i j) (ls : List Int) (c : Int) : t.Tour ls c ↔ u.Tour ls c := by
  unfold Tsp.Tour
  rw [← hnv]
  constructor
  all_goals
    rintro ⟨p, h1, h2, h3, h4⟩
    refine ⟨p, h1, h2, h3, h4.trans ?_⟩
    have := Tsp.length_congr hd (p ++ [1]) 1 hn fun i hi => by
      rcases List.mem_append.1 hi with hi | hi
      · exact ((h3 i).1 hi).1
      · simp at hi; omega
    rw [this]

theorem Tsp4.length_congr {t u : Tsp4} (hd : ∀ i j, i < t.nv → j < t.nv → t.d i j = u.d i j) : ∀ (p : List Nat) (a : Nat), a < t.nv → (∀ i, i ∈ p → i < t.nv) →
    t.length a p = u.length a p := by
  intro p
  induction p with
  | nil => intro a _ _; rfl
  | cons b p ih =>
    intro a ha hp
    have hb := hp b (.head _)
    simp only [Tsp4.length]
    rw [hd a b ha hb, ih b hb fun i hi => hp i (.tail _ hi)]

theorem Tsp4.tour_congr {t u : Tsp4} (hn : 1 ≤ t.nv) (hnv : t.nv = u.nv) (hd : ∀ i j, i < t.nv → j < t.nv → t.d i j = u.d i j) (ls : List Int) (c : Int) : t.Tour ls c ↔ u.Tour ls c := by
  unfold Tsp4.Tour
  rw [← hnv]
  constructor
  all_goals
    rintro ⟨p, h1, h2, h3, h4⟩
    refine ⟨p, h1, h2, h3, h4.trans ?_⟩
    have := Tsp4.length_congr hd (p ++ [0]) 0 hn fun i hi => by
      rcases List.mem_append.1 hi with hi | hi
      · exact ((h3 i).1 hi).1
      · simp at hi; omega
    rw [this]

theorem TFile.tsp_d (F : TFile) (i j : Nat) : F.tsp.d i j = (dist F.nv F.d i j).getD 0 := by simp only [TFile.tsp]

theorem TFile.tsp4_d (F : TFile) (i j : Nat) : F.tsp4.d i j = (dist F.nv F.d i j).getD 0 := by simp only [TFile.tsp4]

/-- What a search must do: end, and end with a shortest tour unless stopped. -/
def Solves {σ : Type} [DecidableEq σ] (m : Mdl σ) (Tour : List Int → Int → Prop) (w dfuel : Nat) (lim : Nat → Bool) : Prop :=
  (∃ L, ∀ k, L < k → ∃ s, BB.search m w dfuel lim k 2147483647 = some s ∧ (s.stopped = true ∨ Heap.empty s.pq = true)) ∧
    ∀ k s, BB.search m w dfuel lim k 2147483647 = some s → s.stopped = false → ShortestTour Tour s.primal ∧ Tour s.inc s.primal

/-- C128: from the text to the answer.  On a text with a header it can read and the numbers of a full matrix, none negative or above `D` off the
diagonal, with `n * D` below the largest int and the width of C127, tsp.cpp reads the matrix, and its search ends, and unless it was stopped it ends
with a shortest tour of the matrix in the text. -/
theorem tsp_program {t r : List Char} {n : Nat} (h : TspHead t n r) (hn1 : 1 < n) (hn : n ≤ 46340) {ws extra : List (List Char)} {vs : List Int}
    (hw : words r = ws ++ extra) (hN : Numerals ws vs) (hl : vs.length = n * n) {D : Int} (hD0 : 0 ≤ D) (hnD : n * D < 2147483647)
    (hv : ∀ i j, i < n → j < n → i ≠ j → 0 ≤ vs.getD (i * n + j) 0 ∧ vs.getD (i * n + j) 0 ≤ D)
    {w dfuel fuel : Nat} (hw1 : 1 ≤ w) (hw2 : tourWidth n ≤ w) (hdf : n + 2 ≤ dfuel) (hf : t.length ≤ fuel) (lim : Nat → Bool) :
    ∃ F, readTsp fuel (Strm.opened t) = .ok F ∧
      Solves F.tsp.mdl (rowsTsp n vs).Tour w dfuel lim := by
  obtain ⟨F, h1, h2, h3⟩ := tsp_reads h (by omega) hn hw hN hl hf
  have hd : ∀ i j, i < F.tsp.nv → j < F.tsp.nv → F.tsp.d i j = (rowsTsp n vs).d i j := by
    intro i j hi hj
    have hi : i < n := h2 ▸ hi
    have hj : j < n := h2 ▸ hj
    rw [TFile.tsp_d, h2, h3 i j hi hj]
    simp only [rowsTsp, List.getD_eq_getElem?_getD]
  have hnv : F.tsp.nv = n := h2
  have hB : F.tsp.Bnd D := ⟨hD0, fun i j hi hj hij => by
    rw [hd i j hi hj]; rw [hnv] at hi hj; exact (hv i j hi hj hij).2, by rw [hnv]; exact hnD⟩
  have hP : F.tsp.Nonneg := fun i j hi hj hij => by
    rw [hd i j hi hj]; rw [hnv] at hi hj; exact (hv i j hi hj hij).1
  have hn1' : 1 < F.tsp.nv := by rw [hnv]; exact hn1
  have hlow : ∀ ls c, F.tsp.Tour ls c → -2147483647 ≤ c := fun ls c hc => by have := Tsp.tour_nonneg hn1' hP ls c hc; omega
  refine ⟨F, h1, tsp_search_ends F.tsp hn1' hB hlow w (by rw [hnv]; exact hdf) lim, fun k s hs hns => ?_⟩
  have := tsp_search_width F.tsp hn1' hB hlow hw1 (by rw [hnv]; exact hw2) hs hns
  have hT : F.tsp.Tour = (rowsTsp n vs).Tour := funext fun ls => funext fun c => propext (Tsp.tour_congr hn1' hnv hd ls c)
  rwa [hT] at this

/-- The instance the programs with depot 0 are given, if the distances read are those meant. -/
theorem tsp4_given {F : TFile} {u : Tsp4} (h2 : F.nv = u.nv) (hn1 : 1 ≤ u.nv) (hd : ∀ i j, i < u.nv → j < u.nv → dist u.nv F.d i j = some (u.d i j)) (hP : u.Nonneg) {D : Int} (hB : u.Bnd D) :
    F.tsp4.nv = u.nv ∧ F.tsp4.Nonneg ∧ F.tsp4.Bnd D ∧ F.tsp4.Tour = u.Tour := by
  have hnv : F.tsp4.nv = u.nv := h2
  have hd' : ∀ i j, i < F.tsp4.nv → j < F.tsp4.nv → F.tsp4.d i j = u.d i j := by
    intro i j hi hj
    rw [TFile.tsp4_d, h2, hd i j (hnv ▸ hi) (hnv ▸ hj)]
    rfl
  have hn1' : 1 ≤ F.tsp4.nv := by rw [hnv]; exact hn1
  exact ⟨hnv, fun i j hi hj => by rw [hd' i j hi hj]; rw [hnv] at hi hj; exact hP i j hi hj, ⟨hB.1, fun i j hi hj hij => by
    rw [hd' i j hi hj]; rw [hnv] at hi hj hij; exact hB.2.1 i j hi hj hij, by rw [hnv]; exact hB.2.2⟩,
    funext fun ls => funext fun c => propext (Tsp4.tour_congr hn1' hnv hd' ls c)⟩

theorem tsp4_solves {t : Tsp4} (hn1 : 1 ≤ t.nv) (hP : t.Nonneg) {D : Int} (hB : t.Bnd D) {J : Int} (hJ : ∀ ls c, t.Tour ls c → J ≤ c) {w dfuel : Nat} (hw1 : 1 ≤ w)
    (hw2 : tourWidth t.nv ≤ w) (hdf : t.nv + 2 ≤ dfuel) (lim : Nat → Bool) :
    Solves (t.mdl J) t.Tour w dfuel lim ∧ Solves (t.mdl2 J) t.Tour w dfuel lim ∧ Solves (t.mdl3 J) t.Tour w dfuel lim := by
  have h1 := tspv_search_ends t (u := 0) (J := J) hn1 hP hB w hdf lim
  have h2 := fun k => tspv_search_width_partial (u := 0) (dfuel := dfuel) (fuel := k) (lim := lim) hn1 hP hB hJ hw1 hw2
  exact ⟨⟨h1.1 _ (.inl rfl), fun k => (h2 k).1 _ (.inl rfl)⟩, ⟨h1.1 _ (.inr (.inr rfl)), fun k => (h2 k).1 _ (.inr (.inr rfl))⟩, h1.2, fun k => (h2 k).2⟩

/-- C128: the same for tsp_test2 and tsp_test3, which read the same way, if what they read at the root before setting it is at most the length
of every tour.  Missing: other values there (`tspv_root_false`). -/
theorem tsp23_program_partial {t r : List Char} {n : Nat} (h : TspHead t n r) (hn1 : 1 ≤ n) (hn : n ≤ 46340) {ws extra : List (List Char)} {vs : List Int}
    (hw : words r = ws ++ extra) (hN : Numerals ws vs) (hl : vs.length = n * n) {D : Int} (hP : (rowsTsp4 n vs).Nonneg) (hB : (rowsTsp4 n vs).Bnd D)
    {J : Int} (hJ : ∀ ls c, (rowsTsp4 n vs).Tour ls c → J ≤ c)
    {w dfuel fuel : Nat} (hw1 : 1 ≤ w) (hw2 : tourWidth n ≤ w) (hdf : n + 2 ≤ dfuel) (hf : t.length ≤ fuel) (lim : Nat → Bool) :
    ∃ F, readTsp fuel (Strm.opened t) = .ok F ∧ Solves (F.tsp4.mdl2 J) (rowsTsp4 n vs).Tour w dfuel lim ∧ Solves (F.tsp4.mdl3 J) (rowsTsp4 n vs).Tour w dfuel lim := by
  obtain ⟨F, h1, h2, h3⟩ := tsp_reads h (by omega) hn hw hN hl hf
  obtain ⟨k1, k2, k3, k4⟩ := tsp4_given (F := F) (u := rowsTsp4 n vs) h2 hn1 (fun i j hi hj => by
    rw [show (rowsTsp4 n vs).nv = n from rfl] at hi hj ⊢
    rw [h3 i j hi hj]
    simp only [rowsTsp4, List.getD_eq_getElem?_getD]
    rw [List.getElem?_eq_getElem (by have := cell_lt hi hj; omega)]
    rfl) hP hB
  have hnv : F.tsp4.nv = n := k1
  have := tsp4_solves (J := J) (by rw [hnv]; exact hn1) k2 k3 (by rw [k4]; exact hJ) hw1 (by rw [hnv]; exact hw2) (by rw [hnv]; exact hdf) lim
  rw [k4] at this
  exact ⟨F, h1, this.2⟩

/-- C128: and for tsp_test4, with a full matrix or a lower triangle, under the same condition on the root. -/
theorem tsp4_program_partial {t r : List Char} {n : Nat} {wf : WF} (h : Tsp4Head t n wf r) (hn1 : 1 ≤ n) (hn : n ≤ 46340) {ws extra : List (List Char)} {vs : List Int}
    (hw : words r = ws ++ extra) (hN : Numerals ws vs) {u : Tsp4} (hu : (wf = .full ∧ vs.length = n * n ∧ u = rowsTsp4 n vs) ∨ (wf = .lower ∧ vs.length = n * (n + 1) / 2 ∧ u = triTsp4 n vs))
    {D : Int} (hP : u.Nonneg) (hB : u.Bnd D) {J : Int} (hJ : ∀ ls c, u.Tour ls c → J ≤ c)
    {w dfuel fuel : Nat} (hw1 : 1 ≤ w) (hw2 : tourWidth n ≤ w) (hdf : n + 2 ≤ dfuel) (hf : t.length ≤ fuel) (lim : Nat → Bool) :
    ∃ F, readTsp4 fuel (Strm.opened t) = .ok F ∧ Solves (F.tsp4.mdl J) u.Tour w dfuel lim := by
  obtain ⟨r1, r2, _⟩ := tsp4_reads h (by omega) hn hw hN hf
  have key : ∃ F, readTsp4 fuel (Strm.opened t) = .ok F ∧ F.nv = n ∧ u.nv = n ∧ ∀ i j, i < n → j < n → dist n F.d i j = some (u.d i j) := by
    rcases hu with ⟨e1, e2, rfl⟩ | ⟨e1, e2, rfl⟩
    · obtain ⟨F, h1, h2, h3⟩ := r1 e1 e2
      refine ⟨F, h1, h2, rfl, fun i j hi hj => ?_⟩
      rw [h3 i j hi hj]
      simp only [rowsTsp4, List.getD_eq_getElem?_getD]
      rw [List.getElem?_eq_getElem (by have := cell_lt hi hj; omega)]
      rfl
    · obtain ⟨F, h1, h2, h3⟩ := r2 e1 e2
      have low : ∀ i j, j ≤ i → i < n → dist n F.d i j = some (vs.getD (i * (i + 1) / 2 + j) 0) := fun i j hj hi => by
        rw [(h3 i j hj hi).1, List.getD_eq_getElem?_getD, List.getElem?_eq_getElem (by
          have h5 := tri_lt hi hj
          have h6 : tri n = n * (n + 1) / 2 := rfl
          have h7 : tri i = i * (i + 1) / 2 := rfl
          omega)]
        rfl
      refine ⟨F, h1, h2, rfl, fun i j hi hj => ?_⟩
      by_cases hij : j ≤ i
      · rw [low i j hij hi, triTsp4]
        dsimp only
        rw [Nat.max_eq_left hij, Nat.min_eq_right hij]
      · have hji : i ≤ j := by omega
        rw [(h3 j i hji hj).2, low j i hji hj, triTsp4]
        dsimp only
        rw [Nat.max_eq_right hji, Nat.min_eq_left hji]
  obtain ⟨F, h1, h2, hnu, h3⟩ := key
  obtain ⟨k1, k2, k3, k4⟩ := tsp4_given (F := F) (u := u) (h2.trans hnu.symm) (by omega) (by rw [hnu]; exact h3) hP hB
  have hnv : F.tsp4.nv = n := k1.trans hnu
  have := tsp4_solves (J := J) (by rw [hnv]; exact hn1) k2 k3 (by rw [k4]; exact hJ) hw1 (by rw [hnv]; exact hw2) (by rw [hnv]; exact hdf) lim
  rw [k4] at this
  exact ⟨F, h1, this.1⟩

/-! ### Cases -/

theorem num0 : Numeral ['0'] 0 := numeral1 (v := 0) (by decide +kernel) (by decide +kernel)
theorem num1 : Numeral ['1'] 1 := numeral1 (v := 1) (by decide +kernel) (by decide +kernel)
theorem num2 : Numeral ['2'] 2 := numeral1 (v := 2) (by decide +kernel) (by decide +kernel)
theorem num3 : Numeral ['3'] 3 := numeral1 (v := 3) (by decide +kernel) (by decide +kernel)
theorem num4 : Numeral ['4'] 4 := numeral1 (v := 4) (by decide +kernel) (by decide +kernel)
theorem num5 : Numeral ['5'] 5 := numeral1 (v := 5) (by decide +kernel) (by decide +kernel)
theorem num6 : Numeral ['6'] 6 := numeral1 (v := 6) (by decide +kernel) (by decide +kernel)
theorem num9 : Numeral ['9'] 9 := numeral1 (v := 9) (by decide +kernel) (by decide +kernel)

/-- Three cities in a full matrix, in the layout of the files in data/atsp. -/
def threeRows : List Char := ['9', ' ', '1', ' ', '2', '\n', '3', ' ', '9', ' ', '4', '\n', '5', ' ', '6', ' ', '9', '\n', 'E', 'O', 'F', '\n']

theorem threeRows_words : words threeRows = [['9'], ['1'], ['2'], ['3'], ['9'], ['4'], ['5'], ['6'], ['9']] ++ [['E', 'O', 'F']] := by decide +kernel

theorem threeRows_nums : Numerals [['9'], ['1'], ['2'], ['3'], ['9'], ['4'], ['5'], ['6'], ['9']] [9, 1, 2, 3, 9, 4, 5, 6, 9] := by
  simp only [Numerals]
  exact ⟨num9, by decide, by decide, num1, by decide, by decide, num2, by decide, by decide, num3, by decide, by decide, num9, by decide, by decide,
    num4, by decide, by decide, num5, by decide, by decide, num6, by decide, by decide, num9, by decide, by decide, trivial⟩

/-- The whole file. -/
def threeFile : List Char :=
  ['N', 'A', 'M', 'E', ':', ' ', 'a'] ++ '\n' :: (['T', 'Y', 'P', 'E', ':', ' ', 'b'] ++ '\n' :: (['C', 'O', 'M', 'M', 'E', 'N', 'T', ':', ' ', 'c'] ++ '\n' :: (['D', 'I', 'M', 'E', 'N', 'S', 'I', 'O', 'N', ':', ' ', '3'] ++ '\n' :: (['E', 'D', 'G', 'E', '_', 'W', 'E', 'I', 'G', 'H', 'T', '_', 'T', 'Y', 'P', 'E', ':', ' ', 'E', 'X', 'P', 'L', 'I', 'C', 'I', 'T'] ++ '\n' :: (['E', 'D', 'G', 'E', '_', 'W', 'E', 'I', 'G', 'H', 'T', '_', 'S', 'E', 'C', 'T', 'I', 'O', 'N'] ++ '\n' :: threeRows)))))

theorem threeFile_head : TspHead threeFile 3 threeRows := by
  refine .tight (w := ['N', 'A', 'M', 'E', ':']) (ws := [['a']]) (h2 := [['T', 'Y', 'P', 'E', ':'], ['b']]) (h3 := [['C', 'O', 'M', 'M', 'E', 'N', 'T', ':'], ['c']]) (lab := ['D', 'I', 'M', 'E', 'N', 'S', 'I', 'O', 'N', ':']) (num := ['3']) (rest := [[['E', 'D', 'G', 'E', '_', 'W', 'E', 'I', 'G', 'H', 'T', '_', 'T', 'Y', 'P', 'E', ':'], ['E', 'X', 'P', 'L', 'I', 'C', 'I', 'T']]]) (sx := []) ?_ (by decide +kernel) ?_ (.inl num3)
  · exact .line (by decide +kernel) (by decide +kernel) (.line (by decide +kernel) (by decide +kernel) (.line (by decide +kernel) (by decide +kernel) (.line (by decide +kernel) (by decide +kernel) (.line (by decide +kernel) (by decide +kernel) (.line (by decide +kernel) (by decide +kernel) .done)))))
  · intro l hl
    simp only [List.mem_singleton] at hl
    subst hl
    decide +kernel

/-- It gives these distances. -/
example : ∃ F, readTsp 200 (Strm.opened threeFile) = .ok F ∧ F.nv = 3 ∧ dist 3 F.d 0 1 = some 1 ∧ dist 3 F.d 2 1 = some 6 := by
  obtain ⟨F, h1, h2, h3⟩ := tsp_reads threeFile_head (by decide) (by decide) threeRows_words threeRows_nums (by decide) (fuel := 200) (by decide +kernel)
  exact ⟨F, h1, h2, h3 0 1 (by decide) (by decide), h3 2 1 (by decide) (by decide)⟩

/-- And the shortest tour of its three cities with the width 2. -/
example (lim : Nat → Bool) : ∃ F, readTsp 200 (Strm.opened threeFile) = .ok F ∧ Solves F.tsp.mdl (rowsTsp 3 [9, 1, 2, 3, 9, 4, 5, 6, 9]).Tour 2 5 lim :=
  tsp_program threeFile_head (by decide) (by decide) threeRows_words threeRows_nums (by decide) (D := 6) (by decide) (by decide)
    (fun i j hi hj hij => (by decide : ∀ i, i < 3 → ∀ j, j < 3 → i ≠ j → 0 ≤ ([9, 1, 2, 3, 9, 4, 5, 6, 9] : List Int).getD (i * 3 + j) 0 ∧ ([9, 1, 2, 3, 9, 4, 5, 6, 9] : List Int).getD (i * 3 + j) 0 ≤ 6) i hi j hj hij)
    (by decide) (by decide +kernel) (by decide) (by decide +kernel) lim

theorem three_nonneg : (rowsTsp4 3 [9, 1, 2, 3, 9, 4, 5, 6, 9]).Nonneg := fun i j hi hj =>
  (by decide : ∀ i, i < 3 → ∀ j, j < 3 → 0 ≤ (rowsTsp4 3 [9, 1, 2, 3, 9, 4, 5, 6, 9]).d i j) i hi j hj

theorem three_bnd : (rowsTsp4 3 [9, 1, 2, 3, 9, 4, 5, 6, 9]).Bnd 9 := ⟨by decide, fun i j hi hj _ =>
  (by decide : ∀ i, i < 3 → ∀ j, j < 3 → (rowsTsp4 3 [9, 1, 2, 3, 9, 4, 5, 6, 9]).d i j ≤ 9) i hi j hj, by decide⟩

example (lim : Nat → Bool) : ∃ F, readTsp 200 (Strm.opened threeFile) = .ok F ∧ Solves (F.tsp4.mdl2 0) (rowsTsp4 3 [9, 1, 2, 3, 9, 4, 5, 6, 9]).Tour 2 5 lim ∧
    Solves (F.tsp4.mdl3 0) (rowsTsp4 3 [9, 1, 2, 3, 9, 4, 5, 6, 9]).Tour 2 5 lim :=
  tsp23_program_partial threeFile_head (by decide) (by decide) threeRows_words threeRows_nums (by decide) three_nonneg three_bnd
    (Tsp4.tour_nonneg _ (by decide) three_nonneg) (by decide) (by decide +kernel) (by decide) (by decide +kernel) lim

/-- The same header with the dimension -3, and nine numbers. -/
def negRows : List Char := ['9', ' ', '1', ' ', '2', '\n', '3', ' ', '9', ' ', '4', '\n', '5', ' ', '6', ' ', '9', '\n']
def negFile : List Char :=
  ['N', 'A', 'M', 'E', ':', ' ', 'a'] ++ '\n' :: (['T', 'Y', 'P', 'E', ':', ' ', 'b'] ++ '\n' :: (['C', 'O', 'M', 'M', 'E', 'N', 'T', ':', ' ', 'c'] ++ '\n' :: (['D', 'I', 'M', 'E', 'N', 'S', 'I', 'O', 'N', ':', ' ', '-', '3'] ++ '\n' :: (['E', 'D', 'G', 'E', '_', 'W', 'E', 'I', 'G', 'H', 'T', '_', 'T', 'Y', 'P', 'E', ':', ' ', 'E', 'X', 'P', 'L', 'I', 'C', 'I', 'T'] ++ '\n' :: (['E', 'D', 'G', 'E', '_', 'W', 'E', 'I', 'G', 'H', 'T', '_', 'S', 'E', 'C', 'T', 'I', 'O', 'N'] ++ '\n' :: negRows)))))

theorem negFile_head : TspHead negFile (2 ^ 64 - 3) negRows := by
  refine .tight (w := ['N', 'A', 'M', 'E', ':']) (ws := [['a']]) (h2 := [['T', 'Y', 'P', 'E', ':'], ['b']]) (h3 := [['C', 'O', 'M', 'M', 'E', 'N', 'T', ':'], ['c']]) (lab := ['D', 'I', 'M', 'E', 'N', 'S', 'I', 'O', 'N', ':']) (num := ['-', '3']) (rest := [[['E', 'D', 'G', 'E', '_', 'W', 'E', 'I', 'G', 'H', 'T', '_', 'T', 'Y', 'P', 'E', ':'], ['E', 'X', 'P', 'L', 'I', 'C', 'I', 'T']]]) (sx := []) ?_ (by decide +kernel) ?_
    (.inr ⟨3, by decide, by decide, ⟨['3'], by decide, by decide, .inr (.inl ⟨rfl, by decide⟩)⟩, rfl⟩)
  · exact .line (by decide +kernel) (by decide +kernel) (.line (by decide +kernel) (by decide +kernel) (.line (by decide +kernel) (by decide +kernel) (.line (by decide +kernel) (by decide +kernel) (.line (by decide +kernel) (by decide +kernel) (.line (by decide +kernel) (by decide +kernel) .done)))))
  · intro l hl
    simp only [List.mem_singleton] at hl
    subst hl
    decide +kernel

theorem negRows_nums : Numerals (words negRows) [9, 1, 2, 3, 9, 4, 5, 6, 9] := by
  rw [show words negRows = [['9'], ['1'], ['2'], ['3'], ['9'], ['4'], ['5'], ['6'], ['9']] by decide +kernel]
  exact threeRows_nums

example : readTsp 200 (Strm.opened negFile) = .ub := tsp_negative (k := 3) (by decide) (by decide) negFile_head negRows_nums (by decide) (by decide +kernel)

/-- With the colons apart the label before the numbers may be any word. -/
def looseFile : List Char :=
  ['N', 'A', 'M', 'E', ' ', ':', ' ', 'a'] ++ '\n' :: (['C', 'O', 'M', 'M', 'E', 'N', 'T', ' ', ':', ' ', 'c', ' ', 'd'] ++ '\n' :: (['T', 'Y', 'P', 'E', ' ', ':', ' ', 'b'] ++ '\n' :: (['D', 'I', 'M', 'E', 'N', 'S', 'I', 'O', 'N', ' ', ':', ' ', '3'] ++ '\n' :: (['E', 'D', 'G', 'E', '_', 'W', 'E', 'I', 'G', 'H', 'T', '_', 'T', 'Y', 'P', 'E', ' ', ':', ' ', 'E', 'X', 'P', 'L', 'I', 'C', 'I', 'T'] ++ '\n' :: (['X'] ++ '\n' :: threeRows)))))

theorem looseFile_head : TspHead looseFile 3 threeRows :=
  .loose (r' := ['X'] ++ '\n' :: threeRows) (e := ['X']) (w := ['N', 'A', 'M', 'E']) (c := [':']) (nm := ['a']) (x1 := ['C', 'O', 'M', 'M', 'E', 'N', 'T']) (x2 := [':']) (xs := [['c'], ['d']])
    (y1 := ['T', 'Y', 'P', 'E']) (y2 := [':']) (ys := [['b']]) (lab := ['D', 'I', 'M', 'E', 'N', 'S', 'I', 'O', 'N']) (c' := [':']) (num := ['3']) (z1 := ['E', 'D', 'G', 'E', '_', 'W', 'E', 'I', 'G', 'H', 'T', '_', 'T', 'Y', 'P', 'E']) (z2 := [':']) (zs := [['E', 'X', 'P', 'L', 'I', 'C', 'I', 'T']])
    (.line (by decide +kernel) (by decide +kernel) (.line (by decide +kernel) (by decide +kernel) (.line (by decide +kernel) (by decide +kernel) (.line (by decide +kernel) (by decide +kernel) (.line (by decide +kernel) (by decide +kernel) .done))))) (by decide +kernel) (.inl num3) (by decide +kernel)

example : ∃ F, readTsp 200 (Strm.opened looseFile) = .ok F ∧ F.nv = 3 ∧ dist 3 F.d 1 0 = some 3 := by
  obtain ⟨F, h1, h2, h3⟩ := tsp_reads looseFile_head (by decide) (by decide) threeRows_words threeRows_nums (by decide) (fuel := 200) (by decide +kernel)
  exact ⟨F, h1, h2, h3 1 0 (by decide) (by decide)⟩

/-- Three cities in a lower triangle, in the layout of data/tsp/gr17.tsp. -/
def threeTri : List Char := ['0', ' ', '1', '\n', '0', ' ', '2', ' ', '4', ' ', '0', '\n']

theorem threeTri_words : words threeTri = [['0'], ['1'], ['0'], ['2'], ['4'], ['0']] ++ [] := by decide +kernel

theorem threeTri_nums : Numerals [['0'], ['1'], ['0'], ['2'], ['4'], ['0']] [0, 1, 0, 2, 4, 0] := by
  simp only [Numerals]
  exact ⟨num0, by decide, by decide, num1, by decide, by decide, num0, by decide, by decide, num2, by decide, by decide, num4, by decide, by decide,
    num0, by decide, by decide, trivial⟩

/-- The whole file. -/
def triTspFile : List Char :=
  ['N', 'A', 'M', 'E', ':', ' ', 'a'] ++ '\n' :: (['T', 'Y', 'P', 'E', ':', ' ', 'b'] ++ '\n' :: (['C', 'O', 'M', 'M', 'E', 'N', 'T', ':', ' ', 'c'] ++ '\n' :: (['D', 'I', 'M', 'E', 'N', 'S', 'I', 'O', 'N', ':', ' ', '3'] ++ '\n' :: (['E', 'D', 'G', 'E', '_', 'W', 'E', 'I', 'G', 'H', 'T', '_', 'T', 'Y', 'P', 'E', ':', ' ', 'E', 'X', 'P', 'L', 'I', 'C', 'I', 'T'] ++ '\n' :: (['E', 'D', 'G', 'E', '_', 'W', 'E', 'I', 'G', 'H', 'T', '_', 'F', 'O', 'R', 'M', 'A', 'T', ':', ' ', 'L', 'O', 'W', 'E', 'R', '_', 'D', 'I', 'A', 'G', '_', 'R', 'O', 'W', ' '] ++ '\n' :: (['E', 'D', 'G', 'E', '_', 'W', 'E', 'I', 'G', 'H', 'T', '_', 'S', 'E', 'C', 'T', 'I', 'O', 'N'] ++ '\n' :: threeTri))))))

theorem triTspFile_head : Tsp4Head triTspFile 3 .lower threeTri :=
  .mk (l1 := ['N', 'A', 'M', 'E', ':', ' ', 'a']) (l2 := ['T', 'Y', 'P', 'E', ':', ' ', 'b']) (l3 := ['C', 'O', 'M', 'M', 'E', 'N', 'T', ':', ' ', 'c']) (l4 := ['D', 'I', 'M', 'E', 'N', 'S', 'I', 'O', 'N', ':', ' ', '3']) (k := ['D', 'I', 'M', 'E', 'N', 'S', 'I', 'O', 'N']) (r4 := [':', ' ', '3']) (a := [':']) (num := ['3']) (more := []) rfl (by decide +kernel) (by decide +kernel) (by decide +kernel)
    (by unfold Key; decide +kernel) (by decide +kernel) num3
    (.type (r := [':', ' ', 'E', 'X', 'P', 'L', 'I', 'C', 'I', 'T']) (a := [':']) (b := ['E', 'X', 'P', 'L', 'I', 'C', 'I', 'T']) (more := []) (by unfold Key; decide +kernel) (by decide +kernel)
      (.format (r := [':', ' ', 'L', 'O', 'W', 'E', 'R', '_', 'D', 'I', 'A', 'G', '_', 'R', 'O', 'W', ' ']) (a := [':']) (b := kLower) (more := []) (by unfold Key; decide +kernel) (by decide +kernel)
        (.sect (r := []) (by unfold Key; decide +kernel))))

/-- It gives these distances, in both directions. -/
example : ∃ F, readTsp4 200 (Strm.opened triTspFile) = .ok F ∧ F.nv = 3 ∧ dist 3 F.d 2 1 = some 4 ∧ dist 3 F.d 1 2 = some 4 := by
  obtain ⟨F, h1, h2, h3⟩ := (tsp4_reads triTspFile_head (by decide) (by decide) threeTri_words threeTri_nums (fuel := 200) (by decide +kernel)).2.1 rfl (by decide)
  have h4 := h3 2 1 (by decide) (by decide)
  exact ⟨F, h1, h2, h4.1, h4.2.trans h4.1⟩

theorem threeTri_nonneg : (triTsp4 3 [0, 1, 0, 2, 4, 0]).Nonneg := fun i j hi hj =>
  (by decide : ∀ i, i < 3 → ∀ j, j < 3 → 0 ≤ (triTsp4 3 [0, 1, 0, 2, 4, 0]).d i j) i hi j hj

theorem threeTri_bnd : (triTsp4 3 [0, 1, 0, 2, 4, 0]).Bnd 4 := ⟨by decide, fun i j hi hj _ =>
  (by decide : ∀ i, i < 3 → ∀ j, j < 3 → (triTsp4 3 [0, 1, 0, 2, 4, 0]).d i j ≤ 4) i hi j hj, by decide⟩

example (lim : Nat → Bool) : ∃ F, readTsp4 200 (Strm.opened triTspFile) = .ok F ∧ Solves (F.tsp4.mdl 0) (triTsp4 3 [0, 1, 0, 2, 4, 0]).Tour 2 5 lim :=
  tsp4_program_partial triTspFile_head (by decide) (by decide) threeTri_words threeTri_nums (.inr ⟨rfl, by decide, rfl⟩) threeTri_nonneg threeTri_bnd
    (Tsp4.tour_nonneg _ (by decide) threeTri_nonneg) (by decide) (by decide +kernel) (by decide) (by decide +kernel) lim

end Verif.Ex
