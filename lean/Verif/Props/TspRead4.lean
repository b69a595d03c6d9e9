import Verif.Props.TspRead
/-!
# C126: what the reader of tsp_test4 reads
-/
namespace Verif.Ex
open Verif.IO

/-! ### The triangle -/

/-- How many numbers the rows before row `k` take. -/
def tri (k : Nat) : Nat := k * (k + 1) / 2

theorem tri_succ (k : Nat) : tri (k + 1) = tri k + (k + 1) := by
  unfold tri
  rw [show (k + 1) * (k + 1 + 1) = k * (k + 1) + 2 * (k + 1) by rw [Nat.mul_add (k + 1), Nat.mul_comm (k + 1) (k + 1), Nat.add_mul]; omega]
  omega

theorem tri_mono {i k : Nat} (h : i ≤ k) : tri i ≤ tri k := by
  unfold tri
  exact Nat.div_le_div_right (Nat.mul_le_mul h (by omega))

/-- The rounds of the first `k` rows. -/
def lowerRows (k : Nat) : List (List (Nat × Nat)) := (List.range k).flatMap fun i => (List.range i).map (fun j => [(i, j), (j, i)]) ++ [[(i, i)]]

theorem lowerRows_succ (k : Nat) : lowerRows (k + 1) = lowerRows k ++ ((List.range k).map (fun j => [(k, j), (j, k)]) ++ [[(k, k)]]) := by
  unfold lowerRows
  rw [List.range_succ, List.flatMap_append, List.flatMap_cons, List.flatMap_nil, List.append_nil]

theorem lowerRows_length : ∀ k, (lowerRows k).length = tri k := by
  intro k
  induction k with
  | zero => rfl
  | succ k ih => rw [lowerRows_succ, List.length_append, ih, tri_succ]; simp

theorem lowerRows_get : ∀ (k q : Nat) (ps : List (Nat × Nat)), (lowerRows k)[q]? = some ps → ∃ i j, j ≤ i ∧ i < k ∧ q = tri i + j ∧ ∀ p, p ∈ ps → p = (i, j) ∨ p = (j, i) := by
  intro k
  induction k with
  | zero => intro q ps h; simp [lowerRows] at h
  | succ k ih =>
    intro q ps h
    rw [lowerRows_succ] at h
    by_cases hq : q < tri k
    · rw [List.getElem?_append_left (by rw [lowerRows_length]; exact hq)] at h
      obtain ⟨i, j, h1, h2, h3, h4⟩ := ih q ps h
      exact ⟨i, j, h1, by omega, h3, h4⟩
    · rw [List.getElem?_append_right (by rw [lowerRows_length]; omega), lowerRows_length] at h
      by_cases hk : q - tri k < k
      · rw [List.getElem?_append_left (by simpa using hk), List.getElem?_map, List.getElem?_range hk] at h
        simp at h
        subst h
        exact ⟨k, q - tri k, by omega, by omega, by omega, fun p hp => by simpa using hp⟩
      · rw [List.getElem?_append_right (by simpa using Nat.le_of_not_lt hk)] at h
        simp only [List.length_map, List.length_range] at h
        have he : q - tri k - k = 0 := by
          cases hz : q - tri k - k with
          | zero => rfl
          | succ z => rw [hz] at h; simp at h
        rw [he] at h
        simp at h
        subst h
        exact ⟨k, k, by omega, by omega, by omega, fun p hp => by simp at hp; exact .inl hp⟩

theorem lowerRows_mem {i j : Nat} : ∀ {k : Nat}, i < k → j < k → ∃ ps, ps ∈ lowerRows k ∧ (i, j) ∈ ps := by
  intro k hi hj
  unfold lowerRows
  by_cases h1 : j < i
  · exact ⟨_, List.mem_flatMap.2 ⟨i, List.mem_range.2 hi, List.mem_append_left _ (List.mem_map.2 ⟨j, List.mem_range.2 h1, rfl⟩)⟩, by simp⟩
  · by_cases h2 : i < j
    · exact ⟨_, List.mem_flatMap.2 ⟨j, List.mem_range.2 hj, List.mem_append_left _ (List.mem_map.2 ⟨i, List.mem_range.2 h2, rfl⟩)⟩, by simp⟩
    · have : i = j := by omega
      subst this
      exact ⟨_, List.mem_flatMap.2 ⟨i, List.mem_range.2 hi, List.mem_append_right _ (List.mem_singleton.2 rfl)⟩, by simp⟩

theorem tri_lt {i j n : Nat} (hi : i < n) (hj : j ≤ i) : tri i + j < tri n := by
  have h1 := tri_succ i
  have h2 := tri_mono (show i + 1 ≤ n from hi)
  omega

theorem lower_fits {n : Nat} {vs : List Int} (hl : vs.length = tri n) : Fits n (fun i j => vs.getD (tri (max i j) + min i j) 0) (lowerRounds n) vs := by
  refine fits_get _ _ (by rw [show lowerRounds n = lowerRows n from rfl, lowerRows_length]; omega) fun k ps hk p hp => ?_
  obtain ⟨i, j, h1, h2, h3, h4⟩ := lowerRows_get n k ps hk
  have hlt := tri_lt h2 h1
  have hg : vs[k]? = some (vs.getD (tri i + j) 0) := by
    rw [h3, List.getD_eq_getElem?_getD, List.getElem?_eq_getElem (by omega)]
    rfl
  rcases h4 p hp with rfl | rfl
  · refine ⟨h2, by dsimp only; omega, ?_⟩
    rw [hg]
    dsimp only
    rw [Nat.max_eq_left h1, Nat.min_eq_right h1]
  · refine ⟨by dsimp only; omega, h2, ?_⟩
    rw [hg]
    dsimp only
    rw [Nat.max_eq_right h1, Nat.min_eq_left h1]

/-! ### Labels -/

/-- The line is the label `k` and then `r`, which is empty or begins with white space or a colon. -/
def Key (l k r : List Char) : Prop :=
  l = k ++ r ∧ '\n' ∉ l ∧ (∀ c, c ∈ k → isWs c = false ∧ c ≠ ':') ∧ ∀ c, r.head? = some c → isWs c = true ∨ c = ':'

theorem inLabel_true {c : Char} : inLabel c = true ↔ isWs c = false ∧ c ≠ ':' := by simp [inLabel]

theorem inLabel_false {c : Char} : inLabel c = false ↔ isWs c = true ∨ c = ':' := by
  unfold inLabel
  cases isWs c <;> simp

theorem label_key {l k r : List Char} (h : Key l k r) (t : List Char) : readLabel (Strm.opened (l ++ '\n' :: t)) = some (k, Strm.opened (r ++ '\n' :: t)) := by
  obtain ⟨rfl, _, h1', h2'⟩ := h
  have h1 : ∀ c, c ∈ k → inLabel c = true := fun c hc => inLabel_true.2 (h1' c hc)
  have h2 : ∀ c, r.head? = some c → inLabel c = false := fun c hc => inLabel_false.2 (h2' c hc)
  have hd : (r ++ '\n' :: t).dropWhile inLabel = r ++ '\n' :: t ∧ (r ++ '\n' :: t).takeWhile inLabel = [] := by
    cases r with
    | nil => exact ⟨List.dropWhile_cons_of_neg (by decide), List.takeWhile_cons_of_neg (by decide)⟩
    | cons c r =>
      have := h2 c rfl
      exact ⟨List.dropWhile_cons_of_neg (by simp [this]), List.takeWhile_cons_of_neg (by simp [this])⟩
  unfold readLabel Strm.opened
  simp only [Bool.false_eq_true, if_false]
  rw [List.append_assoc, List.dropWhile_append_of_pos h1, List.takeWhile_append_of_pos h1, hd.1, hd.2, List.append_nil]
  cases r <;> rfl

theorem Key.rest {l k r : List Char} (h : Key l k r) : '\n' ∉ r := fun hr => h.2.1 (by rw [h.1]; exact List.mem_append_right _ hr)

/-- Every line has a label. -/
theorem key_ex {l : List Char} (h : '\n' ∉ l) : ∃ k r, Key l k r := by
  refine ⟨l.takeWhile inLabel, l.dropWhile inLabel, List.takeWhile_append_dropWhile.symm, h, fun c hc => ?_,
    fun c hc => inLabel_false.1 (dropWhile_head _ l c hc)⟩
  exact inLabel_true.1 (List.all_eq_true.1 (List.all_takeWhile (p := inLabel) (l := l)) c hc)

theorem skip_nl {l : List Char} (h : '\n' ∉ l) (t : List Char) : skipLine (Strm.opened (l ++ '\n' :: t)) = some (Strm.opened t) := by
  obtain ⟨k, r, hk⟩ := key_ex h
  unfold skipLine
  rw [label_key hk t]
  simp only [Option.map_some]
  rw [line_nl hk.rest t]

/-- What is left of a line after some of its words has the empty label. -/
theorem key_tail {l : List Char} (h : '\n' ∉ l) : Key (tail1 l) [] (tail1 l) := by
  refine ⟨rfl, fun hh => h (tail1_sub hh), fun c hc => by simp at hc, fun c hc => ?_⟩
  exact .inl (tail1_head l c hc)

/-- Entries up to EDGE_WEIGHT_SECTION, which change the format from `wf` to `wf'`; then `u` follows. -/
inductive Opts (u : List Char) : List Char → WF → WF → Prop
  | sect {l r : List Char} {wf : WF} : Key l kSection r → Opts u (l ++ '\n' :: u) wf wf
  | type {l r a b t : List Char} {more : List (List Char)} {wf wf' : WF} : Key l kType r → words r = a :: b :: more → Opts u t wf wf' → Opts u (l ++ '\n' :: t) wf wf'
  | format {l r a b t : List Char} {more : List (List Char)} {wf wf' : WF} : Key l kFormat r → words r = a :: b :: more → Opts u t (convertWF b) wf' →
      Opts u (l ++ '\n' :: t) wf wf'
  | other {l k r t : List Char} {wf wf' : WF} : Key l k r → k ≠ kSection → k ≠ kType → k ≠ kFormat → Opts u t wf wf' → Opts u (l ++ '\n' :: t) wf wf'

theorem sect4_blank {l : List Char} (h : Key l [] l) (t : List Char) (fuel : Nat) (wf : WF) : sect4 (fuel + 1) (Strm.opened (l ++ '\n' :: t)) wf = sect4 fuel (Strm.opened t) wf := by
  rw [sect4, label_key h t]
  dsimp only
  rw [if_neg (by decide), if_neg (by decide), if_neg (by decide), line_nl h.rest t]

theorem opts_reads {u t : List Char} {wf wf' : WF} (h : Opts u t wf wf') : ∀ fuel, t.length ≤ fuel → sect4 fuel (Strm.opened t) wf = .ok (Strm.opened u, wf') := by
  induction h with
  | @sect l r wf hk =>
    intro fuel hf
    cases fuel with
    | zero => simp at hf
    | succ fuel =>
      rw [sect4, label_key hk]
      dsimp only
      rw [if_neg (by decide), if_neg (by decide), if_pos rfl, line_nl hk.rest]
  | @type l r a b t more wf wf' hk hw _ ih =>
    intro fuel hf
    have hl : 16 ≤ l.length := by rw [hk.1]; simp [kType]
    rw [List.length_append, List.length_cons] at hf
    obtain ⟨f, rfl⟩ : ∃ f, fuel = f + 2 := ⟨fuel - 2, by omega⟩
    have hw2 := words_tail1 hw
    rw [sect4, label_key hk]
    dsimp only
    rw [if_pos rfl, word_nl hw]
    dsimp only
    rw [word_nl hw2]
    dsimp only
    rw [sect4_blank (key_tail fun hh => hk.rest (tail1_sub hh))]
    exact ih f (by omega)
  | @format l r a b t more wf wf' hk hw _ ih =>
    intro fuel hf
    have hl : 16 ≤ l.length := by rw [hk.1]; simp [kFormat]
    rw [List.length_append, List.length_cons] at hf
    obtain ⟨f, rfl⟩ : ∃ f, fuel = f + 2 := ⟨fuel - 2, by omega⟩
    have hw2 := words_tail1 hw
    rw [sect4, label_key hk]
    dsimp only
    rw [if_neg (by decide), if_pos rfl, word_nl hw]
    dsimp only
    rw [word_nl hw2]
    dsimp only [Option.getD_some]
    rw [sect4_blank (key_tail fun hh => hk.rest (tail1_sub hh))]
    exact ih f (by omega)
  | @other l k r t wf wf' hk h1 h2 h3 _ ih =>
    intro fuel hf
    rw [List.length_append, List.length_cons] at hf
    obtain ⟨f, rfl⟩ : ∃ f, fuel = f + 1 := ⟨fuel - 1, by omega⟩
    rw [sect4, label_key hk]
    dsimp only
    rw [if_neg h2, if_neg h3, if_neg h1, line_nl hk.rest]
    exact ih f (by omega)

/-- A header tsp_test4 can read: any three lines, a line of a label, a word and the number of cities, and entries
at the beginning of their lines; `r` follows. -/
inductive Tsp4Head (t : List Char) (n : Nat) (wf : WF) (r : List Char) : Prop
  | mk {l1 l2 l3 l4 k r4 a num t5 : List Char} {more : List (List Char)} (text : t = l1 ++ '\n' :: (l2 ++ '\n' :: (l3 ++ '\n' :: (l4 ++ '\n' :: t5))))
      (n1 : '\n' ∉ l1) (n2 : '\n' ∉ l2) (n3 : '\n' ∉ l3) (dim : Key l4 k r4) (dims : words r4 = a :: num :: more) (size : Numeral num n)
      (opts : Opts r t5 .fna wf)

theorem head4_reads {t r : List Char} {n : Nat} {wf : WF} (h : Tsp4Head t n wf r) (h0 : 0 < n) (h1 : n < 2 ^ 64) {fuel : Nat} (hf : t.length ≤ fuel) :
    readTsp4 fuel (Strm.opened t) = readMat (rounds4 wf) (some n) (Strm.opened r) := by
  obtain ⟨rfl, n1, n2, n3, dim, dims, size, opts⟩ := h
  rename_i l1 l2 l3 l4 k r4 a num t5 more
  have hw2 := words_tail1 dims
  simp only [List.length_append, List.length_cons] at hf
  obtain ⟨f, rfl⟩ : ∃ f, fuel = f + 1 := ⟨fuel - 1, by omega⟩
  unfold readTsp4
  rw [skip_nl n1]
  simp only [Option.bind_some]
  rw [skip_nl n2]
  simp only [Option.bind_some]
  rw [skip_nl n3]
  simp only
  rw [label_key dim]
  simp only
  rw [word_nl dims]
  simp only
  rw [size_nl hw2 size h0 h1]
  simp only
  rw [sect4_blank (key_tail fun hh => dim.rest (tail1_sub hh)), opts_reads opts f (by omega)]

theorem opened_past {u : List Char} {ws extra : List (List Char)} {vs : List Int} (hw : words u = ws ++ extra) (hN : Numerals ws vs) (h : 0 < vs.length) :
    Strm.opened u = Strm.past u := by
  rw [past_opened]
  rw [hw]
  intro e
  have hlen := numerals_length hN
  rw [(List.append_eq_nil_iff.1 e).1] at hlen
  simp at hlen
  omega

/-- C126: from a text with a header it can read, tsp_test4 reads the full matrix or the lower triangle the header announces; the
triangle gives a symmetric matrix.  With any other format, or none, it prints distances nobody set. -/
theorem tsp4_reads {t r : List Char} {n : Nat} {wf : WF} (h : Tsp4Head t n wf r) (h0 : 0 < n) (hn : n ≤ 46340) {ws extra : List (List Char)} {vs : List Int}
    (hw : words r = ws ++ extra) (hN : Numerals ws vs) {fuel : Nat} (hf : t.length ≤ fuel) :
    (wf = .full → vs.length = n * n → ∃ F, readTsp4 fuel (Strm.opened t) = .ok F ∧ F.nv = n ∧ ∀ i j, i < n → j < n → dist n F.d i j = vs[i * n + j]?) ∧
    (wf = .lower → vs.length = n * (n + 1) / 2 → ∃ F, readTsp4 fuel (Strm.opened t) = .ok F ∧ F.nv = n ∧
      ∀ i j, j ≤ i → i < n → dist n F.d i j = vs[i * (i + 1) / 2 + j]? ∧ dist n F.d j i = dist n F.d i j) ∧
    (wf = .fna → readTsp4 fuel (Strm.opened t) = .ub) := by
  have hr := head4_reads h h0 (by omega) hf
  refine ⟨fun hwf hl => ?_, fun hwf hl => ?_, fun hwf => ?_⟩
  · subst hwf
    rw [hr, opened_past hw hN (by rw [hl]; exact Nat.mul_pos h0 h0)]
    obtain ⟨F, a1, a2, a3⟩ := readMat_ok (T := fun i j => vs.getD (i * n + j) 0) (rounds := rounds4 .full) (u := r) h0 hn (full_fits hl) (fun i j hi hj => full_mem hi hj) hw hN
    refine ⟨F, a1, a2, fun i j hi hj => ?_⟩
    rw [a3 i j hi hj, List.getD_eq_getElem?_getD, List.getElem?_eq_getElem (by have := cell_lt hi hj; omega)]
    rfl
  · subst hwf
    have hl : vs.length = tri n := hl
    have hpos : 0 < tri n := by have := tri_lt h0 (Nat.le_refl 0); omega
    rw [hr, opened_past hw hN (by omega)]
    obtain ⟨F, a1, a2, a3⟩ := readMat_ok (T := fun i j => vs.getD (tri (max i j) + min i j) 0) (rounds := rounds4 .lower) (u := r) h0 hn (lower_fits hl)
      (fun i j hi hj => lowerRows_mem hi hj) hw hN
    refine ⟨F, a1, a2, fun i j hj hi => ?_⟩
    have hlt := tri_lt hi hj
    rw [a3 i j hi (by omega), a3 j i (by omega) hi, Nat.max_eq_left hj, Nat.min_eq_right hj, Nat.max_eq_right hj, Nat.min_eq_left hj]
    refine ⟨?_, rfl⟩
    show _ = vs[tri i + j]?
    rw [List.getD_eq_getElem?_getD, List.getElem?_eq_getElem (by omega)]
    rfl
  · subst hwf
    rw [hr]
    unfold readMat
    dsimp only
    have hm := newMat_sized h0 hn
    have : allSet n (newMat n) = false := by
      cases hb : allSet n (newMat n) with
      | false => rfl
      | true =>
        have := allSet_iff.1 hb 0 0 h0 h0
        have hd : dist n (newMat n) 0 0 = none := by
          unfold dist
          rw [cellAt_eq hn h0 h0]
          unfold newMat FArr.mk'
          rw [prodOf_sq hn]
          have hp := Nat.mul_pos h0 h0
          simp [FArr.get, hp]
        rw [hd] at this
        cases this
    rw [show rounds4 .fna n = [] from rfl, fillCells]
    unfold finish
    dsimp only
    rw [this]
    rfl

theorem sect4_stuck {s : Strm} (h1 : s.eof = true) (h2 : s.fail = true) : ∀ fuel wf, sect4 fuel s wf = .more := by
  intro fuel
  induction fuel with
  | zero => intro wf; rfl
  | succ fuel ih =>
    intro wf
    have : readLabel s = some ([Char.ofNat 255], s) := by
      unfold readLabel
      rw [if_pos h1]
      cases s
      simp at h2
      subst h2
      rfl
    rw [sect4, this]
    dsimp only
    rw [if_neg (by decide), if_neg (by decide), if_neg (by decide), (word_stuck h2).2]
    exact ih wf

/-- Lines none of which has the label EDGE_WEIGHT_SECTION, to the end of the file. -/
inductive NoSect : List Char → Prop
  | done : NoSect []
  | entry {l k r a b t : List Char} {more : List (List Char)} : Key l k r → k = kType ∨ k = kFormat → words r = a :: b :: more → NoSect t → NoSect (l ++ '\n' :: t)
  | other {l k r t : List Char} : Key l k r → k ≠ kSection → k ≠ kType → k ≠ kFormat → NoSect t → NoSect (l ++ '\n' :: t)

theorem sect4_none {t : List Char} (h : NoSect t) : ∀ fuel wf, sect4 fuel (Strm.opened t) wf = .more := by
  induction h with
  | done =>
    intro fuel wf
    cases fuel with
    | zero => rfl
    | succ fuel =>
      rw [sect4]
      have : readLabel (Strm.opened []) = some ([Char.ofNat 255], ⟨[], true, true⟩) := rfl
      rw [this]
      dsimp only
      rw [if_neg (by decide), if_neg (by decide), if_neg (by decide)]
      exact sect4_stuck rfl rfl fuel wf
  | @entry l k r a b t more hk hor hw _ ih =>
    intro fuel wf
    have hw2 := words_tail1 hw
    have key : ∀ f wf, sect4 f (Strm.opened (tail1 (tail1 r) ++ '\n' :: t)) wf = .more := by
      intro f wf
      cases f with
      | zero => rfl
      | succ f => rw [sect4_blank (key_tail fun hh => hk.rest (tail1_sub hh))]; exact ih f wf
    cases fuel with
    | zero => rfl
    | succ fuel =>
      rw [sect4, label_key hk]
      dsimp only
      rw [word_nl hw]
      dsimp only
      rw [word_nl hw2]
      dsimp only
      rcases hor with rfl | rfl
      · rw [if_pos rfl]; exact key _ _
      · rw [if_neg (by decide), if_pos rfl]; exact key _ _
  | @other l k r t hk h1 h2 h3 _ ih =>
    intro fuel wf
    cases fuel with
    | zero => rfl
    | succ fuel =>
      rw [sect4, label_key hk]
      dsimp only
      rw [if_neg h2, if_neg h3, if_neg h1, line_nl hk.rest]
      exact ih fuel wf

/-- C126, files it cannot read: without a file, and if no line is labelled EDGE_WEIGHT_SECTION (as in a file of coordinates), the
reader runs for ever. -/
theorem tsp4_unreadable :
    (∀ fuel, readTsp4 fuel Strm.missing = .more) ∧
    (∀ (l1 l2 l3 l4 k r4 a num t5 : List Char) (more : List (List Char)) (n : Nat), '\n' ∉ l1 → '\n' ∉ l2 → '\n' ∉ l3 → Key l4 k r4 → words r4 = a :: num :: more →
      Numeral num n → 0 < n → n < 2 ^ 64 → NoSect t5 →
      ∀ fuel, readTsp4 fuel (Strm.opened (l1 ++ '\n' :: (l2 ++ '\n' :: (l3 ++ '\n' :: (l4 ++ '\n' :: t5))))) = .more) := by
  refine ⟨fun fuel => rfl, ?_⟩
  intro l1 l2 l3 l4 k r4 a num t5 more n n1 n2 n3 dim dims size h0 h1 hno fuel
  have hw2 := words_tail1 dims
  unfold readTsp4
  rw [skip_nl n1]
  simp only [Option.bind_some]
  rw [skip_nl n2]
  simp only [Option.bind_some]
  rw [skip_nl n3]
  simp only
  rw [label_key dim]
  simp only
  rw [word_nl dims]
  simp only
  rw [size_nl hw2 size h0 h1]
  simp only
  cases fuel with
  | zero => rfl
  | succ fuel =>
    rw [sect4_blank (key_tail fun hh => dim.rest (tail1_sub hh)), sect4_none hno]

end Verif.Ex
