import Verif.KnapRead
import Verif.Props.KnapsackS
import Verif.Props.MSort
/-!
# C115, C116: what the knapsack examples read from a file
-/
namespace Verif.Ex
open Verif.IO

/-- Profit and weight of every item, in the order of the file. -/
def flatItems (its : List Item) : List Int := its.flatMap (fun x => [x.p, x.w])

theorem knapLoop_reads {n : Nat} : ∀ (its : List Item) (u : List Char) (ws extra : List (List Char)) (count fuel : Nat) (ps qs : List Int),
    words u = ws ++ extra → Numerals ws (flatItems its) → count + its.length = n → its.length < fuel →
    knapLoop n fuel (Strm.past u) count ps qs = .ok (ps ++ its.map (·.p), qs ++ its.map (·.w)) := by
  intro its
  induction its with
  | nil =>
    intro u ws extra count fuel ps qs _ _ hc hf
    simp only [List.length_nil] at hc hf
    obtain ⟨f, rfl⟩ : ∃ f, fuel = f + 1 := ⟨fuel - 1, by omega⟩
    rw [knapLoop]
    by_cases he : (Strm.past u).eof = true
    · simp [he]
    · simp only [Bool.not_eq_true] at he
      simp only [he, Bool.false_eq_true, if_false]
      rw [if_pos (by omega)]
      simp
  | cons x its ih =>
    intro u ws extra count fuel ps qs hw hn hc hf
    simp only [List.length_cons] at hc hf
    obtain ⟨f, rfl⟩ : ∃ f, fuel = f + 1 := ⟨fuel - 1, by omega⟩
    simp only [flatItems, List.flatMap_cons, List.cons_append, List.nil_append] at hn
    match ws, hn with
    | w1 :: w2 :: ws', hn =>
      obtain ⟨n1, a1, b1, n2, a2, b2, hn'⟩ := hn
      simp only [List.cons_append] at hw
      have h1 := int_word hw n1 a1 b1
      have hw2 := (sentry_word hw).2.1
      have h2 := int_word hw2 n2 a2 b2
      have hw3 := (sentry_word hw2).2.1
      have he : (Strm.past u).eof = false := by rw [past_opened (by rw [hw]; simp)]; rfl
      rw [knapLoop]
      simp only [he, Bool.false_eq_true, if_false]
      rw [if_neg (by omega), h1]
      dsimp only
      rw [h2]
      dsimp only
      rw [ih _ ws' extra (count + 1) f _ _ hw3 hn' (by omega) (by omega)]
      simp

/-- C115: knapsack.cpp reads every file that gives the number of items, the capacity, and profit and weight of that many items, as
decimal numerals separated by any white space and followed by anything: it gets these very numbers. -/
theorem knap_reads {t : List Char} {ws extra : List (List Char)} {capa : Int} {its : List Item} (hw : words t = ws ++ extra)
    (hn : Numerals ws (its.length :: capa :: flatItems its)) {fuel : Nat} (hf : its.length < fuel) :
    readKnap fuel (Strm.opened t) = .ok ⟨its.length, capa, its.map (·.p), its.map (·.w)⟩ := by
  match ws, hn with
  | w1 :: w2 :: ws', hn =>
    obtain ⟨n1, a1, b1, n2, a2, b2, hn'⟩ := hn
    simp only [List.cons_append] at hw
    have h1 := int_opened hw n1 a1 b1
    have hw2 := (sentry_word hw).2.1
    have h2 := int_word hw2 n2 a2 b2
    have hw3 := (sentry_word hw2).2.1
    unfold readKnap
    simp only [h1, h2]
    rw [knapLoop_reads its _ ws' extra 0 fuel [] [] hw3 hn' (by omega) hf]
    simp

/-- C115, C113 together: on such a file, the program started with a width above the capacity ends with a best packing of the items
in the file. -/
theorem knap_program {t : List Char} {ws extra : List (List Char)} {capa : Int} {its : List Item} (hw : words t = ws ++ extra)
    (hn : Numerals ws (its.length :: capa :: flatItems its)) (h0 : its ≠ []) (hc : 0 ≤ capa) (hpos : ∀ x, x ∈ its → 0 ≤ x.w ∧ 0 ≤ x.p)
    (hP : (its.map (·.p)).sum ≤ 2147483647) {rfuel : Nat} (hf : its.length < rfuel) :
    ∃ f, readKnap rfuel (Strm.opened t) = .ok f ∧ ∀ {w dfuel fuel : Nat} {lim : Nat → Bool} {s : BB.BS (Nat × Int)}, capa < w →
      BB.search f.knap.mdl w dfuel lim fuel (-2147483647) = some s → s.stopped = false →
      s.inc.length = its.length ∧ (∀ x, x ∈ s.inc → x = 0 ∨ x = 1) ∧ (Knap.ofItems capa its).Packing s.inc s.primal ∧ (Knap.ofItems capa its).Best s.primal := by
  refine ⟨_, knap_reads hw hn hf, ?_⟩
  intro w dfuel fuel lim s hR h hns
  have hk : (KFile.mk its.length capa (its.map (·.p)) (its.map (·.w))).knap = Knap.ofItems capa its := by
    unfold KFile.knap Knap.ofItems
    simp only [Knap.mk.injEq, true_and]
    refine ⟨rfl, ?_, ?_⟩ <;>
    · funext i
      rw [List.getD_eq_getElem?_getD, List.getD_eq_getElem?_getD, List.getElem?_map]
      cases its[i]? <;> rfl
  rw [hk] at h
  have hg : ∀ i, 0 ≤ (its.getD i ⟨1, 0⟩).w ∧ 0 ≤ (its.getD i ⟨1, 0⟩).p := by
    intro i
    rw [List.getD_eq_getElem?_getD]
    by_cases hi : i < its.length
    · rw [List.getElem?_eq_getElem hi]; exact hpos _ (List.getElem_mem hi)
    · rw [List.getElem?_eq_none (by omega)]; decide
  have hsum : ∀ (l pre : List Item), (Knap.ofItems capa (pre ++ l)).sumP l.length pre.length = (l.map (·.p)).sum := by
    intro l
    induction l with
    | nil => intro pre; rfl
    | cons x l ih =>
      intro pre
      have := ih (pre ++ [x])
      simp only [List.append_assoc, List.singleton_append, List.length_append, List.length_singleton] at this
      simp only [List.length_cons, Knap.sumP, this, List.map_cons, List.sum_cons]
      congr 1
      simp [Knap.ofItems]
  have hS := hsum its []
  simp only [List.nil_append, List.length_nil] at hS
  obtain ⟨h1, h2⟩ := knap_search_room (Knap.ofItems capa its) (fun i => (hg i).1) (fun i => (hg i).2)
    (by show 0 < its.length; exact List.length_pos_iff.2 h0) hc (by show Knap.sumP _ its.length 0 ≤ _; rw [hS]; exact hP) hR h hns
  exact ⟨h2.1, h2.2.1, h2, h1⟩

/-- "3 20" and three items, then the solution row of the data files. -/
def kfile : List Char := ['3', ' ', '2', '0', '\n', '9', ' ', '1', '1', '\n', '7', '\t', '8', '\n', '6', ' ', '1', '2', '\n', '1', ' ', '0', ' ', '1', '\n']

/-- Such a file. -/
example : readKnap 10 (Strm.opened kfile) = .ok ⟨3, 20, [9, 7, 6], [11, 8, 12]⟩ :=
  knap_reads (its := [⟨11, 9⟩, ⟨8, 7⟩, ⟨12, 6⟩]) (ws := [['3'], ['2', '0'], ['9'], ['1', '1'], ['7'], ['8'], ['6'], ['1', '2']]) (extra := [['1'], ['0'], ['1']])
    (by decide) ⟨⟨['3'], by decide, by decide, .inl ⟨rfl, by decide⟩⟩, by decide, by decide, ⟨['2', '0'], by decide, by decide, .inl ⟨rfl, by decide⟩⟩, by decide, by decide,
      ⟨['9'], by decide, by decide, .inl ⟨rfl, by decide⟩⟩, by decide, by decide, ⟨['1', '1'], by decide, by decide, .inl ⟨rfl, by decide⟩⟩, by decide, by decide,
      ⟨['7'], by decide, by decide, .inl ⟨rfl, by decide⟩⟩, by decide, by decide, ⟨['8'], by decide, by decide, .inl ⟨rfl, by decide⟩⟩, by decide, by decide,
      ⟨['6'], by decide, by decide, .inl ⟨rfl, by decide⟩⟩, by decide, by decide, ⟨['1', '2'], by decide, by decide, .inl ⟨rfl, by decide⟩⟩, by decide, by decide, trivial⟩ (by decide)

/-! ### C116: knapsack2.cpp -/

theorem knapLoop2_reads {n : Nat} : ∀ (its : List Item) (u : List Char) (ws extra : List (List Char)) (count fuel : Nat) (done : List Item),
    words u = ws ++ extra → Numerals ws (flatItems its) → count + its.length = n → its.length < fuel →
    knapLoop2 n fuel (Strm.past u) count done = if after (2 * its.length) u = [] then .ok (done ++ its) else .ub := by
  intro its
  induction its with
  | nil =>
    intro u ws extra count fuel done _ _ hc hf
    simp only [List.length_nil] at hc hf
    obtain ⟨f, rfl⟩ : ∃ f, fuel = f + 1 := ⟨fuel - 1, by omega⟩
    rw [knapLoop2]
    cases u with
    | nil => simp [Strm.past, after]
    | cons c u =>
      have he : (Strm.past (c :: u)).eof = false := rfl
      simp only [he, Bool.false_eq_true, if_false]
      rw [if_pos (by omega)]
      simp [after]
  | cons x its ih =>
    intro u ws extra count fuel done hw hn hc hf
    simp only [List.length_cons] at hc hf
    obtain ⟨f, rfl⟩ : ∃ f, fuel = f + 1 := ⟨fuel - 1, by omega⟩
    simp only [flatItems, List.flatMap_cons, List.cons_append, List.nil_append] at hn
    match ws, hn with
    | w1 :: w2 :: ws', hn =>
      obtain ⟨n1, a1, b1, n2, a2, b2, hn'⟩ := hn
      simp only [List.cons_append] at hw
      have h1 := int_word hw n1 a1 b1
      have hw2 := (sentry_word hw).2.1
      have h2 := int_word hw2 n2 a2 b2
      have hw3 := (sentry_word hw2).2.1
      have he : (Strm.past u).eof = false := by rw [past_opened (by rw [hw]; simp)]; rfl
      rw [knapLoop2]
      simp only [he, Bool.false_eq_true, if_false]
      rw [if_neg (by omega), h1]
      dsimp only
      rw [h2]
      dsimp only
      rw [ih _ ws' extra (count + 1) f _ hw3 hn' (by omega) (by omega)]
      simp only [List.length_cons, show 2 * (its.length + 1) = 2 * its.length + 1 + 1 by omega, after, List.append_assoc, List.singleton_append]

/-- The file ends before the array is full. -/
theorem knapLoop2_short {n : Nat} : ∀ (its : List Item) (u : List Char) (count fuel : Nat) (done : List Item),
    Numerals (words u) (flatItems its) → count + its.length < n → its.length < fuel →
    knapLoop2 n fuel (Strm.past u) count done = .ok (done ++ its) ∨ knapLoop2 n fuel (Strm.past u) count done = .ub := by
  intro its
  induction its with
  | nil =>
    intro u count fuel done hn hc hf
    simp only [List.length_nil] at hc hf
    obtain ⟨f, rfl⟩ : ∃ f, fuel = f + 1 := ⟨fuel - 1, by omega⟩
    rw [knapLoop2]
    cases u with
    | nil => simp [Strm.past]
    | cons c u =>
      have he : (Strm.past (c :: u)).eof = false := rfl
      have hw : words (c :: u) = [] := by
        cases h : words (c :: u) with
        | nil => rfl
        | cons w ws => rw [h] at hn; exact hn.elim
      simp only [he, Bool.false_eq_true, if_false]
      rw [if_neg (by omega), int_none hw]
      exact Or.inr rfl
  | cons x its ih =>
    intro u count fuel done hn hc hf
    simp only [List.length_cons] at hc hf
    obtain ⟨f, rfl⟩ : ∃ f, fuel = f + 1 := ⟨fuel - 1, by omega⟩
    simp only [flatItems, List.flatMap_cons, List.cons_append, List.nil_append] at hn
    match hw : words u, hn with
    | w1 :: w2 :: ws', hn =>
      obtain ⟨n1, a1, b1, n2, a2, b2, hn'⟩ := hn
      have h1 := int_word hw n1 a1 b1
      have hw2 := (sentry_word hw).2.1
      have h2 := int_word hw2 n2 a2 b2
      have hw3 := (sentry_word hw2).2.1
      have he : (Strm.past u).eof = false := by rw [past_opened (by rw [hw]; simp)]; rfl
      rw [knapLoop2]
      simp only [he, Bool.false_eq_true, if_false]
      rw [if_neg (by omega), h1]
      dsimp only
      rw [h2]
      dsimp only
      have := ih (tail1 (tail1 u)) (count + 1) f (done ++ [⟨x.w, x.p⟩]) (by rw [hw3]; exact hn') (by omega) (by omega)
      rw [List.append_assoc, List.singleton_append] at this
      exact this

/-- C116: a file with fewer items than it announces makes knapsack2.cpp sort cells it never set. -/
theorem knap2_short {t : List Char} {I capa : Int} {its : List Item} (hn : Numerals (words t) (I :: capa :: flatItems its)) (hI : its.length < I)
    {fuel : Nat} (hf : its.length < fuel) : readKnap2 fuel (Strm.opened t) = .ub := by
  match hw : words t, hn with
  | w1 :: w2 :: ws', hn =>
    obtain ⟨n1, a1, b1, n2, a2, b2, hn'⟩ := hn
    have h1 := int_opened hw n1 a1 b1
    have hw2 := (sentry_word hw).2.1
    have h2 := int_word hw2 n2 a2 b2
    have hw3 := (sentry_word hw2).2.1
    obtain ⟨n, rfl⟩ : ∃ n : Nat, I = n := ⟨I.toNat, by omega⟩
    unfold readKnap2
    simp only [h1, h2]
    rcases knapLoop2_short (n := n) its (tail1 (tail1 t)) 0 fuel [] (by rw [hw3]; exact hn') (by omega) hf with h | h
    · rw [h]
      simp only [List.nil_append]
      rw [if_neg (by omega)]
    · rw [h]

/-- C116: on the same files knapsack2.cpp writes behind its array of items as soon as the file has one more character, be it the
newline that ends its last line; only a file that ends with the last digit is read. -/
theorem knap2_reads {t : List Char} {ws extra : List (List Char)} {capa : Int} {its : List Item} (hw : words t = ws ++ extra)
    (hn : Numerals ws (its.length :: capa :: flatItems its)) {fuel : Nat} (hf : its.length < fuel) :
    readKnap2 fuel (Strm.opened t) = if after (2 + 2 * its.length) t = [] then .ok (its.length, capa, sortItems its) else .ub := by
  match ws, hn with
  | w1 :: w2 :: ws', hn =>
    obtain ⟨n1, a1, b1, n2, a2, b2, hn'⟩ := hn
    simp only [List.cons_append] at hw
    have h1 := int_opened hw n1 a1 b1
    have hw2 := (sentry_word hw).2.1
    have h2 := int_word hw2 n2 a2 b2
    have hw3 := (sentry_word hw2).2.1
    unfold readKnap2
    simp only [h1, h2]
    rw [knapLoop2_reads its _ ws' extra 0 fuel [] hw3 hn' (by omega) hf, ← after_add]
    by_cases h : after (2 * its.length) (tail1 (tail1 t)) = []
    · rw [if_pos h, if_pos (show after (2 * its.length) (after 2 t) = [] from h)]
      simp
    · rw [if_neg h, if_neg (show ¬ after (2 * its.length) (after 2 t) = [] from h)]

/-- C116, what holds: a file that ends with the last digit of the last weight is read. -/
theorem knap2_reads_partial {t : List Char} {ws : List (List Char)} {capa : Int} {its : List Item} (hw : words t = ws)
    (hn : Numerals ws (its.length :: capa :: flatItems its)) (hend : after ws.length t = []) {fuel : Nat} (hf : its.length < fuel) :
    readKnap2 fuel (Strm.opened t) = .ok (its.length, capa, sortItems its) := by
  have hl : ∀ (ws : List (List Char)) (vs : List Int), Numerals ws vs → ws.length = vs.length := by
    intro ws
    induction ws with
    | nil => intro vs h; cases vs with | nil => rfl | cons _ _ => exact h.elim
    | cons w ws ih =>
      intro vs h
      cases vs with
      | nil => exact h.elim
      | cons v vs => simp [ih vs h.2.2.2]
  have h2 : ∀ its : List Item, (flatItems its).length = 2 * its.length := by
    intro its
    induction its with
    | nil => rfl
    | cons x its ih => simp only [flatItems, List.flatMap_cons, List.length_append, List.length_cons, List.length_nil] at ih ⊢; omega
  have := hl _ _ hn
  simp only [List.length_cons, h2] at this
  rw [knap2_reads (extra := []) (by simpa using hw) hn hf, if_pos (by rw [← hend, this]; congr 1; omega)]

/-- The file of the last example is one on which knapsack2.cpp overruns its array, and so is it without the solution row; cut
behind the last digit it is read. -/
example : readKnap2 10 (Strm.opened kfile) = .ub ∧ readKnap2 10 (Strm.opened (kfile.take 19)) = .ub ∧
    readKnap2 10 (Strm.opened (kfile.take 18)) = .ok (3, 20, [⟨8, 7⟩, ⟨11, 9⟩, ⟨12, 6⟩]) := by decide +kernel

/-- Without its last item, cut behind the last digit. -/
example : readKnap2 10 (Strm.opened (kfile.take 13)) = .ub :=
  knap2_short (t := kfile.take 13) (its := [⟨11, 9⟩, ⟨8, 7⟩]) (I := 3) (capa := 20)
    (show Numerals [['3'], ['2', '0'], ['9'], ['1', '1'], ['7'], ['8']] [3, 20, 9, 11, 7, 8] from ⟨⟨['3'], by decide, by decide, .inl ⟨rfl, by decide⟩⟩, by decide, by decide, ⟨['2', '0'], by decide, by decide, .inl ⟨rfl, by decide⟩⟩, by decide, by decide,
      ⟨['9'], by decide, by decide, .inl ⟨rfl, by decide⟩⟩, by decide, by decide, ⟨['1', '1'], by decide, by decide, .inl ⟨rfl, by decide⟩⟩, by decide, by decide,
      ⟨['7'], by decide, by decide, .inl ⟨rfl, by decide⟩⟩, by decide, by decide, ⟨['8'], by decide, by decide, .inl ⟨rfl, by decide⟩⟩, by decide, by decide, trivial⟩) (by decide) (by decide)

/-! ### C117: the order of the items -/

/-- To nearest: at most half a unit off. -/
theorem rne_near (a b : Nat) (hb : 0 < b) : 2 * (rne a b * b) ≤ 2 * a + b ∧ 2 * a ≤ 2 * (rne a b * b) + b := by
  have h1 := Nat.div_add_mod a b
  have h2 := Nat.mod_lt a hb
  rw [Nat.mul_comm] at h1
  unfold rne
  by_cases h : 2 * (a % b) < b ∨ (2 * (a % b) = b ∧ a / b % 2 = 0)
  · rw [if_pos h]; omega
  · rw [if_neg h, Nat.add_mul, Nat.one_mul]; omega

/-- The quotient has 53 bits before it is rounded. -/
theorem fdiv_spec {a b : Nat} (ha : 0 < a) (hb : 0 < b) (hl : a < 2 ^ 53) :
    2 * ((fdiv a b).1 * b) ≤ 2 * (a * 2 ^ (fdiv a b).2) + b ∧ 2 * (a * 2 ^ (fdiv a b).2) ≤ 2 * ((fdiv a b).1 * b) + b ∧ 2 ^ 52 * b ≤ a * 2 ^ (fdiv a b).2 := by
  refine ⟨(rne_near _ _ hb).1, (rne_near _ _ hb).2, ?_⟩
  have a1 : 2 ^ Nat.log2 a ≤ a := Nat.log2_self_le (by omega)
  have b1 : b < 2 ^ (Nat.log2 b + 1) := Nat.lt_log2_self
  have la : Nat.log2 a < 53 := (Nat.log2_lt (by omega)).2 hl
  simp only [fdiv]
  by_cases h : a * 2 ^ (53 + Nat.log2 b - Nat.log2 a) / b < 2 ^ 53
  · rw [if_pos h]
    have e : 2 ^ Nat.log2 a * 2 ^ (53 + Nat.log2 b - Nat.log2 a) = 2 ^ 52 * 2 ^ (Nat.log2 b + 1) := by
      rw [← Nat.pow_add, ← Nat.pow_add]; congr 1; omega
    calc 2 ^ 52 * b ≤ 2 ^ 52 * 2 ^ (Nat.log2 b + 1) := Nat.mul_le_mul_left _ (Nat.le_of_lt b1)
      _ = 2 ^ Nat.log2 a * 2 ^ (53 + Nat.log2 b - Nat.log2 a) := e.symm
      _ ≤ _ := Nat.mul_le_mul_right _ a1
  · rw [if_neg h]
    have h3 : 2 ^ 53 * b ≤ a * 2 ^ (53 + Nat.log2 b - Nat.log2 a) := (Nat.le_div_iff_mul_le hb).1 (by omega)
    obtain ⟨k, hk⟩ : ∃ k, 53 + Nat.log2 b - Nat.log2 a = k + 1 := ⟨53 + Nat.log2 b - Nat.log2 a - 1, by omega⟩
    rw [hk] at h3 ⊢
    rw [Nat.add_sub_cancel]
    have e : a * 2 ^ (k + 1) = 2 * (a * 2 ^ k) := by rw [Nat.pow_succ]; ac_rfl
    omega

/-- Below 2^26, comparing the rounded quotients is comparing the quotients. -/
theorem fdiv_le {a b c d : Nat} (ha : 0 < a) (hb : 0 < b) (hc : 0 < c) (hd : 0 < d) (ha' : a < 2 ^ 26) (hc' : c < 2 ^ 26) (hd' : d < 2 ^ 26)
    (h : dle (fdiv a b) (fdiv c d) = true) : a * d ≤ c * b := by
  obtain ⟨_, p2, p3⟩ := fdiv_spec (b := b) ha hb (by omega)
  obtain ⟨q1, _, q3⟩ := fdiv_spec (b := d) hc hd (by omega)
  unfold dle at h
  rw [decide_eq_true_iff] at h
  generalize hm1 : (fdiv a b).1 = m1 at *
  generalize hm2 : (fdiv c d).1 = m2 at *
  generalize hk1 : 2 ^ (fdiv a b).2 = K1 at *
  generalize hk2 : 2 ^ (fdiv c d).2 = K2 at *
  have hK1 : 0 < K1 := by rw [← hk1]; exact Nat.two_pow_pos _
  have hK2 : 0 < K2 := by rw [← hk2]; exact Nat.two_pow_pos _
  refine Classical.byContradiction fun hcon => ?_
  have hlt : c * b + 1 ≤ a * d := by omega
  have had : a * d < 2 ^ 52 := by
    have : a * d ≤ (2 ^ 26 - 1) * (2 ^ 26 - 1) := Nat.mul_le_mul (by omega) (by omega)
    omega
  -- scaled to a common denominator
  have e1 : 2 * (a * d * (K1 * K2)) ≤ 2 * (m1 * K2 * (b * d)) + b * d * K2 := by
    have := Nat.mul_le_mul_right (d * K2) p2
    have x1 : 2 * (a * K1) * (d * K2) = 2 * (a * d * (K1 * K2)) := by ac_rfl
    have x2 : (2 * (m1 * b) + b) * (d * K2) = 2 * (m1 * K2 * (b * d)) + b * d * K2 := by rw [Nat.add_mul]; congr 1 <;> ac_rfl
    omega
  have e2 : 2 * (m2 * K1 * (b * d)) ≤ 2 * (c * b * (K1 * K2)) + b * d * K1 := by
    have := Nat.mul_le_mul_right (b * K1) q1
    have x1 : 2 * (m2 * d) * (b * K1) = 2 * (m2 * K1 * (b * d)) := by ac_rfl
    have x2 : (2 * (c * K2) + d) * (b * K1) = 2 * (c * b * (K1 * K2)) + b * d * K1 := by rw [Nat.add_mul]; congr 1 <;> ac_rfl
    omega
  have e3 : m1 * K2 * (b * d) ≤ m2 * K1 * (b * d) := Nat.mul_le_mul_right _ h
  have e4 : (c * b + 1) * (K1 * K2) ≤ a * d * (K1 * K2) := Nat.mul_le_mul_right _ hlt
  rw [Nat.add_mul, Nat.one_mul] at e4
  have hpos : 0 < K1 * K2 := Nat.mul_pos hK1 hK2
  have e5 : 2 ^ 52 * (b * d * K2) < 2 ^ 52 * (K1 * K2) := by
    have := Nat.mul_le_mul_right (d * K2) p3
    have x1 : 2 ^ 52 * b * (d * K2) = 2 ^ 52 * (b * d * K2) := by ac_rfl
    have x2 : a * K1 * (d * K2) = a * d * (K1 * K2) := by ac_rfl
    have x3 : a * d * (K1 * K2) < 2 ^ 52 * (K1 * K2) := (Nat.mul_lt_mul_right hpos).2 had
    omega
  have e6 : 2 ^ 52 * (b * d * K1) < 2 ^ 52 * (K1 * K2) := by
    have := Nat.mul_le_mul_right (b * K1) q3
    have x1 : 2 ^ 52 * d * (b * K1) = 2 ^ 52 * (b * d * K1) := by ac_rfl
    have x2 : c * K2 * (b * K1) = c * b * (K1 * K2) := by ac_rfl
    have x3 : c * b * (K1 * K2) < 2 ^ 52 * (K1 * K2) := (Nat.mul_lt_mul_right hpos).2 (by omega)
    omega
  have e7 := Nat.lt_of_mul_lt_mul_left e5
  have e8 := Nat.lt_of_mul_lt_mul_left e6
  omega

theorem dle_total (a b : Nat × Nat) : dle a b = true ∨ dle b a = true := by
  unfold dle
  rw [decide_eq_true_iff, decide_eq_true_iff]
  omega

theorem dle_trans {a b c : Nat × Nat} (h1 : dle a b = true) (h2 : dle b c = true) : dle a c = true := by
  unfold dle at *
  rw [decide_eq_true_iff] at *
  have e1 := Nat.mul_le_mul_right (2 ^ c.2) h1
  have e2 := Nat.mul_le_mul_right (2 ^ a.2) h2
  have x1 : a.1 * 2 ^ b.2 * 2 ^ c.2 = a.1 * 2 ^ c.2 * 2 ^ b.2 := by ac_rfl
  have x2 : b.1 * 2 ^ a.2 * 2 ^ c.2 = b.1 * 2 ^ c.2 * 2 ^ a.2 := by ac_rfl
  have x3 : c.1 * 2 ^ b.2 * 2 ^ a.2 = c.1 * 2 ^ a.2 * 2 ^ b.2 := by ac_rfl
  exact Nat.le_of_mul_le_mul_right (c := 2 ^ b.2) (by omega) (Nat.two_pow_pos _)

/-- The order of the comparator: falling rate, then rising profit. -/
def itemLe (a b : Item) : Prop := dle (rate b) (rate a) = true ∧ (dle (rate a) (rate b) = true → a.p ≤ b.p)

theorem itemLe_pre : MSort.TotalPreorder itemLe where
  total := fun a b => by
    unfold itemLe
    by_cases h1 : dle (rate a) (rate b) = true
    · by_cases h2 : dle (rate b) (rate a) = true
      · by_cases h3 : a.p ≤ b.p
        · exact .inl ⟨h2, fun _ => h3⟩
        · exact .inr ⟨h1, fun _ => by omega⟩
      · exact .inr ⟨h1, fun h => absurd h h2⟩
    · exact .inl ⟨(dle_total _ _).resolve_left h1, fun h => absurd h h1⟩
  trans := fun a b c h1 h2 => ⟨dle_trans h2.1 h1.1, fun h => by
    have e1 := h1.2 (dle_trans h h2.1)
    have e2 := h2.2 (dle_trans h1.1 h)
    omega⟩

theorem cmpItem_compat : MSort.Compat cmpItem itemLe := by
  intro a b
  unfold cmpItem itemLe
  by_cases h1 : dle (rate a) (rate b) = true
  · by_cases h2 : dle (rate b) (rate a) = true
    · simp only [h1, h2, Bool.and_self, if_true, true_and, decide_eq_true_iff, decide_eq_false_iff_not, forall_const]
      exact ⟨id, fun h => by omega⟩
    · simp only [Bool.not_eq_true] at h2
      simp [h1, h2]
  · have h2 := (dle_total (rate a) (rate b)).resolve_left h1
    simp only [Bool.not_eq_true] at h1
    simp [h1, h2]

/-- Rates of such items compare as the quotients. -/
theorem itemLe_ratio {a b : Item} (ha : 0 < a.w) (hb : 0 < b.w) (ha2 : a.w < 2 ^ 26) (pa : 0 ≤ a.p) (pb : 0 ≤ b.p) (pa2 : a.p < 2 ^ 26)
    (pb2 : b.p < 2 ^ 26) (h : itemLe a b) : b.p * a.w ≤ a.p * b.w := by
  have h1 := h.1
  by_cases z1 : b.p ≤ 0
  · rw [show b.p = 0 by omega, Int.zero_mul]
    exact Int.mul_nonneg pa (Int.le_of_lt hb)
  · have hp : 0 < (fdiv b.p.toNat b.w.toNat).1 := by
      obtain ⟨_, q2, q3⟩ := fdiv_spec (a := b.p.toNat) (b := b.w.toNat) (by omega) (by omega) (by omega)
      rcases Nat.eq_zero_or_pos (fdiv b.p.toNat b.w.toNat).1 with e | e
      · rw [e, Nat.zero_mul] at q2; omega
      · exact e
    by_cases z2 : a.p ≤ 0
    · exfalso
      unfold rate at h1
      rw [if_neg z1, if_pos z2] at h1
      unfold dle at h1
      rw [decide_eq_true_iff] at h1
      simp at h1
      omega
    · unfold rate at h1
      rw [if_neg z1, if_neg z2] at h1
      have := fdiv_le (by omega) (by omega) (by omega) (by omega) (by omega) (by omega) (by omega) h1
      have e : ((b.p.toNat * a.w.toNat : Nat) : Int) ≤ ((a.p.toNat * b.w.toNat : Nat) : Int) := by exact_mod_cast this
      rw [Int.natCast_mul, Int.natCast_mul, Int.toNat_of_nonneg (by omega), Int.toNat_of_nonneg (by omega), Int.toNat_of_nonneg (by omega),
        Int.toNat_of_nonneg (by omega)] at e
      exact e

theorem seg_getD : ∀ (its : List Item) (pre : List Item), MSort.seg (fun i => (pre ++ its).getD i ⟨1, 0⟩) pre.length its.length = its := by
  intro its
  induction its with
  | nil => intro pre; rfl
  | cons x its ih =>
    intro pre
    have := ih (pre ++ [x])
    simp only [List.append_assoc, List.singleton_append, List.length_append, List.length_singleton] at this
    simp only [List.length_cons, MSort.seg, this]
    congr 1
    simp

/-- C117: what knapsack2.cpp computes with is the file's items in the order of its comparator. -/
theorem sortItems_spec (its : List Item) : (sortItems its).Perm its ∧ (sortItems its).Pairwise itemLe := by
  have h := MSort.mergeSort_seg cmpItem (fun i => its.getD i ⟨1, 0⟩) its.length
  have hs := seg_getD its []
  simp only [List.nil_append, List.length_nil] at hs
  unfold sortItems
  rw [h.1, hs]
  exact ⟨MSort.msortL_perm _ _, MSort.msortL_sorted itemLe_pre cmpItem_compat _⟩

/-- C117, what holds: if weights are positive and weights and profits are below 2^26, the items are in order of falling profit per
weight, as the local bound needs (`Knap.Sorted`).  Missing: larger numbers (`knap2_sorted_false`). -/
theorem knap2_sorted_partial (capa : Int) (its : List Item) (h : ∀ x, x ∈ its → 0 < x.w ∧ x.w < 2 ^ 26 ∧ 0 ≤ x.p ∧ x.p < 2 ^ 26) :
    (Knap.ofItems capa (sortItems its)).Sorted := by
  obtain ⟨hp, hs⟩ := sortItems_spec its
  have h' : ∀ x, x ∈ sortItems its → 0 < x.w ∧ x.w < 2 ^ 26 ∧ 0 ≤ x.p ∧ x.p < 2 ^ 26 := fun x hx => h x (hp.mem_iff.1 hx)
  have hget : ∀ i, (sortItems its).getD i ⟨1, 0⟩ = ⟨1, 0⟩ ∧ (sortItems its).length ≤ i ∨ ∃ h : i < (sortItems its).length, (sortItems its).getD i ⟨1, 0⟩ = (sortItems its)[i] := by
    intro i
    by_cases hi : i < (sortItems its).length
    · exact .inr ⟨hi, by rw [List.getD_eq_getElem?_getD, List.getElem?_eq_getElem hi]; rfl⟩
    · exact .inl ⟨by rw [List.getD_eq_getElem?_getD, List.getElem?_eq_none (by omega)]; rfl, by omega⟩
  have hi : ∀ i, 0 < ((sortItems its).getD i ⟨1, 0⟩).w ∧ 0 ≤ ((sortItems its).getD i ⟨1, 0⟩).p := by
    intro i
    rcases hget i with ⟨e, _⟩ | ⟨hi, e⟩
    · rw [e]; decide
    · rw [e]
      have := h' _ (List.getElem_mem hi)
      exact ⟨this.1, this.2.2.1⟩
  refine ⟨fun i => (hi i).1, fun i => (hi i).2, fun i j hij => ?_⟩
  show ((sortItems its).getD j ⟨1, 0⟩).p * ((sortItems its).getD i ⟨1, 0⟩).w ≤ ((sortItems its).getD i ⟨1, 0⟩).p * ((sortItems its).getD j ⟨1, 0⟩).w
  rcases hget j with ⟨e, _⟩ | ⟨hj, e⟩
  · rw [e]
    show 0 * _ ≤ _ * 1
    rw [Int.zero_mul, Int.mul_one]
    exact (hi i).2
  · rcases hget i with ⟨_, e'⟩ | ⟨hi', e'⟩
    · omega
    · rw [e, e']
      by_cases hlt : i = j
      · subst hlt; exact Int.le_refl _
      · have hle := List.pairwise_iff_getElem.1 hs i j hi' hj (by omega)
        have a := h' _ (List.getElem_mem hi')
        have b := h' _ (List.getElem_mem hj)
        exact itemLe_ratio a.1 b.1 a.2.1 a.2.2.1 b.2.2.1 a.2.2.2 b.2.2.2 hle

/-- Two items of different rates that `double` cannot tell apart. -/
def kbig : List Item := [⟨1073741824, 1073741823⟩, ⟨1073741825, 1073741824⟩]

/-- C117 is false for larger numbers: of these two items the one with the smaller rate comes first, and with capacity 1073741825
the search, even with exact rounding and any room, ends with 1073741823 although the other item alone brings 1073741824. -/
theorem knap2_sorted_false : sortItems kbig = kbig ∧ ¬ (Knap.ofItems 1073741825 (sortItems kbig)).Sorted ∧
    (Knap.ofItems 1073741825 kbig).getUB = some 1073741823 ∧
    (∃ s, BB.search ((Knap.ofItems 1073741825 kbig).mdl2 floorQ) 64 10 (fun _ => false) 10 1073741823 = some s ∧ s.stopped = false ∧
      Heap.empty s.pq = true ∧ s.primal = 1073741823) ∧
    (Knap.ofItems 1073741825 kbig).Packing [0, 1] 1073741824 := by
  have hs : sortItems kbig = kbig := by decide +kernel
  refine ⟨hs, fun h => ?_, by decide +kernel, ?_, ⟨rfl, by decide, by decide, by decide⟩⟩
  · have := h.ratio 0 1 (by decide)
    rw [hs] at this
    revert this
    decide
  · have hv : (BB.search ((Knap.ofItems 1073741825 kbig).mdl2 floorQ) 64 10 (fun _ => false) 10 1073741823).map
        (fun s => (s.stopped, Heap.empty s.pq, s.primal)) = some (false, true, 1073741823) := by decide +kernel
    simp only [Option.map_eq_some_iff] at hv
    obtain ⟨s, h1, h2⟩ := hv
    simp at h2
    exact ⟨s, h1, h2.1, h2.2.1, h2.2.2⟩

/-- The three items of `kfile`. -/
example : sortItems [⟨11, 9⟩, ⟨8, 7⟩, ⟨12, 6⟩] = [⟨8, 7⟩, ⟨11, 9⟩, ⟨12, 6⟩] ∧ (Knap.ofItems 20 (sortItems [⟨11, 9⟩, ⟨8, 7⟩, ⟨12, 6⟩])).Sorted :=
  ⟨by decide +kernel, knap2_sorted_partial 20 _ (by decide)⟩

end Verif.Ex
