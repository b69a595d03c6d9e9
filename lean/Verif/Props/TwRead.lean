import Verif.TwRead
import Verif.Props.TspProgram
/-!
# C134: tsptw from text to tour, and what becomes of the time windows
-/
namespace Verif.Ex
open Verif.DD Verif.IO

/-! ### What the texts are, without the reader -/

/-- White space and comments, each from `#` to the end of its line, and then `r`, which begins with neither. -/
inductive Gap (r : List Char) : List Char → Prop
  | done {c : Char} {r' : List Char} : r = c :: r' → isWs c = false → c ≠ '#' → Gap r r
  | blank {c : Char} {t : List Char} : isWs c = true → Gap r t → Gap r (c :: t)
  | comment {l t : List Char} : '\n' ∉ l → Gap r t → Gap r ('#' :: (l ++ '\n' :: t))

/-- A number ends at the end of the text, at white space or at a comment. -/
def Stop (u : List Char) : Prop := ∀ c, u.head? = some c → isWs c = true ∨ c = '#'

/-- The signed number. -/
def signed (neg : Bool) (n : Nat) : Int := if neg then -(n : Int) else n

/-- `w` is a decimal of the integer value `v`: digits with or without a point, possibly behind a sign. -/
def IntDec (w : List Char) (v : Int) : Prop :=
  ∃ (sg ip fp : List Char) (neg : Bool), ((sg = [] ∧ neg = false) ∨ (sg = ['+'] ∧ neg = false) ∨ (sg = ['-'] ∧ neg = true)) ∧
    (∀ c, c ∈ ip → isDig c = true) ∧ (∀ c, c ∈ fp → isDig c = true) ∧ ip ++ fp ≠ [] ∧
    ((w = sg ++ ip ∧ fp = []) ∨ w = sg ++ ip ++ '.' :: fp) ∧ v * 10 ^ fp.length = signed neg (digVal 0 (ip ++ fp))

/-- The text is decimals of these integers, each behind white space, and then `u`. -/
inductive Decs : List Char → List Int → List Char → Prop
  | done {u : List Char} : Decs u [] u
  | num {sp w t u : List Char} {v : Int} {vs : List Int} : (∀ c, c ∈ sp → isWs c = true) → IntDec w v → v.natAbs ≤ 2 ^ 53 → Stop t → Decs t vs u →
      Decs (sp ++ w ++ t) (v :: vs) u

/-- The text of an instance: the number of cities, the matrix row by row, the windows, with comments before each of the three. -/
inductive TwText (t : List Char) (n : Nat) (vs : List Int) (tw : List (Int × Int)) : Prop
  | mk {w u0 r1 u1 r2 : List Char} {ws extra : List (List Char)} : Gap (w ++ u0) t → Numeral w n → Stop u0 → Gap r1 u0 → Decs r1 vs u1 → Gap r2 u1 →
      words r2 = ws ++ extra → Numerals ws (tw.flatMap fun p => [p.1, p.2]) → vs.length = n * n → tw.length = n → TwText t n vs tw

/-! ### skip -/

theorem get_len {s s' : Strm} {c : Char} (h : s.get = (s', some c)) : s'.rest.length < s.rest.length ∧ s' = ⟨s'.rest, false, false⟩ := by
  unfold Strm.get at h
  split at h
  · cases h
  · split at h
    · cases h
    · rename_i c r e
      cases h
      rw [e]
      exact ⟨by simp, rfl⟩

theorem line_len (s : Strm) : s.line.1.rest.length ≤ s.rest.length := by
  unfold Strm.line
  split
  · exact Nat.le_refl _
  · dsimp only
    have := (List.dropWhile_suffix (l := s.rest) (fun c => c != '\n')).length_le
    split
    · simp
    · rename_i e
      rw [e] at this
      simp at this
      dsimp only
      omega

theorem skipLoop_fuel : ∀ (k k' : Nat) (s : Strm), s.rest.length < k → s.rest.length < k' → skipLoop k s = skipLoop k' s := by
  intro k
  induction k with
  | zero => intro k' s h; omega
  | succ k ih =>
    intro k' s h h'
    cases k' with
    | zero => omega
    | succ k' =>
      rw [skipLoop, skipLoop]
      cases hg : s.get with
      | mk s' o =>
        cases o with
        | none => rfl
        | some c =>
          have h1 := (get_len hg).1
          have h2 := line_len s'
          dsimp only
          rw [ih k' s'.line.1 (by omega) (by omega), ih k' s' (by omega) (by omega)]

/-- The rounds of `skip` (examples/tsptw.cpp:48-56) without a bound on their number. -/
theorem skip_unfold (s : Strm) : s.skip = match s.get with
    | (s', none) => s'
    | (s', some c) => if c = '#' then (if s'.line.1.eof then s'.line.1 else s'.line.1.skip) else if isWs c then s'.skip else s := by
  unfold Strm.skip
  rw [skipLoop]
  cases hg : s.get with
  | mk s' o =>
    cases o with
    | none => rfl
    | some c =>
      have h1 := (get_len hg).1
      have h2 := line_len s'
      dsimp only
      rw [skipLoop_fuel s.rest.length (s'.line.1.rest.length + 1) s'.line.1 (by omega) (by omega),
        skipLoop_fuel s.rest.length (s'.rest.length + 1) s' (by omega) (by omega)]

theorem get_cons (c : Char) (t : List Char) : (Strm.opened (c :: t)).get = (Strm.opened t, some c) := rfl

/-- C134: `skip` goes to what follows the white space and the comments. -/
theorem skip_gap {r t : List Char} (h : Gap r t) : (Strm.opened t).skip = Strm.opened r := by
  induction h with
  | done e h1 h2 =>
    subst e
    rw [skip_unfold, get_cons]
    dsimp only
    rw [if_neg h2, if_neg (by rw [h1]; decide)]
  | @blank c t h1 _ ih =>
    rw [skip_unfold, get_cons]
    dsimp only
    have : c ≠ '#' := by rintro rfl; exact absurd h1 (by decide)
    rw [if_neg this, if_pos h1, ih]
  | comment h1 _ ih =>
    rw [skip_unfold, get_cons]
    dsimp only
    rw [if_pos rfl, line_nl h1, ih]
    rfl

theorem Gap.ne_nil {r t : List Char} (h : Gap r t) : t ≠ [] := by
  cases h with
  | done e => rw [e]; simp
  | blank => simp
  | comment => simp

theorem Gap.rest_ne {r t : List Char} (g : Gap r t) : r ≠ [] := by
  induction g with
  | done e => rw [e]; simp
  | blank _ _ ih => exact ih
  | comment _ _ ih => exact ih

theorem past_ne {u : List Char} (h : u ≠ []) : Strm.past u = Strm.opened u := by
  cases u with
  | nil => exact absurd rfl h
  | cons _ _ => rfl

/-! ### Numbers -/

/-- The first character is no digit. -/
def NoDig (u : List Char) : Prop := ∀ c, u.head? = some c → isDig c = false

theorem Stop.noDig {u : List Char} (h : Stop u) : NoDig u := by
  intro c hc
  rcases h c hc with h | rfl
  · cases hd : isDig c with
    | false => rfl
    | true => rw [isDig_ws hd] at h; cases h
  · decide

theorem span_noDig {ds r : List Char} (hd : ∀ c, c ∈ ds → isDig c = true) (hr : NoDig r) :
    (ds ++ r).takeWhile isDig = ds ∧ (ds ++ r).dropWhile isDig = r := by
  have h0 : r.takeWhile isDig = [] ∧ r.dropWhile isDig = r := by
    cases r with
    | nil => exact ⟨rfl, rfl⟩
    | cons c r =>
      have hc : ¬ isDig c = true := by rw [hr c rfl]; decide
      rw [List.takeWhile_cons_of_neg hc, List.dropWhile_cons_of_neg hc]
      exact ⟨rfl, rfl⟩
  rw [List.takeWhile_append_of_pos hd, List.dropWhile_append_of_pos hd, h0.1, h0.2, List.append_nil]
  exact ⟨rfl, rfl⟩

theorem sentry_at {c : Char} {t : List Char} (h : isWs c = false) (sp : List Char) (hs : ∀ c, c ∈ sp → isWs c = true) :
    (Strm.opened (sp ++ c :: t)).sentry = (Strm.opened (c :: t), true) := by
  unfold Strm.sentry Strm.opened
  simp only [Bool.or_self, Bool.false_eq_true, if_false]
  rw [List.dropWhile_append_of_pos hs, List.dropWhile_cons_of_neg (by rw [h]; decide)]

/-- Reading a `size_t` written as a numeral. -/
theorem size_at {w u : List Char} {n : Nat} (hn : Numeral w n) (h0 : 0 < n) (h1 : n < 2 ^ 64) (hu : Stop u) :
    (Strm.opened (w ++ u)).size = (Strm.past u, some n) := by
  obtain ⟨ds, hne, hdig, hv⟩ := hn
  obtain ⟨s1, s2⟩ := span_noDig hdig hu.noDig
  have hne' : ds.isEmpty = false := by cases ds with | nil => exact absurd rfl hne | cons _ _ => rfl
  rcases hv with ⟨rfl, hv⟩ | ⟨rfl, hv⟩ | ⟨rfl, hv⟩
  · cases w with
    | nil => exact absurd rfl hne
    | cons c w =>
      have hc := hdig c (by simp)
      have hh := isDig_ne hc
      have hv' : digVal 0 (c :: w) = n := by omega
      unfold Strm.size
      rw [show (c :: w) ++ u = [] ++ c :: (w ++ u) from rfl, sentry_at (isDig_ws hc) [] (by simp)]
      dsimp only [Strm.opened]
      unfold getSize
      rw [show c :: (w ++ u) = (c :: w) ++ u from rfl]
      have e1 : (((c :: w) ++ u).head? == some '-') = false ∧ (((c :: w) ++ u).head? == some '+') = false := by simp [hh.1, hh.2]
      simp only [e1.1, e1.2, Bool.or_self, Bool.false_eq_true, if_false, s1, s2, hne', hv']
      rw [if_neg (by omega)]
      rfl
  · omega
  · have hh : (some '+' == some '-') = false := by decide
    have hv' : digVal 0 ds = n := by omega
    unfold Strm.size
    rw [show ('+' :: ds) ++ u = [] ++ '+' :: (ds ++ u) from rfl, sentry_at (by decide) [] (by simp)]
    dsimp only [Strm.opened]
    unfold getSize
    simp only [List.head?_cons, List.tail_cons, hh, BEq.rfl, Bool.false_or, if_true, Bool.false_eq_true, if_false, s1, s2, hne', hv']
    rw [if_neg (by omega)]
    rfl

/-- Past the sign. -/
theorem getDbl_digits {sg ip fp w u : List Char} {neg : Bool} (hs : (sg = [] ∧ neg = false) ∨ (sg = ['+'] ∧ neg = false) ∨ (sg = ['-'] ∧ neg = true))
    (hi : ∀ c, c ∈ ip → isDig c = true) (hf : ∀ c, c ∈ fp → isDig c = true) (hne : ip ++ fp ≠ []) (hw : (w = sg ++ ip ∧ fp = []) ∨ w = sg ++ ip ++ '.' :: fp) (hu : Stop u) :
    getDbl (w ++ u) = (Strm.past u, signed neg (digVal 0 (ip ++ fp)), -(fp.length : Int)) := by
  -- what follows the sign
  obtain ⟨b, hb⟩ : ∃ b, w = sg ++ b ∧ ((b = ip ∧ fp = []) ∨ b = ip ++ '.' :: fp) := by
    rcases hw with ⟨h, h'⟩ | h
    · exact ⟨ip, h, .inl ⟨rfl, h'⟩⟩
    · exact ⟨ip ++ '.' :: fp, by rw [h, List.append_assoc], .inr rfl⟩
  obtain ⟨rfl, hb⟩ := hb
  have hhead : ∀ c, (b ++ u).head? = some c → c ≠ '-' ∧ c ≠ '+' := by
    intro c hc
    have hdot : '.' ≠ '-' ∧ '.' ≠ '+' := by decide
    cases ip with
    | cons d ip =>
      have : c = d := by rcases hb with ⟨rfl, _⟩ | rfl <;> simpa using hc.symm
      subst this
      exact isDig_ne (hi c (by simp))
    | nil =>
      rcases hb with ⟨rfl, h⟩ | rfl
      · subst h; exact absurd rfl hne
      · simp at hc; subst hc; exact hdot
  have hsign : ((sg ++ b ++ u).head? == some '-') = neg ∧
      (if (neg || (sg ++ b ++ u).head? == some '+') = true then (sg ++ b ++ u).tail else sg ++ b ++ u) = b ++ u := by
    rcases hs with ⟨rfl, rfl⟩ | ⟨rfl, rfl⟩ | ⟨rfl, rfl⟩
    · have e : ((b ++ u).head? == some '-') = false ∧ ((b ++ u).head? == some '+') = false := by
        cases hh : (b ++ u).head? with
        | none => exact ⟨rfl, rfl⟩
        | some c => simp [(hhead c hh).1, (hhead c hh).2]
      simp only [List.nil_append, e.1, e.2, Bool.or_self, Bool.false_eq_true, if_false]
      exact ⟨trivial, trivial⟩
    · exact ⟨rfl, rfl⟩
    · exact ⟨rfl, rfl⟩
  have hne' : (ip ++ fp).isEmpty = false := by cases h : ip ++ fp with | nil => exact absurd h hne | cons _ _ => rfl
  have hexp : (u.head? == some 'e' || u.head? == some 'E') = false := by
    cases hh : u.head? with
    | none => rfl
    | some c =>
      rcases hu c hh with h | rfl
      · have h1 : c ≠ 'e' := by rintro rfl; exact absurd h (by decide)
        have h2 : c ≠ 'E' := by rintro rfl; exact absurd h (by decide)
        simp [h1, h2]
      · decide
  unfold getDbl
  dsimp only
  rw [hsign.1, hsign.2]
  rcases hb with ⟨rfl, rfl⟩ | rfl
  · obtain ⟨s1, s2⟩ := span_noDig hi hu.noDig
    have hdot : (u.head? == some '.') = false := by
      cases hh : u.head? with
      | none => rfl
      | some c =>
        rcases hu c hh with h | rfl
        · have h1 : c ≠ '.' := by rintro rfl; exact absurd h (by decide)
          simp [h1]
        · decide
    simp only [s1, s2, hdot, Bool.false_eq_true, if_false, hne', hexp]
    rfl
  · have hnd : NoDig ('.' :: (fp ++ u)) := by intro c hc; simp at hc; subst hc; decide
    obtain ⟨s1, s2⟩ := span_noDig hi hnd
    obtain ⟨s3, s4⟩ := span_noDig hf hu.noDig
    rw [List.append_assoc, List.cons_append]
    simp only [s1, s2, List.head?_cons, BEq.rfl, if_true, List.tail_cons, s3, s4, hne', hexp, Bool.false_eq_true, if_false]
    rfl

/-- C134: a distance counts as read exactly when it is an integer within 2^53, which a double holds without loss. -/
theorem decInt_exact (m e v : Int) : decInt m e = some v ↔ v.natAbs ≤ 2 ^ 53 ∧ m * 10 ^ e.toNat = v * 10 ^ (-e).toNat := by
  unfold decInt
  dsimp only
  by_cases he : 0 ≤ e
  · rw [if_pos he, Option.bind_some]
    have h0 : (-e).toNat = 0 := by omega
    rw [h0, Int.pow_zero, Int.mul_one]
    by_cases hb : (m * 10 ^ e.toNat).natAbs ≤ 2 ^ 53
    · rw [if_pos hb, Option.some.injEq]
      exact ⟨fun h => ⟨h ▸ hb, h⟩, fun h => h.2⟩
    · rw [if_neg hb]
      exact ⟨fun h => by simp at h, fun h => absurd (h.2 ▸ h.1) hb⟩
  · rw [if_neg he]
    have h0 : e.toNat = 0 := by omega
    rw [h0, Int.pow_zero, Int.mul_one]
    have hp : (10 : Int) ^ (-e).toNat ≠ 0 := Int.pow_ne_zero (by decide)
    by_cases hd : m % 10 ^ (-e).toNat = 0
    · rw [if_pos hd, Option.bind_some]
      have hm : m / 10 ^ (-e).toNat * 10 ^ (-e).toNat = m := Int.ediv_mul_cancel (Int.dvd_of_emod_eq_zero hd)
      by_cases hb : (m / 10 ^ (-e).toNat).natAbs ≤ 2 ^ 53
      · rw [if_pos hb, Option.some.injEq]
        constructor
        · rintro rfl; exact ⟨hb, hm.symm⟩
        · rintro ⟨_, h⟩; rw [h, Int.mul_ediv_cancel _ hp]
      · rw [if_neg hb]
        constructor
        · intro h; simp at h
        · rintro ⟨h1, h⟩; rw [h, Int.mul_ediv_cancel _ hp] at hb; exact absurd h1 hb
    · rw [if_neg hd]
      constructor
      · intro h; simp at h
      · rintro ⟨_, h⟩; rw [h, Int.mul_emod_left] at hd; exact absurd rfl hd

theorem decInt_scaled {v : Int} (k : Nat) (h : v.natAbs ≤ 2 ^ 53) : decInt (v * 10 ^ k) (-(k : Int)) = some v := by
  have hp : (10 : Int) ^ k ≠ 0 := by
    have : (10 : Int) ^ k = ((10 ^ k : Nat) : Int) := by simp
    rw [this]
    have := Nat.pow_pos (n := k) (show 0 < 10 by decide)
    omega
  unfold decInt
  cases k with
  | zero => simp [h]
  | succ k =>
    rw [if_neg (by omega), show (-(-((k + 1 : Nat) : Int))).toNat = k + 1 by omega, if_pos (Int.mul_emod_left _ _), Int.mul_ediv_cancel _ hp]
    simp [h]

/-- Reading a `double` written as a decimal of an integer value. -/
theorem dbl_at {sp w u : List Char} {v : Int} (hsp : ∀ c, c ∈ sp → isWs c = true) (hw : IntDec w v) (hv : v.natAbs ≤ 2 ^ 53) (hu : Stop u) :
    ∃ x, (Strm.past (sp ++ w ++ u)).dbl = (Strm.past u, some x) ∧ decInt x.1 x.2 = some v := by
  obtain ⟨sg, ip, fp, neg, h1, h2, h3, h4, h5, h6⟩ := hw
  obtain ⟨c, w', rfl, hc⟩ : ∃ c w', w = c :: w' ∧ isWs c = false := by
    rcases h1 with ⟨rfl, _⟩ | ⟨rfl, _⟩ | ⟨rfl, _⟩
    · cases ip with
      | cons d ip =>
        have hd := isDig_ws (h2 d (by simp))
        rcases h5 with ⟨rfl, _⟩ | rfl
        · exact ⟨d, ip, rfl, hd⟩
        · exact ⟨d, _, rfl, hd⟩
      | nil =>
        rcases h5 with ⟨_, rfl⟩ | rfl
        · exact absurd rfl h4
        · exact ⟨'.', _, rfl, by decide⟩
    · rcases h5 with ⟨rfl, _⟩ | rfl
      · exact ⟨'+', _, rfl, by decide⟩
      · exact ⟨'+', _, rfl, by decide⟩
    · rcases h5 with ⟨rfl, _⟩ | rfl
      · exact ⟨'-', _, rfl, by decide⟩
      · exact ⟨'-', _, rfl, by decide⟩
  refine ⟨(v * 10 ^ fp.length, -(fp.length : Int)), ?_, decInt_scaled fp.length hv⟩
  rw [past_ne (by simp)]
  unfold Strm.dbl
  rw [List.append_assoc, List.cons_append, sentry_at hc sp hsp]
  dsimp only [Strm.opened]
  rw [show c :: (w' ++ u) = (c :: w') ++ u from rfl, getDbl_digits h1 h2 h3 h4 h5 hu, h6]

/-- The loops over the matrix write what the text says. -/
theorem fillDbl_ok {n : Nat} (hn : n ≤ 46340) (T : Nat → Nat → Int) : ∀ (pss : List (List (Nat × Nat))) (vs : List Int) (t u : List Char) {m : DMat},
    Sized n m → Fits n T pss vs → vs.length = pss.length → Decs t vs u →
    ∃ m', fillDbl n pss (Strm.past t) m = .ok (m', Strm.past u) ∧ Sized n m' ∧
      ∀ i j, i < n → j < n → ((∃ ps, ps ∈ pss ∧ (i, j) ∈ ps) ∨ dist n m i j = some (T i j)) → dist n m' i j = some (T i j) := by
  intro pss
  induction pss with
  | nil =>
    intro vs t u m hm _ hl hD
    cases vs with
    | cons _ _ => simp at hl
    | nil => cases hD; exact ⟨m, rfl, hm, fun i j _ _ h => h.resolve_left (by simp)⟩
  | cons ps pss ih =>
    intro vs t u m hm hF hl hD
    cases hD with
    | done => simp at hl
    | num d1 d2 d3 d4 d5 =>
      obtain ⟨f1, f2⟩ := hF
      obtain ⟨x, hx, hv⟩ := dbl_at d1 d2 d3 d4
      obtain ⟨m1, e1, s1, q1⟩ := putCells_ok hn T _ ps hm f1
      obtain ⟨m2, e2, s2, q2⟩ := ih _ _ _ s1 f2 (by simpa using hl) d5
      refine ⟨m2, ?_, s2, fun i j hi hj h => q2 i j hi hj ?_⟩
      · rw [fillDbl, hx]
        dsimp only
        rw [hv]
        dsimp only
        rw [e1]
        exact e2
      · rcases h with ⟨qs, h1, h2⟩ | h
        · rcases List.mem_cons.1 h1 with h1 | h1
          · subst h1; exact .inr (q1 i j hi hj (.inl h2))
          · exact .inl ⟨qs, h1, h2⟩
        · exact .inr (q1 i j hi hj (.inr h))

/-- And the windows are those of the text. -/
theorem readWins_ok : ∀ (tw : List (Int × Int)) (u : List Char) (ws extra : List (List Char)), words u = ws ++ extra → Numerals ws (tw.flatMap fun p => [p.1, p.2]) →
    readWins tw.length (Strm.past u) = .ok tw := by
  intro tw
  induction tw with
  | nil => intro u ws extra _ _; rfl
  | cons p tw ih =>
    intro u ws extra hw hN
    obtain ⟨a, b⟩ := p
    cases ws with
    | nil => exact hN.elim
    | cons wa ws =>
      cases ws with
      | nil => exact hN.2.2.2.elim
      | cons wb ws =>
        obtain ⟨a1, a2, a3, b1, b2, b3, hN'⟩ := hN
        have ha := int_word hw a1 a2 a3
        have hw2 := words_tail1 hw
        have hb := int_word hw2 b1 b2 b3
        rw [List.length_cons, readWins, ha]
        dsimp only
        rw [hb]
        dsimp only
        rw [ih _ _ _ (words_tail1 hw2) hN']

/-- C134: on the text of an instance tsptw reads the number of cities, the matrix and the windows in it. -/
theorem tw_reads {t : List Char} {n : Nat} {vs : List Int} {tw : List (Int × Int)} (h : TwText t n vs tw) (h0 : 0 < n) (hn : n ≤ 46340) :
    ∃ F, readTw (Strm.opened t) = .ok F ∧ F.nv = n ∧ F.twin = tw ∧ ∀ i j, i < n → j < n → dist n F.d i j = vs[i * n + j]? := by
  obtain ⟨g1, g2, g3, g4, g5, g6, g7, g8, g9, g10⟩ := h
  have hr := fullRounds_eq n
  have hfit := full_fits (n := n) g9
  obtain ⟨m, e1, s1, q1⟩ := fillDbl_ok hn _ (fullRounds n) vs _ _ (newMat_sized h0 hn) hfit (by rw [g9, hr]; simp) g5
  have hset : ∀ i j, i < n → j < n → dist n m i j = some (vs.getD (i * n + j) 0) := fun i j hi hj => q1 i j hi hj (.inl (full_mem hi hj))
  have hall : allSet n m = true := allSet_iff.2 fun i j hi hj => by rw [hset i j hi hj]; rfl
  refine ⟨⟨n, m, tw⟩, ?_, rfl, rfl, fun i j hi hj => ?_⟩
  · unfold readTw
    dsimp only
    rw [skip_gap g1, size_at g2 h0 (by omega) g3]
    dsimp only
    rw [past_ne g4.ne_nil, skip_gap g4, ← past_ne g4.rest_ne, e1]
    dsimp only
    rw [past_ne g6.ne_nil, skip_gap g6, ← past_ne g6.rest_ne, ← g10, readWins_ok tw _ _ _ g7 g8]
    dsimp only
    rw [g10, if_pos hall]
  · dsimp only
    rw [hset i j hi hj, List.getD_eq_getElem?_getD, List.getElem?_eq_getElem (by have := cell_lt hi hj; omega)]
    rfl

/-! ### Texts that end too early -/

theorem dbl_none {u : List Char} (h : words u = []) : (Strm.past u).dbl.2 = none := by
  cases u with
  | nil => rfl
  | cons c u =>
    rw [show Strm.past (c :: u) = Strm.opened (c :: u) from rfl]
    unfold Strm.dbl
    rw [sentry_end h]

theorem fillDbl_short {n : Nat} : ∀ (pss : List (List (Nat × Nat))) (vs : List Int) (t u : List Char) (m : DMat), Decs t vs u → words u = [] →
    vs.length < pss.length → fillDbl n pss (Strm.past t) m = .ub := by
  intro pss
  induction pss with
  | nil => intro vs t u m _ _ h; simp at h
  | cons ps pss ih =>
    intro vs t u m hD hu hl
    cases hD with
    | done =>
      rw [fillDbl, dbl_none hu]
    | num d1 d2 d3 d4 d5 =>
      obtain ⟨x, hx, hv⟩ := dbl_at d1 d2 d3 d4
      rw [fillDbl, hx]
      dsimp only
      rw [hv]
      dsimp only
      split
      · rfl
      · exact ih _ _ _ _ d5 hu (by simpa using hl)

theorem readWins_short : ∀ (k : Nat) (vs : List Int) (u : List Char), Numerals (words u) vs → vs.length < 2 * k → readWins k (Strm.past u) = .ub := by
  intro k
  induction k with
  | zero => intro vs u _ h; omega
  | succ k ih =>
    intro vs u hN hl
    rw [readWins]
    cases hw : words u with
    | nil => rw [int_none hw]
    | cons wa ws =>
      rw [hw] at hN
      cases vs with
      | nil => exact hN.elim
      | cons a vs =>
        obtain ⟨a1, a2, a3, hN⟩ := hN
        rw [int_word hw a1 a2 a3]
        dsimp only
        have hw2 := words_tail1 hw
        cases ws with
        | nil => rw [int_none hw2]
        | cons wb ws =>
          cases vs with
          | nil => exact hN.elim
          | cons b vs =>
            obtain ⟨b1, b2, b3, hN⟩ := hN
            rw [int_word hw2 b1 b2 b3]
            dsimp only
            rw [ih vs _ (by rw [words_tail1 hw2]; exact hN) (by simp at hl; omega)]

/-- Nothing but white space: `skip` fails at the end of the file. -/
theorem skip_end : ∀ {u : List Char}, words u = [] → (Strm.opened u).skip = ⟨[], true, true⟩ := by
  intro u
  induction u with
  | nil => intro _; rfl
  | cons c u ih =>
    intro h
    have hc : isWs c = true := by
      cases hc : isWs c with
      | true => rfl
      | false =>
        rw [words_cons _ (by intro d hd; simp at hd; subst hd; exact hc) (by simp)] at h
        simp at h
    rw [skip_unfold, get_cons]
    dsimp only
    have : c ≠ '#' := by rintro rfl; exact absurd hc (by decide)
    rw [if_neg this, if_pos hc, ih (by rwa [words_ws hc] at h)]

/-- C134: with fewer distances or fewer window ends than cities need, tsptw stores variables nobody set; so it does without a file. -/
theorem tw_short {t w u0 r1 u1 : List Char} {n : Nat} {vs : List Int} (g1 : Gap (w ++ u0) t) (g2 : Numeral w n) (h0 : 0 < n) (hn : n ≤ 46340) (g3 : Stop u0) (g4 : Gap r1 u0)
    (g5 : Decs r1 vs u1) :
    (words u1 = [] → vs.length < n * n → readTw (Strm.opened t) = .ub) ∧
    (words u1 = [] → vs.length = n * n → readTw (Strm.opened t) = .ub) ∧
    (∀ r2 ws, Gap r2 u1 → vs.length = n * n → Numerals (words r2) ws → ws.length < 2 * n → readTw (Strm.opened t) = .ub) ∧
    readTw Strm.missing = .ub := by
  have hlen : (fullRounds n).length = n * n := by rw [fullRounds_eq]; simp
  have hfill : vs.length = n * n → ∃ m, fillDbl n (fullRounds n) (Strm.past r1) (newMat n) = .ok (m, Strm.past u1) := fun g9 => by
    obtain ⟨m, e1, _, _⟩ := fillDbl_ok hn _ (fullRounds n) vs _ _ (newMat_sized h0 hn) (full_fits (n := n) g9) (by rw [g9, hlen]) g5
    exact ⟨m, e1⟩
  refine ⟨fun hu hl => ?_, fun hu hl => ?_, fun r2 ws g6 hl hN hs => ?_, rfl⟩
  all_goals
    unfold readTw
    dsimp only
    rw [skip_gap g1, size_at g2 h0 (by omega) g3]
    dsimp only
    rw [past_ne g4.ne_nil, skip_gap g4, ← past_ne g4.rest_ne]
  · rw [fillDbl_short _ _ _ _ _ g5 hu (by rw [hlen]; exact hl)]
  · obtain ⟨m, e1⟩ := hfill hl
    rw [e1]
    dsimp only
    have he : (Strm.past u1).skip = ⟨[], true, true⟩ := by
      cases u1 with
      | nil => rfl
      | cons c u1 => exact skip_end hu
    rw [he]
    cases n with
    | zero => omega
    | succ n => rfl
  · obtain ⟨m, e1⟩ := hfill hl
    rw [e1]
    dsimp only
    rw [past_ne g6.ne_nil, skip_gap g6, ← past_ne g6.rest_ne, readWins_short n ws r2 hN hs]

/-! ### The search -/

/-- The values of the text, written in turn. -/
def putAll (n : Nat) : List (List (Nat × Nat)) → List Int → DMat → Option DMat
  | ps :: pss, v :: vs, m => (putCells n v ps m).bind (putAll n pss vs)
  | _, _, m => some m

theorem fillDbl_vals {n : Nat} : ∀ (pss : List (List (Nat × Nat))) (vs : List Int) (t u : List Char) (m : DMat), Decs t vs u → vs.length = pss.length →
    fillDbl n pss (Strm.past t) m = match putAll n pss vs m with
      | none => .ub
      | some m' => .ok (m', Strm.past u) := by
  intro pss
  induction pss with
  | nil =>
    intro vs t u m hD hl
    cases hD with
    | done => rfl
    | num => simp at hl
  | cons ps pss ih =>
    intro vs t u m hD hl
    cases hD with
    | done => simp at hl
    | num d1 d2 d3 d4 d5 =>
      obtain ⟨x, hx, hv⟩ := dbl_at d1 d2 d3 d4
      rw [fillDbl, hx, putAll]
      dsimp only
      rw [hv]
      dsimp only
      cases putCells n _ ps m with
      | none => rfl
      | some m1 => exact ih _ _ _ m1 d5 (by simpa using hl)

theorem tw_matrix {t : List Char} {n : Nat} {vs : List Int} {tw : List (Int × Int)} (h : TwText t n vs tw) (h0 : 0 < n) (hn : n ≤ 46340) {F : TwFile}
    (hF : readTw (Strm.opened t) = .ok F) : F.nv = n ∧ some F.d = putAll n (fullRounds n) vs (newMat n) := by
  obtain ⟨g1, g2, g3, g4, g5, g6, g7, g8, g9, g10⟩ := h
  unfold readTw at hF
  dsimp only at hF
  rw [skip_gap g1, size_at g2 h0 (by omega) g3] at hF
  dsimp only at hF
  rw [past_ne g4.ne_nil, skip_gap g4, ← past_ne g4.rest_ne, fillDbl_vals _ _ _ _ _ g5 (by rw [g9, fullRounds_eq]; simp)] at hF
  cases hm : putAll n (fullRounds n) vs (newMat n) with
  | none => rw [hm] at hF; cases hF
  | some m =>
    rw [hm] at hF
    dsimp only at hF
    rw [past_ne g6.ne_nil, skip_gap g6, ← past_ne g6.rest_ne, ← g10, readWins_ok tw _ _ _ g7 g8] at hF
    dsimp only at hF
    split at hF
    · cases hF; exact ⟨g10, rfl⟩
    · cases hF

/-- C134: two texts with the same cities and distances give the same search, whatever their windows. -/
theorem tw_ignores {t t' : List Char} {n : Nat} {vs : List Int} {tw tw' : List (Int × Int)} (h : TwText t n vs tw) (h' : TwText t' n vs tw') (h0 : 0 < n) (hn : n ≤ 46340)
    (u : Nat) (J : Int) (w dfuel : Nat) (lim : Nat → Bool) (fuel : Nat) :
    ∃ F F', readTw (Strm.opened t) = .ok F ∧ readTw (Strm.opened t') = .ok F' ∧ F.twin = tw ∧ F'.twin = tw' ∧
      BB.search (F.tsp4.mdlTw u J) w dfuel lim fuel 2147483647 = BB.search (F'.tsp4.mdlTw u J) w dfuel lim fuel 2147483647 := by
  obtain ⟨F, h1, _, h2, _⟩ := tw_reads h h0 hn
  obtain ⟨F', h1', _, h2', _⟩ := tw_reads h' h0 hn
  obtain ⟨a, b⟩ := tw_matrix h h0 hn h1
  obtain ⟨a', b'⟩ := tw_matrix h' h0 hn h1'
  refine ⟨F, F', h1, h1', h2, h2', ?_⟩
  have e1 : F.nv = F'.nv := a.trans a'.symm
  have e2 : F.d = F'.d := Option.some.inj (b.trans b'.symm)
  unfold TwFile.tsp4
  rw [e1, e2]

/-- The instance the lambdas are given. -/
theorem tw_given {F : TwFile} {n : Nat} {vs : List Int} (h2 : F.nv = n) (h0 : 0 < n) (hl : vs.length = n * n) (h3 : ∀ i j, i < n → j < n → dist n F.d i j = vs[i * n + j]?)
    {D : Int} (hP : (rowsTsp4 n vs).Nonneg) (hB : (rowsTsp4 n vs).Bnd D) :
    F.tsp4.nv = n ∧ F.tsp4.Nonneg ∧ F.tsp4.Bnd D ∧ F.tsp4.Tour = (rowsTsp4 n vs).Tour :=
  tsp4_given (F := ⟨F.nv, F.d⟩) (u := rowsTsp4 n vs) h2 h0 (fun i j hi hj => by
    rw [show (rowsTsp4 n vs).nv = n from rfl] at hi hj ⊢
    rw [h3 i j hi hj]
    simp only [rowsTsp4, List.getD_eq_getElem?_getD]
    rw [List.getElem?_eq_getElem (by have := cell_lt hi hj; omega)]
    rfl) hP hB

/-- C134: from the text to the answer.  On the text of an instance whose distances are not negative and not too long, the search of tsptw ends, and
everything it reports is a tour of the matrix in the text with its length, whatever the width, the limit, and the value read at the root. -/
theorem tw_sound {t : List Char} {n : Nat} {vs : List Int} {tw : List (Int × Int)} (h : TwText t n vs tw) (h0 : 0 < n) (hn : n ≤ 46340) {D : Int}
    (hP : (rowsTsp4 n vs).Nonneg) (hB : (rowsTsp4 n vs).Bnd D) (J : Int) (w : Nat) {dfuel : Nat} (hdf : n + 2 ≤ dfuel) (lim : Nat → Bool) :
    ∃ F, readTw (Strm.opened t) = .ok F ∧ F.twin = tw ∧
      (∃ L, ∀ k, L < k → ∃ s, BB.search (F.tsp4.mdlTw 1 J) w dfuel lim k 2147483647 = some s ∧ (s.stopped = true ∨ Heap.empty s.pq = true)) ∧
      ∀ k s, BB.search (F.tsp4.mdlTw 1 J) w dfuel lim k 2147483647 = some s → ∀ x, x ∈ s.sols → (rowsTsp4 n vs).Tour x.2 x.1 := by
  obtain ⟨F, h1, h2, h3, h4⟩ := tw_reads h h0 hn
  have hl : vs.length = n * n := by obtain ⟨_, _, _, _, _, _, _, _, g9, _⟩ := h; exact g9
  obtain ⟨k1, k2, k3, k4⟩ := tw_given h2 h0 hl h4 hP hB
  refine ⟨F, h1, h3, (tspv_search_ends F.tsp4 (u := 1) (J := J) (by rw [k1]; exact h0) k2 k3 w (by rw [k1]; exact hdf) lim).1 _ (.inr (.inl rfl)), fun k s hs x hx => ?_⟩
  have := ((tspv_search_sound F.tsp4 (u := 1) (J := J) (by rw [k1]; exact h0) k2 k3 w dfuel k lim).1 _ (.inr (.inl rfl)) s hs).1 x hx
  rwa [k4] at this

/-- C134: and with the width of C127 it ends with a shortest tour of that matrix unless stopped, if the value read at the root is at most the length of
every tour.  Missing: other values there (`tspv_root_false`), and the windows (`tw_windows_false`). -/
theorem tw_program_partial {t : List Char} {n : Nat} {vs : List Int} {tw : List (Int × Int)} (h : TwText t n vs tw) (h0 : 0 < n) (hn : n ≤ 46340) {D : Int}
    (hP : (rowsTsp4 n vs).Nonneg) (hB : (rowsTsp4 n vs).Bnd D) {J : Int} (hJ : ∀ ls c, (rowsTsp4 n vs).Tour ls c → J ≤ c)
    {w dfuel : Nat} (hw1 : 1 ≤ w) (hw2 : tourWidth n ≤ w) (hdf : n + 2 ≤ dfuel) (lim : Nat → Bool) :
    ∃ F, readTw (Strm.opened t) = .ok F ∧ F.twin = tw ∧ Solves (F.tsp4.mdlTw 1 J) (rowsTsp4 n vs).Tour w dfuel lim := by
  obtain ⟨F, h1, h2, h3, h4⟩ := tw_reads h h0 hn
  have hl : vs.length = n * n := by obtain ⟨_, _, _, _, _, _, _, _, g9, _⟩ := h; exact g9
  obtain ⟨k1, k2, k3, k4⟩ := tw_given h2 h0 hl h4 hP hB
  refine ⟨F, h1, h3, (tspv_search_ends F.tsp4 (u := 1) (J := J) (by rw [k1]; exact h0) k2 k3 w (by rw [k1]; exact hdf) lim).1 _ (.inr (.inl rfl)), fun k s hs hns => ?_⟩
  have := (tspv_search_width_partial (t := F.tsp4) (u := 1) (J := J) (by rw [k1]; exact h0) k2 k3 (by rw [k4]; exact hJ) hw1 (by rw [k1]; exact hw2)).1 _ (.inr (.inl rfl)) s hs hns
  rwa [k4] at this

/-! ### Cases -/

/-- Going to these cities in turn, waiting for windows to open, every city is reached before its window closes. -/
def onTime (u : Tsp4) (tw : List (Int × Int)) : Int → Nat → List Nat → Bool
  | _, _, [] => true
  | now, a, b :: p =>
    let win := tw.getD b (0, 0)
    decide (max (now + u.d a b) win.1 ≤ win.2) && onTime u tw (max (now + u.d a b) win.1) b p

/-- The tour keeps to the windows. -/
def Timely (u : Tsp4) (tw : List (Int × Int)) (ls : List Int) : Prop := onTime u tw (tw.getD 0 (0, 0)).1 0 (ls.map Int.toNat) = true

instance (u : Tsp4) (tw : List (Int × Int)) (ls : List Int) : Decidable (Timely u tw ls) := inferInstanceAs (Decidable (_ = true))

/-- The distances of three cities, in several ways to write them. -/
def twRows : List Char := ['0', ' ', '1', ' ', '5', '.', '0', '\n', '5', ' ', '0', ' ', '1', '.', '\n', '1', ' ', '5', ' ', '+', '0']

theorem intDec_digit {c : Char} {v : Nat} (h : isDig c = true) (hv : digVal 0 [c] = v) : IntDec [c] v :=
  ⟨[], [c], [], false, .inl ⟨rfl, rfl⟩, by simpa using h, by simp, by simp, .inl ⟨rfl, rfl⟩, by rw [List.append_nil, hv]; simp [signed]⟩

theorem twRows_decs {u : List Char} (hu : Stop u) : Decs (twRows ++ u) [0, 1, 5, 5, 0, 1, 1, 5, 0] u := by
  have hsp : ∀ t, Stop (' ' :: t) := fun t c hc => by simp at hc; subst hc; exact .inl (by decide)
  have hnl : ∀ t, Stop ('\n' :: t) := fun t c hc => by simp at hc; subst hc; exact .inl (by decide)
  have d0 : IntDec ['0'] 0 := intDec_digit (v := 0) (by decide) (by decide)
  have d1 : IntDec ['1'] 1 := intDec_digit (v := 1) (by decide) (by decide)
  have d5 : IntDec ['5'] 5 := intDec_digit (v := 5) (by decide) (by decide)
  have p0 : IntDec ['+', '0'] 0 := ⟨['+'], ['0'], [], false, .inr (.inl ⟨rfl, rfl⟩), by decide, by simp, by simp, .inl ⟨rfl, rfl⟩, by decide⟩
  have p1 : IntDec ['1', '.'] 1 := ⟨[], ['1'], [], false, .inl ⟨rfl, rfl⟩, by decide, by simp, by simp, .inr rfl, by decide⟩
  have p5 : IntDec ['5', '.', '0'] 5 := ⟨[], ['5'], ['0'], false, .inl ⟨rfl, rfl⟩, by decide, by decide, by simp, .inr rfl, by decide⟩
  show Decs ([] ++ ['0'] ++ ([' '] ++ ['1'] ++ ([' '] ++ ['5', '.', '0'] ++ (['\n'] ++ ['5'] ++ ([' '] ++ ['0'] ++ ([' '] ++ ['1', '.'] ++ (['\n'] ++ ['1'] ++ ([' '] ++ ['5'] ++ ([' '] ++ ['+', '0'] ++ (u)))))))))) _ _
  exact .num (by simp) d0 (by decide) (hsp _) (.num (by decide) d1 (by decide) (hsp _) (.num (by decide) p5 (by decide) (hnl _)
    (.num (by decide) d5 (by decide) (hsp _) (.num (by decide) d0 (by decide) (hsp _) (.num (by decide) p1 (by decide) (hnl _)
    (.num (by decide) d1 (by decide) (hsp _) (.num (by decide) d5 (by decide) (hsp _) (.num (by decide) p0 (by decide) hu .done))))))))

/-- A file: the city 1 opens at 10, the city 2 closes at 5. -/
def twFile : List Char :=
  '#' :: ([' ', 't', 'h', 'r', 'e', 'e', ' ', 'c', 'i', 't', 'i', 'e', 's'] ++ '\n' :: (['3'] ++ ' ' :: '#' :: ([' ', 'a', 'n', 'd', ' ', 't', 'h', 'e', 'i', 'r', ' ', 'd', 'i', 's', 't', 'a', 'n', 'c', 'e', 's'] ++ '\n' :: (twRows ++ '\n' :: '#' :: (['w', 'i', 'n', 'd', 'o', 'w', 's'] ++ '\n' :: ['0', ' ', '1', '0', '0', '\n', '1', '0', ' ', '2', '0', '\n', '0', ' ', '5', '\n'])))))

theorem twFile_text : TwText twFile 3 [0, 1, 5, 5, 0, 1, 1, 5, 0] [(0, 100), (10, 20), (0, 5)] :=
  .mk (w := ['3']) (u0 := ' ' :: '#' :: ([' ', 'a', 'n', 'd', ' ', 't', 'h', 'e', 'i', 'r', ' ', 'd', 'i', 's', 't', 'a', 'n', 'c', 'e', 's'] ++ '\n' :: (twRows ++ '\n' :: '#' :: (['w', 'i', 'n', 'd', 'o', 'w', 's'] ++ '\n' :: ['0', ' ', '1', '0', '0', '\n', '1', '0', ' ', '2', '0', '\n', '0', ' ', '5', '\n']))))
    (r1 := twRows ++ '\n' :: '#' :: (['w', 'i', 'n', 'd', 'o', 'w', 's'] ++ '\n' :: ['0', ' ', '1', '0', '0', '\n', '1', '0', ' ', '2', '0', '\n', '0', ' ', '5', '\n']))
    (ws := [['0'], ['1', '0', '0'], ['1', '0'], ['2', '0'], ['0'], ['5']]) (extra := [])
    (.comment (by decide +kernel) (.done rfl (by decide) (by decide))) num3 (fun c hc => by simp at hc; subst hc; exact .inl (by decide))
    (.blank (by decide) (.comment (by decide +kernel) (.done rfl (by decide) (by decide))))
    (twRows_decs fun c hc => by simp at hc; subst hc; exact .inl (by decide))
    (.blank (by decide) (.comment (by decide +kernel) (.done rfl (by decide) (by decide)))) (by decide +kernel)
    ⟨num0, by decide, by decide, ⟨['1', '0', '0'], by simp, by decide, .inl ⟨rfl, by decide⟩⟩, by decide, by decide, ⟨['1', '0'], by simp, by decide, .inl ⟨rfl, by decide⟩⟩, by decide, by decide,
      ⟨['2', '0'], by simp, by decide, .inl ⟨rfl, by decide⟩⟩, by decide, by decide, num0, by decide, by decide, num5, by decide, by decide, trivial⟩ rfl rfl


/-- It is read as meant. -/
example : ∃ F, readTw (Strm.opened twFile) = .ok F ∧ F.nv = 3 ∧ F.twin = [(0, 100), (10, 20), (0, 5)] ∧ dist 3 F.d 0 2 = some 5 := by
  obtain ⟨F, h1, h2, h3, h4⟩ := tw_reads twFile_text (by decide) (by decide)
  exact ⟨F, h1, h2, h3, h4 0 2 (by decide) (by decide)⟩

theorem tw3_nonneg : (rowsTsp4 3 [0, 1, 5, 5, 0, 1, 1, 5, 0]).Nonneg := fun i j hi hj =>
  (by decide : ∀ i, i < 3 → ∀ j, j < 3 → 0 ≤ (rowsTsp4 3 [0, 1, 5, 5, 0, 1, 1, 5, 0]).d i j) i hi j hj

theorem tw3_bnd : (rowsTsp4 3 [0, 1, 5, 5, 0, 1, 1, 5, 0]).Bnd 5 := ⟨by decide, fun i j hi hj _ =>
  (by decide : ∀ i, i < 3 → ∀ j, j < 3 → (rowsTsp4 3 [0, 1, 5, 5, 0, 1, 1, 5, 0]).d i j ≤ 5) i hi j hj, by decide⟩

example (lim : Nat → Bool) : ∃ F, readTw (Strm.opened twFile) = .ok F ∧ F.twin = [(0, 100), (10, 20), (0, 5)] ∧
    Solves (F.tsp4.mdlTw 1 0) (rowsTsp4 3 [0, 1, 5, 5, 0, 1, 1, 5, 0]).Tour 2 5 lim :=
  tw_program_partial twFile_text (by decide) (by decide) tw3_nonneg tw3_bnd (Tsp4.tour_nonneg _ (by decide) tw3_nonneg) (by decide) (by decide +kernel) (by decide) lim

/-- C134, the false part: on this file tsptw ends with a tour that reaches the city 2 after its window has closed, although another tour keeps to all windows. -/
theorem tw_windows_false : ∃ (t : List Char) (tw : List (Int × Int)) (u : Tsp4) (F : TwFile) (s : BB.BS Tsp4S),
    readTw (Strm.opened t) = .ok F ∧ F.twin = tw ∧ BB.search (F.tsp4.mdlTw 1 0) 3 30 (fun _ => false) 50 2147483647 = some s ∧ s.stopped = false ∧ Heap.empty s.pq = true ∧
      u.Tour s.inc s.primal ∧ ¬ Timely u tw s.inc ∧ ∃ ls c, u.Tour ls c ∧ Timely u tw ls := by
  obtain ⟨F, h1, h2, h3, h4⟩ := tw_reads twFile_text (by decide) (by decide)
  have hv : (match readTw (Strm.opened twFile) with
      | .ok F => (BB.search (F.tsp4.mdlTw 1 0) 3 30 (fun _ => false) 50 2147483647).map fun s : BB.BS Tsp4S => (s.stopped, Heap.empty s.pq, s.inc, s.primal)
      | _ => none) = some (false, true, [1, 2, 0], 3) := by decide +kernel
  rw [h1] at hv
  simp only [Option.map_eq_some_iff] at hv
  obtain ⟨s, e1, e2⟩ := hv
  simp at e2
  obtain ⟨e2, e3, e4, e5⟩ := e2
  have tour : ∀ a b : Nat, [a, b].Nodup → (∀ i, i ∈ [a, b] ↔ i < 3 ∧ i ≠ 0) → (rowsTsp4 3 [0, 1, 5, 5, 0, 1, 1, 5, 0]).Tour [(a : Int), (b : Int), 0] ((rowsTsp4 3 [0, 1, 5, 5, 0, 1, 1, 5, 0]).length 0 [a, b, 0]) :=
    fun a b h h' => ⟨[a, b], rfl, h, h', rfl⟩
  refine ⟨twFile, _, rowsTsp4 3 [0, 1, 5, 5, 0, 1, 1, 5, 0], F, s, h1, h3, e1, e2, e3, ?_, ?_, [2, 1, 0], 15, ?_, ?_⟩
  · rw [e4, e5]
    exact tour 1 2 (by decide) (fun i => by simp; omega)
  · rw [e4]; decide
  · exact tour 2 1 (by decide) (fun i => by simp; omega)
  · decide

theorem stop_sp (t : List Char) : Stop (' ' :: t) := fun c hc => by simp at hc; subst hc; exact .inl (by decide)

/-- One city, with one window or another. -/
def oneTw (a b : Char) : List Char := ['1'] ++ ' ' :: ([] ++ ['0'] ++ (' ' :: [a, ' ', b]))

theorem oneTw_text {a b : Char} {x y : Int} (hw : words [a, ' ', b] = [[a], [b]]) (ha : a ≠ '#') (ha' : isWs a = false) (h : Numerals [[a], [b]] [x, y]) :
    TwText (oneTw a b) 1 [0] [(x, y)] :=
  .mk (w := ['1']) (u0 := ' ' :: ([] ++ ['0'] ++ (' ' :: [a, ' ', b]))) (r1 := [] ++ ['0'] ++ (' ' :: [a, ' ', b])) (u1 := ' ' :: [a, ' ', b]) (extra := [])
    (.done rfl (by decide) (by decide)) num1 (stop_sp _) (.blank (by decide) (.done rfl (by decide) (by decide)))
    (.num (by simp) (intDec_digit (v := 0) (by decide) (by decide)) (by decide) (stop_sp _) .done)
    (.blank (by decide) (.done rfl ha' ha)) hw h rfl rfl

/-- Their searches are the same. -/
example (w dfuel fuel : Nat) (lim : Nat → Bool) : ∃ F F', readTw (Strm.opened (oneTw '3' '4')) = .ok F ∧ readTw (Strm.opened (oneTw '5' '9')) = .ok F' ∧ F.twin = [(3, 4)] ∧ F'.twin = [(5, 9)] ∧
    BB.search (F.tsp4.mdlTw 1 0) w dfuel lim fuel 2147483647 = BB.search (F'.tsp4.mdlTw 1 0) w dfuel lim fuel 2147483647 :=
  tw_ignores (oneTw_text (by decide +kernel) (by decide) (by decide) ⟨num3, by decide, by decide, num4, by decide, by decide, trivial⟩)
    (oneTw_text (by decide +kernel) (by decide) (by decide) ⟨num5, by decide, by decide, num9, by decide, by decide, trivial⟩) (by decide) (by decide) 1 0 w dfuel lim fuel

/-- A text that ends behind the matrix. -/
example : readTw (Strm.opened (['1'] ++ ' ' :: ([] ++ ['0'] ++ []))) = .ub :=
  (tw_short (t := ['1'] ++ ' ' :: ([] ++ ['0'] ++ [])) (w := ['1']) (u0 := ' ' :: ([] ++ ['0'] ++ [])) (r1 := [] ++ ['0'] ++ []) (u1 := []) (n := 1)
    (.done rfl (by decide) (by decide)) num1 (by decide) (by decide) (stop_sp _) (.blank (by decide) (.done rfl (by decide) (by decide)))
    (.num (by simp) (intDec_digit (v := 0) (by decide) (by decide)) (by decide) (fun c hc => by simp at hc) .done)).2.1 rfl rfl

end Verif.Ex
