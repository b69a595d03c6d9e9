/-!
# Formatted input from a file, as the readers of the examples use it

`std::ifstream` with default flags (decimal, skipping white space, C locale) over the characters of a file.
The standard library is not in /repo: this module is the assumption the reader theorems rest on.
-/
namespace Verif.IO

/-- `isspace` in the C locale. -/
def isWs (c : Char) : Bool := c == ' ' || c == '\n' || c == '\t' || c == '\r' || c == '\x0b' || c == '\x0c'

/-- A decimal digit. -/
def isDig (c : Char) : Bool := 48 ≤ c.toNat && c.toNat ≤ 57

/-- A stream: the characters not read yet, `eofbit`, `failbit`. -/
structure Strm where
  rest : List Char
  eof : Bool
  fail : Bool
deriving DecidableEq, Repr

/-- `ifstream f(fName)` on a file with these characters. -/
def Strm.opened (t : List Char) : Strm := ⟨t, false, false⟩
/-- `ifstream f(fName)` when there is no such file: `failbit`, and `eof()` is false. -/
def Strm.missing : Strm := ⟨[], false, true⟩

/-- The sentry of a formatted extraction: a stream that is not good fails; otherwise white space is
skipped, and an end found there sets `eofbit` and `failbit`.  The flag says whether to go on. -/
def Strm.sentry (s : Strm) : Strm × Bool :=
  if s.eof || s.fail then ({ s with fail := true }, false)
  else
    match s.rest.dropWhile isWs with
    | [] => (⟨[], true, true⟩, false)
    | r => (⟨r, false, false⟩, true)

/-- `f >> c` for a `char`; `none` leaves the variable as it was. -/
def Strm.char (s : Strm) : Strm × Option Char :=
  match s.sentry with
  | (s', false) => (s', none)
  | (s', true) =>
    match s'.rest with
    | [] => (s', none)
    | c :: r => ({ s' with rest := r }, some c)

/-- `f >> w` for a `std::string`. -/
def Strm.word (s : Strm) : Strm × Option (List Char) :=
  match s.sentry with
  | (s', false) => (s', none)
  | (s', true) =>
    let w := s'.rest.takeWhile (fun c => !isWs c)
    let r := s'.rest.dropWhile (fun c => !isWs c)
    (⟨r, r.isEmpty, false⟩, some w)

/-- The value of a digit string. -/
def digVal (acc : Nat) (ds : List Char) : Nat := ds.foldl (fun a c => a * 10 + (c.toNat - 48)) acc

/-- `num_get` for a signed type with values `lo..hi`: an optional sign, then all digits; `eofbit` when the end is
reached; without a digit the value is 0, out of range it is the nearest, both with `failbit`. -/
def getNum (lo hi : Int) (r : List Char) : Strm × Int :=
  let neg := r.head? == some '-'
  let r1 := if neg || r.head? == some '+' then r.tail else r
  let ds := r1.takeWhile isDig
  let r2 := r1.dropWhile isDig
  if ds.isEmpty then (⟨r2, r2.isEmpty, true⟩, 0)
  else
    let v : Int := if neg then -(digVal 0 ds : Int) else digVal 0 ds
    if v < lo then (⟨r2, r2.isEmpty, true⟩, lo)
    else if hi < v then (⟨r2, r2.isEmpty, true⟩, hi)
    else (⟨r2, r2.isEmpty, false⟩, v)

/-- `f >> i` for a signed type; `none` leaves the variable as it was. -/
def Strm.num (lo hi : Int) (s : Strm) : Strm × Option Int :=
  match s.sentry with
  | (s', false) => (s', none)
  | (s', true) => ((getNum lo hi s'.rest).1, some (getNum lo hi s'.rest).2)

/-- `f >> i` for an `int`. -/
def Strm.int (s : Strm) : Strm × Option Int := s.num (-2147483648) 2147483647

/-- `std::getline(f,line)`: up to and including the next newline; `none` leaves the string as it was. -/
def Strm.line (s : Strm) : Strm × Option (List Char) :=
  if s.eof || s.fail then ({ s with fail := true }, none)
  else
    let l := s.rest.takeWhile (fun c => c != '\n')
    match s.rest.dropWhile (fun c => c != '\n') with
    | [] => (⟨[], true, l.isEmpty⟩, some l)
    | _ :: r => (⟨r, false, false⟩, some l)

/-! ### Words of a text: what the theorems speak about -/

/-- The words of a text: the longest pieces without white space. -/
def words : List Char → List (List Char)
  | [] => []
  | c :: cs =>
    if isWs c then words cs
    else
      match cs with
      | [] => [[c]]
      | d :: ds =>
        if isWs d then [c] :: words ds
        else
          match words (d :: ds) with
          | [] => [[c]]
          | w :: ws => (c :: w) :: ws

/-- `w` is a decimal numeral of value `v`: digits, possibly behind a sign. -/
def Numeral (w : List Char) (v : Int) : Prop :=
  ∃ ds : List Char, ds ≠ [] ∧ (∀ c, c ∈ ds → isDig c = true) ∧
    ((w = ds ∧ v = digVal 0 ds) ∨ (w = '-' :: ds ∧ v = -(digVal 0 ds : Int)) ∨ (w = '+' :: ds ∧ v = digVal 0 ds))

/-- The words are decimal numerals of these `int` values. -/
def Numerals : List (List Char) → List Int → Prop
  | [], [] => True
  | w :: ws, v :: vs => Numeral w v ∧ -2147483648 ≤ v ∧ v ≤ 2147483647 ∧ Numerals ws vs
  | _, _ => False

theorem isDig_ws {c : Char} (h : isDig c = true) : isWs c = false := by
  unfold isDig at h
  unfold isWs
  rw [Bool.and_eq_true, decide_eq_true_iff, decide_eq_true_iff] at h
  have key : ∀ d : Char, (d.toNat < 48 ∨ 57 < d.toNat) → c ≠ d := by rintro d hd rfl; omega
  have h1 := key ' ' (by decide)
  have h2 := key '\n' (by decide)
  have h3 := key '\t' (by decide)
  have h4 := key '\r' (by decide)
  have h5 := key '\x0b' (by decide)
  have h6 := key '\x0c' (by decide)
  simp [h1, h2, h3, h4, h5, h6]

theorem words_ws {c : Char} (h : isWs c = true) (cs : List Char) : words (c :: cs) = words cs := by
  cases cs <;> simp [words, h]

theorem words_drop : ∀ t : List Char, words (t.dropWhile isWs) = words t := by
  intro t
  induction t with
  | nil => rfl
  | cons c t ih =>
    by_cases h : isWs c = true
    · rw [List.dropWhile_cons_of_pos h, ih, words_ws h]
    · rw [List.dropWhile_cons_of_neg h]

/-- The first word of a text that starts with one, and the rest. -/
theorem words_cons : ∀ (t : List Char), (∀ c, t.head? = some c → isWs c = false) → t ≠ [] →
    words t = t.takeWhile (fun c => !isWs c) :: words (t.dropWhile (fun c => !isWs c)) := by
  intro t
  induction t with
  | nil => intro _ h; exact absurd rfl h
  | cons c t ih =>
    intro h _
    have hc : isWs c = false := h c rfl
    have hc' : ¬ isWs c = true := by simp [hc]
    cases t with
    | nil => simp [words, hc]
    | cons d ds =>
      rw [words, if_neg hc']
      by_cases hd : isWs d = true
      · simp only [hd, if_true]
        rw [List.takeWhile_cons_of_pos (by simp [hc]), List.takeWhile_cons_of_neg (by simp [hd]),
          List.dropWhile_cons_of_pos (by simp [hc]), List.dropWhile_cons_of_neg (by simp [hd]), words_ws hd]
      · have hd' : isWs d = false := by simpa using hd
        simp only [hd', Bool.false_eq_true, if_false]
        rw [ih (by intro x hx; simp at hx; rw [← hx]; exact hd') (by simp)]
        dsimp only
        rw [List.takeWhile_cons_of_pos (p := fun c => !isWs c) (by simp [hc]) (a := c), List.dropWhile_cons_of_pos (by simp [hc]) (a := c)]

/-- What follows the first word of a text. -/
def tail1 (t : List Char) : List Char := (t.dropWhile isWs).dropWhile (fun c => !isWs c)

/-- What follows the first `n` words of a text. -/
def after : Nat → List Char → List Char
  | 0, t => t
  | n + 1, t => after n (tail1 t)

theorem dropWhile_head (p : Char → Bool) (t : List Char) : ∀ c, (t.dropWhile p).head? = some c → p c = false := by
  induction t with
  | nil => intro c h; simp at h
  | cons a t ih =>
    intro c h
    by_cases ha : p a = true
    · rw [List.dropWhile_cons_of_pos ha] at h; exact ih c h
    · rw [List.dropWhile_cons_of_neg ha] at h
      simp at h; subst h; simpa using ha

/-- A good stream with a word left: the sentry stops at it. -/
theorem sentry_word {t : List Char} {w : List Char} {ws : List (List Char)} (h : words t = w :: ws) :
    (Strm.opened t).sentry = (⟨w ++ tail1 t, false, false⟩, true) ∧ words (tail1 t) = ws ∧ w ≠ [] ∧ ∀ c, c ∈ w → isWs c = false := by
  have hd := words_drop t
  rw [h] at hd
  have hne : t.dropWhile isWs ≠ [] := by intro e; rw [e] at hd; simp [words] at hd
  have hw := words_cons _ (dropWhile_head isWs t) hne
  rw [hd] at hw
  obtain ⟨h1, h2⟩ := List.cons.inj hw
  have he : w ++ tail1 t = t.dropWhile isWs := by rw [h1]; exact List.takeWhile_append_dropWhile
  refine ⟨?_, h2.symm, ?_, ?_⟩
  · unfold Strm.sentry Strm.opened
    simp only [Bool.or_self, Bool.false_eq_true, if_false]
    rw [he]
  · intro e
    rw [e] at h1
    have hh := dropWhile_head isWs t
    generalize t.dropWhile isWs = u at hne h1 hh
    cases u with
    | nil => exact hne rfl
    | cons c u =>
      rw [List.takeWhile_cons_of_pos (by simp [hh c rfl])] at h1
      simp at h1
  · intro c hc
    rw [h1] at hc
    have := List.all_eq_true.1 (List.all_takeWhile (p := fun c => !isWs c) (l := t.dropWhile isWs)) c hc
    simpa using this

/-- Nothing but white space left: an extraction fails at the end of the file. -/
theorem sentry_end {t : List Char} (h : words t = []) : (Strm.opened t).sentry = (⟨[], true, true⟩, false) := by
  have hd := words_drop t
  rw [h] at hd
  have he : t.dropWhile isWs = [] := by
    by_cases hne : t.dropWhile isWs = []
    · exact hne
    · have := words_cons _ (dropWhile_head isWs t) hne
      rw [hd] at this
      simp at this
  unfold Strm.sentry Strm.opened
  simp [he]

theorem tail1_head (t : List Char) : ∀ c, (tail1 t).head? = some c → isWs c = true := by
  intro c h
  have := dropWhile_head (fun c => !isWs c) _ c h
  simpa using this

theorem isDig_ne {c : Char} (h : isDig c = true) : c ≠ '-' ∧ c ≠ '+' := by
  unfold isDig at h
  rw [Bool.and_eq_true, decide_eq_true_iff, decide_eq_true_iff] at h
  have key : ∀ d : Char, (d.toNat < 48 ∨ 57 < d.toNat) → c ≠ d := by rintro d hd rfl; omega
  exact ⟨key _ (by decide), key _ (by decide)⟩

/-- Digits followed by white space or nothing. -/
theorem span_digits {ds r : List Char} (hd : ∀ c, c ∈ ds → isDig c = true) (hr : ∀ c, r.head? = some c → isWs c = true) :
    (ds ++ r).takeWhile isDig = ds ∧ (ds ++ r).dropWhile isDig = r := by
  have h0 : r.takeWhile isDig = [] ∧ r.dropWhile isDig = r := by
    cases r with
    | nil => exact ⟨rfl, rfl⟩
    | cons c r =>
      have hc : ¬ isDig c = true := by
        intro h
        have := isDig_ws h
        rw [hr c rfl] at this
        simp at this
      rw [List.takeWhile_cons_of_neg hc, List.dropWhile_cons_of_neg hc]
      exact ⟨rfl, rfl⟩
  rw [List.takeWhile_append_of_pos hd, List.dropWhile_append_of_pos hd, h0.1, h0.2, List.append_nil]
  exact ⟨rfl, rfl⟩

/-- Reading a numeral. -/
theorem num_word {t w : List Char} {ws : List (List Char)} {v lo hi : Int} (h : words t = w :: ws) (hn : Numeral w v) (h1 : lo ≤ v) (h2 : v ≤ hi) :
    (Strm.opened t).num lo hi = (⟨tail1 t, (tail1 t).isEmpty, false⟩, some v) := by
  obtain ⟨hs, _, _, _⟩ := sentry_word h
  obtain ⟨ds, hne, hdig, hw⟩ := hn
  have hr := tail1_head t
  obtain ⟨s1, s2⟩ := span_digits hdig hr
  have hne' : ds.isEmpty = false := by cases ds with | nil => exact absurd rfl hne | cons _ _ => rfl
  unfold Strm.num
  rw [hs]
  dsimp only
  have key : getNum lo hi (w ++ tail1 t) = (⟨tail1 t, (tail1 t).isEmpty, false⟩, v) := by
    rcases hw with ⟨rfl, hv⟩ | ⟨rfl, hv⟩ | ⟨rfl, hv⟩
    · have hh : ((w ++ tail1 t).head? == some '-') = false ∧ ((w ++ tail1 t).head? == some '+') = false := by
        cases w with
        | nil => exact absurd rfl hne
        | cons c w =>
          have := isDig_ne (hdig c (by simp))
          simp [this.1, this.2]
      unfold getNum
      simp only [hh.1, hh.2, Bool.or_self, Bool.false_eq_true, if_false, s1, s2, hne', ← hv]
      rw [if_neg (by omega), if_neg (by omega)]
    · unfold getNum
      simp only [List.cons_append, List.head?_cons, List.tail_cons, BEq.rfl, Bool.true_or, if_true, s1, s2, hne', Bool.false_eq_true, if_false, ← hv]
      rw [if_neg (by omega), if_neg (by omega)]
    · have hh : (some '+' == some '-') = false := by decide
      unfold getNum
      simp only [List.cons_append, List.head?_cons, List.tail_cons, hh, BEq.rfl, Bool.false_or, if_true, s1, s2, hne', Bool.false_eq_true, if_false, ← hv]
      rw [if_neg (by omega), if_neg (by omega)]
  rw [key]

/-- The stream after reading a word: `eofbit` is set when the word was the end of the file. -/
def Strm.past (u : List Char) : Strm := ⟨u, u.isEmpty, false⟩

theorem past_opened {u : List Char} (h : words u ≠ []) : Strm.past u = Strm.opened u := by
  cases u with
  | nil => exact absurd rfl h
  | cons _ _ => rfl

theorem int_none {u : List Char} (h : words u = []) : (Strm.past u).int.2 = none := by
  cases u with
  | nil => rfl
  | cons c u =>
    rw [show Strm.past (c :: u) = Strm.opened (c :: u) from rfl]
    unfold Strm.int Strm.num
    rw [sentry_end h]

/-- Reading an `int` written as a numeral. -/
theorem int_word {u w : List Char} {ws : List (List Char)} {v : Int} (h : words u = w :: ws) (hn : Numeral w v) (h1 : -2147483648 ≤ v) (h2 : v ≤ 2147483647) :
    (Strm.past u).int = (Strm.past (tail1 u), some v) := by
  rw [past_opened (by rw [h]; simp)]
  exact num_word h hn h1 h2

theorem int_opened {u w : List Char} {ws : List (List Char)} {v : Int} (h : words u = w :: ws) (hn : Numeral w v) (h1 : -2147483648 ≤ v) (h2 : v ≤ 2147483647) :
    (Strm.opened u).int = (Strm.past (tail1 u), some v) := num_word h hn h1 h2

theorem after_add : ∀ (a b : Nat) (t : List Char), after b (after a t) = after (a + b) t := by
  intro a
  induction a with
  | zero => intro b t; rw [Nat.zero_add]; rfl
  | succ a ih => intro b t; rw [Nat.succ_add]; exact ih b (tail1 t)

theorem words_after : ∀ (n : Nat) (t : List Char), words (after n t) = (words t).drop n := by
  intro n
  induction n with
  | zero => intro t; rfl
  | succ n ih =>
    intro t
    rw [after, ih]
    cases h : words t with
    | nil =>
      have he := words_drop t
      have : words (tail1 t) = [] := by
        have hs := sentry_end h
        unfold tail1
        rw [h] at he
        by_cases hne : t.dropWhile isWs = []
        · rw [hne]; rfl
        · have := words_cons _ (dropWhile_head isWs t) hne
          rw [he] at this
          simp at this
      rw [this]; simp
    | cons w ws => rw [(sentry_word h).2.1]; rfl

end Verif.IO
