import Verif.Dimacs
import Verif.Props.GNSet
import Verif.Props.MispRoom
/-!
# What the graph readers read
-/
namespace Verif.IO

theorem dropWhile_nil {p : Char → Bool} : ∀ {l : List Char}, l.dropWhile p = [] ↔ ∀ c, c ∈ l → p c = true := by
  intro l
  induction l with
  | nil => simp
  | cons c l ih =>
    by_cases h : p c = true
    · rw [List.dropWhile_cons_of_pos h, ih]; simp [h]
    · rw [List.dropWhile_cons_of_neg h]; simp [h]

theorem all_ws {l : List Char} (h : words l = []) : ∀ c, c ∈ l → isWs c = true := by
  have hd := words_drop l
  rw [h] at hd
  have he : l.dropWhile isWs = [] := by
    by_cases hne : l.dropWhile isWs = []
    · exact hne
    · have := words_cons _ (dropWhile_head isWs l) hne
      rw [hd] at this
      simp at this
  exact dropWhile_nil.1 he

theorem words_all_ws {l : List Char} (h : ∀ c, c ∈ l → isWs c = true) : words l = [] := by
  induction l with
  | nil => rfl
  | cons c l ih => rw [words_ws (h c (by simp))]; exact ih (fun d hd => h d (by simp [hd]))

theorem words_ne {c : Char} (h : isWs c = false) (l : List Char) : words (c :: l) ≠ [] := by
  rw [words_cons _ (by intro d hd; simp at hd; subst hd; exact h) (by simp)]
  simp

theorem words_append : ∀ (l r : List Char), (∀ c, r.head? = some c → isWs c = true) → words (l ++ r) = words l ++ words r := by
  intro l
  induction l with
  | nil => intro r _; simp [words]
  | cons c l ih =>
    intro r hr
    by_cases hc : isWs c = true
    · rw [List.cons_append, words_ws hc, words_ws hc]; exact ih r hr
    · cases l with
      | nil =>
        cases r with
        | nil => simp [words, hc]
        | cons d ds =>
          have hd := hr d rfl
          rw [words_ws hd]
          simp [words, hc, hd]
      | cons d ds =>
        have := ih r hr
        by_cases hd : isWs d = true
        · rw [List.cons_append, words_ws hd, words_ws hd] at this
          simp [words, hc, hd, this]
        · have hne := words_ne (by simpa using hd) ds
          have e1 : words (c :: d :: (ds ++ r)) = match words (d :: (ds ++ r)) with | [] => [[c]] | w :: ws => (c :: w) :: ws := by
            rw [words, if_neg hc]; simp only [hd, Bool.false_eq_true, if_false]; rfl
          have e2 : words (c :: d :: ds) = match words (d :: ds) with | [] => [[c]] | w :: ws => (c :: w) :: ws := by
            rw [words, if_neg hc]; simp only [hd, Bool.false_eq_true, if_false]; rfl
          rw [List.cons_append, List.cons_append, e1, e2, ← List.cons_append, this]
          cases hw : words (d :: ds) with
          | nil => exact absurd hw hne
          | cons w ws => rfl

theorem tail1_append {l r : List Char} (h : words l ≠ []) (hr : ∀ c, r.head? = some c → isWs c = true) : tail1 (l ++ r) = tail1 l ++ r := by
  have hne : l.dropWhile isWs ≠ [] := by
    intro e; apply h; rw [← words_drop, e]; rfl
  unfold tail1
  rw [List.dropWhile_append]
  have : (l.dropWhile isWs).isEmpty = false := by cases hh : l.dropWhile isWs with | nil => exact absurd hh hne | cons _ _ => rfl
  rw [this]
  simp only [Bool.false_eq_true, if_false]
  rw [List.dropWhile_append]
  split
  · rename_i he
    have he' := List.isEmpty_iff.1 he
    rw [he']
    cases r with
    | nil => rfl
    | cons c r => rw [List.dropWhile_cons_of_neg (by simp [hr c rfl])]; rfl
  · rfl

theorem tail1_length {l : List Char} (h : words l ≠ []) : (tail1 l).length + 1 ≤ l.length := by
  cases hw : words l with
  | nil => exact absurd hw h
  | cons w ws =>
    obtain ⟨h1, _, h3, _⟩ := sentry_word hw
    have hd : w ++ tail1 l = l.dropWhile isWs := by
      unfold Strm.sentry Strm.opened at h1
      simp only [Bool.or_self, Bool.false_eq_true, if_false] at h1
      split at h1
      · simp at h1
      · simp at h1; exact h1.symm
    have := (List.dropWhile_sublist isWs (l := l)).length_le
    rw [← hd, List.length_append] at this
    have : 0 < w.length := List.length_pos_iff.2 h3
    omega

/-- After the words of `l`, white space and what follows `l` is left. -/
theorem after_append : ∀ (n : Nat) (l r : List Char), (words l).length = n → (∀ c, r.head? = some c → isWs c = true) →
    ∃ s : List Char, (∀ c, c ∈ s → isWs c = true) ∧ after n (l ++ r) = s ++ r ∧ s.length + n ≤ l.length := by
  intro n
  induction n with
  | zero => intro l r h _; exact ⟨l, all_ws (List.length_eq_zero_iff.1 h), rfl, Nat.le_refl _⟩
  | succ n ih =>
    intro l r h hr
    have hne : words l ≠ [] := by intro e; rw [e] at h; simp at h
    have hl := tail1_length hne
    have : (words (tail1 l)).length = n := by
      have := words_after 1 l
      rw [show after 1 l = tail1 l from rfl] at this
      rw [this, List.length_drop, h]; omega
    obtain ⟨s, h1, h2, h3⟩ := ih (tail1 l) r this hr
    refine ⟨s, h1, ?_, by omega⟩
    rw [after, tail1_append hne hr]; exact h2

/-- Reading one character of a word. -/
theorem char_word {u : List Char} {c : Char} {w : List Char} {ws : List (List Char)} (h : words u = (c :: w) :: ws) :
    (Strm.opened u).char = (Strm.opened (w ++ tail1 u), some c) := by
  unfold Strm.char
  rw [(sentry_word h).1]
  rfl

/-- Reading a word. -/
theorem word_word {u : List Char} {w : List Char} {ws : List (List Char)} (h : words u = w :: ws) :
    (Strm.opened u).word = (Strm.past (tail1 u), some w) := by
  obtain ⟨h1, _, h3, h4⟩ := sentry_word h
  have hp : ∀ c, c ∈ w → (fun c => !isWs c) c = true := by intro c hc; simp [h4 c hc]
  have hr : (tail1 u).takeWhile (fun c => !isWs c) = [] ∧ (tail1 u).dropWhile (fun c => !isWs c) = tail1 u := by
    have := tail1_head u
    cases ht : tail1 u with
    | nil => exact ⟨rfl, rfl⟩
    | cons c r =>
      rw [ht] at this
      have hc := this c rfl
      exact ⟨List.takeWhile_cons_of_neg (by simp [hc]), List.dropWhile_cons_of_neg (by simp [hc])⟩
  unfold Strm.word
  rw [h1]
  dsimp only
  rw [List.takeWhile_append_of_pos hp, List.dropWhile_append_of_pos hp, hr.1, hr.2, List.append_nil]
  rfl

theorem char_end {u : List Char} (h : words u = []) : (Strm.opened u).char = (⟨[], true, true⟩, none) := by
  unfold Strm.char
  rw [sentry_end h]

theorem char_ws {c : Char} (h : isWs c = true) (u : List Char) : (Strm.opened (c :: u)).char = (Strm.opened u).char := by
  unfold Strm.char
  have : (Strm.opened (c :: u)).sentry = (Strm.opened u).sentry := by
    unfold Strm.sentry Strm.opened
    simp only [List.dropWhile_cons_of_pos h]
    rfl
  rw [this]

theorem char_cons {c : Char} (h : isWs c = false) (u : List Char) : (Strm.opened (c :: u)).char = (Strm.opened u, some c) := by
  unfold Strm.char Strm.sentry Strm.opened
  simp only [Bool.or_self, Bool.false_eq_true, if_false]
  rw [List.dropWhile_cons_of_neg (by simp [h])]

/-- A stream that failed away from the end of the file stays so. -/
theorem stuck {s : Strm} (h1 : s.fail = true) (h2 : s.eof = false) : s.char = (s, none) ∧ s.word = (s, none) ∧ s.int = (s, none) ∧ s.line = (s, none) := by
  have hs : s.sentry = (s, false) := by
    unfold Strm.sentry
    rw [if_pos (by simp [h1])]
    cases s; cases h1; rfl
  refine ⟨by unfold Strm.char; rw [hs], by unfold Strm.word; rw [hs], by unfold Strm.int Strm.num; rw [hs], ?_⟩
  unfold Strm.line
  rw [if_pos (by simp [h1])]
  cases s; cases h1; rfl

end Verif.IO

namespace Verif.Ex
open Verif.IO

/-- A line of a graph file: a comment, the numbers of vertices and edges, an edge (vertices count from 1), or a line
without the letters c, p and e (a blank line, say). -/
inductive DLine where
  | comment
  | problem (n m : Int)
  | edge (a b : Int)
  | skip

/-- `l` is written as such a line. -/
def LineIs (l : List Char) : DLine → Prop
  | .comment => ∃ sp txt, l = sp ++ 'c' :: txt ∧ ∀ c, c ∈ sp → isWs c = true
  | .problem n m => ∃ k wn wm, words l = [['p'], k, wn, wm] ∧ Numerals [wn, wm] [n, m]
  | .edge a b => ∃ wa wb, words l = [['e'], wa, wb] ∧ Numerals [wa, wb] [a, b] ∧ -2147483648 < a ∧ -2147483648 < b
  | .skip => ∀ c, c ∈ l → c ≠ 'c' ∧ c ≠ 'p' ∧ c ≠ 'e'

/-- The text consists of such lines; the last one may lack its newline. -/
inductive Shows : List Char → List DLine → Prop
  | last {l : List Char} {x : DLine} : '\n' ∉ l → LineIs l x → Shows l [x]
  | line {l : List Char} {x : DLine} {t : List Char} {xs : List DLine} : '\n' ∉ l → LineIs l x → Shows t xs → Shows (l ++ '\n' :: t) (x :: xs)

/-- The edges the lines list, with vertices counted from 0. -/
def edgesOf (xs : List DLine) : List (Int × Int) := xs.filterMap (fun x => match x with | .edge a b => some (a - 1, b - 1) | _ => none)

/-- The numbers on the last problem line. -/
def header (xs : List DLine) : Option (Int × Int) := (xs.filterMap (fun x => match x with | .problem n m => some (n, m) | _ => none)).getLast?

theorem isWs_not {c : Char} (h : isWs c = true) : c ≠ 'c' ∧ c ≠ 'p' ∧ c ≠ 'e' := by
  refine ⟨?_, ?_, ?_⟩ <;> rintro rfl <;> exact absurd h (by decide)

theorem dim_past (fuel : Nat) (u : List Char) (g : GFile) : dimLoop (fuel + 1) (Strm.past u) g = dimLoop (fuel + 1) (Strm.opened u) g := by
  cases u with
  | cons _ _ => rfl
  | nil =>
    have := char_end (u := []) rfl
    simp only [dimLoop, this]
    rfl

theorem dim_end {fuel : Nat} {u : List Char} (h : words u = []) (g : GFile) : dimLoop (fuel + 1) (Strm.opened u) g = .ok g := by
  have := char_end h
  simp only [dimLoop, this]
  rfl

theorem dim_ws {c : Char} (h : isWs c = true) (fuel : Nat) (u : List Char) (g : GFile) : dimLoop fuel (Strm.opened (c :: u)) g = dimLoop fuel (Strm.opened u) g := by
  cases fuel with
  | zero => rfl
  | succ fuel =>
    have h0 := char_ws h u
    simp only [dimLoop, h0]
    rfl

theorem dim_other {c : Char} (h : isWs c = false) (hc : c ≠ 'c' ∧ c ≠ 'p' ∧ c ≠ 'e') (fuel : Nat) (u : List Char) (g : GFile) :
    dimLoop (fuel + 1) (Strm.opened (c :: u)) g = dimLoop fuel (Strm.opened u) g := by
  have h0 := char_cons h u
  rw [dimLoop, h0]
  simp only [hc.1, hc.2.1, hc.2.2, if_false]
  rfl

theorem dim_skips {t : List Char} {g : GFile} {R : Res GFile} (ht : ∀ fuel, t.length + 2 ≤ fuel → dimLoop fuel (Strm.opened t) g = R) :
    ∀ pre : List Char, (∀ c, c ∈ pre → c ≠ 'c' ∧ c ≠ 'p' ∧ c ≠ 'e') →
      ∀ fuel, (pre ++ t).length + 2 ≤ fuel → dimLoop fuel (Strm.opened (pre ++ t)) g = R := by
  intro pre
  induction pre with
  | nil => intro _; exact ht
  | cons c pre ih =>
    intro hp fuel hf
    have := ih (fun d hd => hp d (by simp [hd]))
    simp only [List.cons_append, List.length_cons] at hf
    by_cases hc : isWs c = true
    · rw [List.cons_append, dim_ws hc]; exact this fuel (by omega)
    · cases fuel with
      | zero => omega
      | succ fuel => rw [List.cons_append, dim_other (by simpa using hc) (hp c (by simp))]; exact this fuel (by omega)

theorem head_nl {t : List Char} : ∀ c, ('\n' :: t).head? = some c → isWs c = true := by
  intro c h; simp at h; subst h; decide

theorem dim_problem {l r : List Char} {n m : Int} (h : LineIs l (.problem n m)) (hr : ∀ c, r.head? = some c → isWs c = true) (fuel : Nat) (g : GFile) :
    ∃ s : List Char, (∀ c, c ∈ s → isWs c = true) ∧ s.length + 1 ≤ l.length ∧
      dimLoop (fuel + 2) (Strm.opened (l ++ r)) g = dimLoop (fuel + 1) (Strm.opened (s ++ r)) { g with nv := some n, ne := some m } := by
  obtain ⟨k, wn, wm, hw, ⟨n1, n2, n3, m1, m2, m3, _⟩⟩ := h
  have hw' : words (l ++ r) = ['p'] :: k :: wn :: wm :: words r := by rw [words_append _ _ hr, hw]; rfl
  obtain ⟨s, s1, s2, s3⟩ := after_append 4 l r (by rw [hw]; rfl) hr
  refine ⟨s, s1, by omega, ?_⟩
  have a1 : words (tail1 (l ++ r)) = k :: wn :: wm :: words r := by have := words_after 1 (l ++ r); rw [hw'] at this; exact this
  have a2 : words (tail1 (tail1 (l ++ r))) = wn :: wm :: words r := by have := words_after 2 (l ++ r); rw [hw'] at this; exact this
  have a3 : words (tail1 (tail1 (tail1 (l ++ r)))) = wm :: words r := by have := words_after 3 (l ++ r); rw [hw'] at this; exact this
  have e4 : tail1 (tail1 (tail1 (tail1 (l ++ r)))) = s ++ r := s2
  rw [dimLoop, char_word hw']
  simp only [List.nil_append]
  rw [word_word a1]
  dsimp only
  rw [int_word a2 n1 n2 n3]
  dsimp only
  rw [int_word a3 m1 m2 m3, e4]
  show dimLoop (fuel + 1) (Strm.past (s ++ r)) _ = _
  rw [dim_past]
  rfl

theorem dim_edge {l r : List Char} {a b : Int} (h : LineIs l (.edge a b)) (hr : ∀ c, r.head? = some c → isWs c = true) (fuel : Nat) (g : GFile) :
    ∃ s : List Char, (∀ c, c ∈ s → isWs c = true) ∧ s.length + 1 ≤ l.length ∧
      dimLoop (fuel + 2) (Strm.opened (l ++ r)) g = dimLoop (fuel + 1) (Strm.opened (s ++ r)) { g with edges := g.edges ++ [(a - 1, b - 1)] } := by
  obtain ⟨wa, wb, hw, ⟨n1, n2, n3, m1, m2, m3, _⟩, la, lb⟩ := h
  have hw' : words (l ++ r) = ['e'] :: wa :: wb :: words r := by rw [words_append _ _ hr, hw]; rfl
  obtain ⟨s, s1, s2, s3⟩ := after_append 3 l r (by rw [hw]; rfl) hr
  refine ⟨s, s1, by omega, ?_⟩
  have a1 : words (tail1 (l ++ r)) = wa :: wb :: words r := by have := words_after 1 (l ++ r); rw [hw'] at this; exact this
  have a2 : words (tail1 (tail1 (l ++ r))) = wb :: words r := by have := words_after 2 (l ++ r); rw [hw'] at this; exact this
  have e3 : tail1 (tail1 (tail1 (l ++ r))) = s ++ r := s2
  rw [dimLoop, char_word hw']
  simp only [List.nil_append]
  rw [int_opened a1 n1 n2 n3]
  dsimp only
  rw [int_word a2 m1 m2 m3, e3]
  have hne : ¬ (a = -2147483648 ∨ b = -2147483648) := by omega
  dsimp only
  rw [dim_past]
  simp [Strm.opened, hne]

/-- What reading these lines does to the instance. -/
def feed (g : GFile) : DLine → GFile
  | .problem n m => { g with nv := some n, ne := some m }
  | .edge a b => { g with edges := g.edges ++ [(a - 1, b - 1)] }
  | _ => g

theorem feed_all : ∀ (xs : List DLine) (g : GFile), (xs.foldl feed g).edges = g.edges ++ edgesOf xs ∧
    ((xs.foldl feed g).nv, (xs.foldl feed g).ne) = match header xs with | some (n, m) => (some n, some m) | none => (g.nv, g.ne) := by
  intro xs
  induction xs with
  | nil => intro g; exact ⟨by simp [edgesOf], rfl⟩
  | cons x xs ih =>
    intro g
    obtain ⟨h1, h2⟩ := ih (feed g x)
    rw [List.foldl_cons, h1, h2]
    cases x with
    | comment => exact ⟨by simp [feed, edgesOf], rfl⟩
    | skip => exact ⟨by simp [feed, edgesOf], rfl⟩
    | edge a b => exact ⟨by simp [feed, edgesOf], rfl⟩
    | problem n m =>
      refine ⟨by simp [feed, edgesOf], ?_⟩
      have : header (.problem n m :: xs) = some ((header xs).getD (n, m)) := by
        unfold header
        rw [List.filterMap_cons]
        dsimp only
        rw [List.getLast?_cons]
      rw [this]
      cases header xs <;> rfl

theorem line_nl {l : List Char} (h : '\n' ∉ l) (t : List Char) : (Strm.opened (l ++ '\n' :: t)).line.1 = Strm.opened t := by
  have hp : ∀ c, c ∈ l → (fun c => c != '\n') c = true := by
    intro c hc
    have : c ≠ '\n' := fun e => h (e ▸ hc)
    simpa using this
  unfold Strm.line Strm.opened
  simp only [Bool.or_self, Bool.false_eq_true, if_false]
  rw [List.dropWhile_append_of_pos hp, List.dropWhile_cons_of_neg (by simp)]

theorem line_last {l : List Char} (h : '\n' ∉ l) : (Strm.opened l).line.1 = ⟨[], true, l.isEmpty⟩ := by
  have hp : ∀ c, c ∈ l → (fun c => c != '\n') c = true := by
    intro c hc
    have : c ≠ '\n' := fun e => h (e ▸ hc)
    simpa using this
  unfold Strm.line Strm.opened
  simp only [Bool.or_self, Bool.false_eq_true, if_false]
  rw [dropWhile_nil.2 hp]
  have := List.takeWhile_append_of_pos hp (l₂ := [])
  rw [List.append_nil, List.takeWhile_nil, List.append_nil] at this
  rw [this]

theorem dim_comment (txt : List Char) (fuel : Nat) (g : GFile) :
    dimLoop (fuel + 1) (Strm.opened ('c' :: txt)) g = dimLoop fuel (Strm.opened txt).line.1 g := by
  rw [dimLoop, char_cons (by decide)]
  simp only [Strm.opened]
  rfl

theorem dimLoop_reads {t : List Char} {xs : List DLine} (h : Shows t xs) : ∀ (g : GFile) (fuel : Nat), t.length + 2 ≤ fuel →
    dimLoop fuel (Strm.opened t) g = .ok (xs.foldl feed g) := by
  induction h with
  | @last l x hn hl =>
    intro g
    cases x with
    | comment =>
      obtain ⟨sp, txt, rfl, hs⟩ := hl
      refine dim_skips (fun fuel hf => ?_) sp (fun c hc => isWs_not (hs c hc))
      obtain ⟨fuel, rfl⟩ : ∃ k, fuel = k + 2 := ⟨fuel - 2, by omega⟩
      rw [dim_comment, line_last (fun hm => hn (by simp [hm]))]
      rfl
    | skip =>
      intro fuel hf
      rw [← List.append_nil l] at hf ⊢
      exact dim_skips (R := .ok g) (t := []) (fun fuel hf => by
        obtain ⟨fuel, rfl⟩ : ∃ k, fuel = k + 2 := ⟨fuel - 2, by omega⟩
        exact dim_end rfl g) l hl fuel hf
    | problem n m =>
      intro fuel hf
      obtain ⟨fuel, rfl⟩ : ∃ k, fuel = k + 2 := ⟨fuel - 2, by omega⟩
      obtain ⟨s, h1, _, h3⟩ := dim_problem hl (r := []) (by simp) fuel g
      rw [List.append_nil] at h3
      rw [h3, List.append_nil, dim_end (words_all_ws h1)]
      rfl
    | edge a b =>
      intro fuel hf
      obtain ⟨fuel, rfl⟩ : ∃ k, fuel = k + 2 := ⟨fuel - 2, by omega⟩
      obtain ⟨s, h1, _, h3⟩ := dim_edge hl (r := []) (by simp) fuel g
      rw [List.append_nil] at h3
      rw [h3, List.append_nil, dim_end (words_all_ws h1)]
      rfl
  | @line l x t xs hn hl _ ih =>
    intro g
    have tl : ∀ (g : GFile) (s : List Char), (∀ c, c ∈ s → isWs c = true) → ∀ fuel, (s ++ '\n' :: t).length + 2 ≤ fuel →
        dimLoop fuel (Strm.opened (s ++ '\n' :: t)) g = .ok (xs.foldl feed g) := by
      intro g s hs
      refine dim_skips (fun fuel hf => ?_) s (fun c hc => isWs_not (hs c hc))
      rw [dim_ws (by decide)]
      simp only [List.length_cons] at hf
      exact ih g fuel (by omega)
    cases x with
    | comment =>
      obtain ⟨sp, txt, rfl, hs⟩ := hl
      rw [List.append_assoc, List.cons_append]
      refine dim_skips (fun fuel hf => ?_) sp (fun c hc => isWs_not (hs c hc))
      simp only [List.length_cons, List.length_append] at hf
      obtain ⟨fuel, rfl⟩ : ∃ k, fuel = k + 1 := ⟨fuel - 1, by omega⟩
      rw [dim_comment, line_nl (fun hm => hn (by simp [hm])), ih g fuel (by omega)]
      rfl
    | skip =>
      exact dim_skips (tl g [] (by simp)) l hl
    | problem n m =>
      intro fuel hf
      obtain ⟨fuel, rfl⟩ : ∃ k, fuel = k + 2 := ⟨fuel - 2, by omega⟩
      obtain ⟨s, h1, h2, h3⟩ := dim_problem hl head_nl fuel g
      simp only [List.length_append] at hf
      rw [h3, tl _ s h1 _ (by simp only [List.length_append]; omega)]
      rfl
    | edge a b =>
      intro fuel hf
      obtain ⟨fuel, rfl⟩ : ∃ k, fuel = k + 2 := ⟨fuel - 2, by omega⟩
      obtain ⟨s, h1, h2, h3⟩ := dim_edge hl head_nl fuel g
      simp only [List.length_append] at hf
      rw [h3, tl _ s h1 _ (by simp only [List.length_append]; omega)]
      rfl

/-- C118: a graph file in this form is read as the numbers on its last problem line and its edges in order, with
vertices counted from 0. -/
theorem dimacs_reads {t : List Char} {xs : List DLine} (h : Shows t xs) {fuel : Nat} (hf : t.length + 2 ≤ fuel) :
    readDim fuel (Strm.opened t) = .ok ⟨(header xs).map (·.1), (header xs).map (·.2), edgesOf xs⟩ := by
  rw [readDim, dimLoop_reads h _ _ hf]
  obtain ⟨h1, h2⟩ := feed_all xs ⟨none, none, []⟩
  generalize xs.foldl feed ⟨none, none, []⟩ = g at h1 h2
  cases g with
  | mk nv ne es =>
    dsimp only at h1 h2
    rw [List.nil_append] at h1
    subst h1
    generalize header xs = z at h2 ⊢
    cases z with
    | none => obtain ⟨rfl, rfl⟩ := Prod.mk.inj h2; rfl
    | some p => obtain ⟨rfl, rfl⟩ := Prod.mk.inj h2; rfl

/-- A stream that failed away from the end of the file. -/
theorem dim_stuck {s : Strm} (h1 : s.fail = true) (h2 : s.eof = false) (fuel : Nat) (g : GFile) : dimLoop (fuel + 1) s g = .ub := by
  rw [dimLoop, (stuck h1 h2).1, h2]
  simp [h2]

/-- C118, without the file: the reader switches on a character nobody set. -/
theorem dimacs_missing (fuel : Nat) : readDim (fuel + 1) Strm.missing = .ub := dim_stuck rfl rfl fuel _

/-! ### `convert` and `vertices` -/

open Verif.GNSet in
theorem new64 : Rep (GNSet.new 64) 1 (fun _ => False) where
  live := by intro h; simp [GNSet.new, ceil64] at h
  mxw := rfl
  bound := by decide
  mem := fun q => by rw [show has (GNSet.new 64) q = false from zero_has]; simp

/-- `_nbp` of a set that started with capacity 64: it is 64 while the set has one word, and a bound on the members within the words
after that. -/
def NbpOk (g : GNSet.G) (w : Nat) (M : Nat → Prop) : Prop :=
  (w = 1 ∧ g.nbp = 64 ∧ ∀ q, M q → q < 64) ∨ (2 ≤ w ∧ g.nbp < 64 * w ∧ (∀ q, M q → q ≤ g.nbp) ∧ ∃ q, 64 ≤ q ∧ M q)

theorem NbpOk.congr {g : GNSet.G} {w : Nat} {M N : Nat → Prop} (h : ∀ q, N q ↔ M q) (H : NbpOk g w M) : NbpOk g w N := by
  have : N = M := funext fun q => propext (h q)
  rw [this]; exact H

theorem NbpOk.insert {g g' : GNSet.G} {w p : Nat} {M : Nat → Prop} (H : NbpOk g w M) (hw : 0 < w) (hp : p < 2 ^ 16) (hn : g'.nbp = max g.nbp (p % 2 ^ 16)) :
    NbpOk g' (GNSet.growTo w p) (fun q => q = p ∨ M q) := by
  obtain ⟨s1, s2, s3⟩ := GNSet.growTo_spec (p := p) hw
  rw [Nat.mod_eq_of_lt hp] at hn
  rcases H with ⟨rfl, hb1, hb2⟩ | ⟨hw, hb1, hb2, x, hb3, hb4⟩
  · by_cases hc : p < 64
    · left
      refine ⟨by unfold GNSet.growTo; rw [if_pos (by omega)], by omega, ?_⟩
      rintro q (rfl | hq)
      · exact hc
      · exact hb2 q hq
    · right
      refine ⟨by omega, by omega, ?_, p, by omega, .inl rfl⟩
      rintro q (rfl | hq)
      · omega
      · have := hb2 q hq; omega
  · right
    refine ⟨by omega, by omega, ?_, x, hb3, .inr hb4⟩
    rintro q (rfl | hq)
    · omega
    · have := hb2 q hq; omega

/-- Every set of the array is in order and `v`'s holds exactly the `q` with `M v q`. -/
def AdjIs (adj : FArr.F GNSet.G) (n : Nat) (M : Nat → Nat → Prop) : Prop :=
  adj.mx = n ∧ ∀ v, v < n → ∃ g w, FArr.get adj v = some g ∧ 0 < w ∧ GNSet.Rep g w (M v) ∧ (n ≤ 2 ^ 16 → NbpOk g w (M v))

theorem adjIs_new {n : Nat} : AdjIs (FArr.mk' (GNSet.new 64) n) n (fun _ _ => False) := by
  refine ⟨rfl, fun v hv => ⟨GNSet.new 64, 1, ?_, by omega, new64, fun _ => .inl ⟨rfl, rfl, fun _ h => h.elim⟩⟩⟩
  unfold FArr.get FArr.mk'
  rw [if_pos hv, if_pos (by omega)]
  rfl

theorem growTo_le {w p : Nat} (hw : 0 < w) (h1 : w < 2 ^ 15) (hp : p < 2 ^ 20) : 0 < GNSet.growTo w p ∧ GNSet.growTo w p < 2 ^ 15 := by
  obtain ⟨s1, s2, s3⟩ := GNSet.growTo_spec (p := p) hw
  refine ⟨by omega, ?_⟩
  by_cases hc : w ≤ p / 64
  · have := s3 hc; omega
  · unfold GNSet.growTo; rw [if_pos (by omega)]; omega

theorem get_set {α : Type} {a a' : FArr.F α} {i : Nat} {v : α} (h : FArr.set a i v = some a') (j : Nat) :
    a'.mx = a.mx ∧ FArr.get a' j = if j = i then some v else FArr.get a j := by
  unfold FArr.set at h
  split at h
  · rename_i hi
    cases ht : a.tab with
    | none => rw [ht] at h; simp at h
    | some t =>
      rw [ht] at h
      simp only [Option.map_some, Option.some.injEq] at h
      subst h
      refine ⟨rfl, ?_⟩
      unfold FArr.get
      dsimp only
      rw [ht]
      by_cases hj : j = i
      · subst hj; rw [if_pos hi, if_pos rfl]; simp [upd]
      · rw [if_neg hj]; simp [upd, hj]
  · simp at h

theorem set_get {α : Type} {a : FArr.F α} {i : Nat} {x : α} (h : FArr.get a i = some x) (v : α) : ∃ a', FArr.set a i v = some a' := by
  unfold FArr.get at h
  unfold FArr.set
  split at h
  · rename_i hi
    rw [if_pos hi]
    cases ht : a.tab with
    | none => rw [ht] at h; simp at h
    | some t => exact ⟨_, rfl⟩
  · simp at h

/-- Adding an end point in range. -/
theorem addNb_ok {adj : FArr.F GNSet.G} {n : Nat} {M : Nat → Nat → Prop} (H : AdjIs adj n M) {a b : Int} (hn : n ≤ 2 ^ 20) (ha : 0 ≤ a ∧ a < n) (hb : 0 ≤ b ∧ b < n) :
    ∃ adj', addNb adj a b = some adj' ∧ AdjIs adj' n (fun v q => (v = a.toNat ∧ q = b.toNat) ∨ M v q) := by
  obtain ⟨g, w, h1, h2, R, hN⟩ := H.2 a.toNat (by omega)
  obtain ⟨k1, k2⟩ := growTo_le (p := b.toNat) h2 R.bound (by omega)
  obtain ⟨g', e1, R', _, e3⟩ := R.insert h2 k2
  obtain ⟨adj', e2⟩ := set_get h1 g'
  refine ⟨adj', ?_, ?_, fun v hv => ?_⟩
  · unfold addNb
    rw [if_neg (by omega), h1, Option.bind_some, e1, Option.bind_some, e2]
  · rw [(get_set e2 0).1]; exact H.1
  · rw [(get_set e2 v).2]
    by_cases hva : v = a.toNat
    · rw [if_pos hva]
      subst hva
      refine ⟨g', _, rfl, k1, ⟨R'.live, R'.mxw, R'.bound, fun q => by rw [R'.mem]; simp⟩, fun h16 => ?_⟩
      refine NbpOk.congr (M := fun q => q = b.toNat ∨ M a.toNat q) (fun q => by simp) ?_
      exact (hN h16).insert h2 (by omega) e3
    · rw [if_neg hva]
      obtain ⟨g2, w2, c1, c2, R2, hN2⟩ := H.2 v hv
      exact ⟨g2, w2, c1, c2, ⟨R2.live, R2.mxw, R2.bound, fun q => by rw [R2.mem]; simp [hva]⟩,
        fun h16 => NbpOk.congr (fun q => by simp [hva]) (hN2 h16)⟩

theorem addNb_bad {adj : FArr.F GNSet.G} {a b : Int} (h : a < 0 ∨ (adj.mx : Int) ≤ a) : addNb adj a b = none := by
  unfold addNb
  by_cases h0 : a < 0 ∨ b < 0
  · rw [if_pos h0]
  · rw [if_neg h0]
    unfold FArr.get
    rw [if_neg (by omega)]
    rfl

theorem addNb_mx {adj adj' : FArr.F GNSet.G} {a b : Int} (h : addNb adj a b = some adj') : adj'.mx = adj.mx := by
  unfold addNb at h
  split at h
  · simp at h
  · cases h1 : FArr.get adj a.toNat with
    | none => rw [h1] at h; simp at h
    | some g =>
      rw [h1, Option.bind_some] at h
      cases h2 : GNSet.insert g b.toNat with
      | none => rw [h2] at h; simp at h
      | some g' => rw [h2, Option.bind_some] at h; exact (get_set h 0).1

theorem addEdges_ok {n : Nat} (hn : n ≤ 2 ^ 20) : ∀ (es : List (Int × Int)) {adj : FArr.F GNSet.G} {M : Nat → Nat → Prop}, AdjIs adj n M →
    (∀ e, e ∈ es → 0 ≤ e.1 ∧ e.1 < n ∧ 0 ≤ e.2 ∧ e.2 < n) →
    ∃ adj', addEdges es adj = some adj' ∧ AdjIs adj' n (fun v q => ((v : Int), (q : Int)) ∈ es ∨ ((q : Int), (v : Int)) ∈ es ∨ M v q) := by
  intro es
  induction es with
  | nil =>
    intro adj M H _
    refine ⟨adj, rfl, H.1, fun v hv => ?_⟩
    obtain ⟨g, w, c1, c2, R, hN⟩ := H.2 v hv
    exact ⟨g, w, c1, c2, ⟨R.live, R.mxw, R.bound, fun q => by rw [R.mem]; simp⟩, fun h16 => NbpOk.congr (fun q => by simp) (hN h16)⟩
  | cons e es ih =>
    intro adj M H hes
    obtain ⟨e1, e2, e3, e4⟩ := hes e (by simp)
    obtain ⟨a1, h1, H1⟩ := addNb_ok H (a := e.1) (b := e.2) hn ⟨e1, e2⟩ ⟨e3, e4⟩
    obtain ⟨a2, h2, H2⟩ := addNb_ok H1 (a := e.2) (b := e.1) hn ⟨e3, e4⟩ ⟨e1, e2⟩
    obtain ⟨a3, h3, H3⟩ := ih H2 (fun x hx => hes x (by simp [hx]))
    refine ⟨a3, by rw [addEdges, h1, Option.bind_some, h2, Option.bind_some, h3], H3.1, fun v hv => ?_⟩
    obtain ⟨g, w, c1, c2, R, hN⟩ := H3.2 v hv
    suffices key : ∀ q : Nat, (((v : Int), (q : Int)) ∈ es ∨ ((q : Int), (v : Int)) ∈ es ∨ (v = e.2.toNat ∧ q = e.1.toNat) ∨ (v = e.1.toNat ∧ q = e.2.toNat) ∨ M v q) ↔
        (((v : Int), (q : Int)) ∈ e :: es ∨ ((q : Int), (v : Int)) ∈ e :: es ∨ M v q) by
      exact ⟨g, w, c1, c2, ⟨R.live, R.mxw, R.bound, fun q => (R.mem q).trans (key q)⟩, fun h16 => NbpOk.congr (fun q => (key q).symm) (hN h16)⟩
    intro q
    rw [List.mem_cons, List.mem_cons]
    have p1 : (v = e.1.toNat ∧ q = e.2.toNat) ↔ ((v : Int), (q : Int)) = e := by
      rw [Prod.ext_iff]; dsimp only; omega
    have p2 : (v = e.2.toNat ∧ q = e.1.toNat) ↔ ((q : Int), (v : Int)) = e := by
      rw [Prod.ext_iff]; dsimp only; omega
    rw [p1, p2]
    constructor
    · rintro (h | h | h | h | h)
      · exact .inl (.inr h)
      · exact .inr (.inl (.inr h))
      · exact .inr (.inl (.inl h))
      · exact .inl (.inl h)
      · exact .inr (.inr h)
    · rintro ((h | h) | (h | h) | h)
      · exact .inr (.inr (.inr (.inl h)))
      · exact .inl h
      · exact .inr (.inr (.inl h))
      · exact .inr (.inl h)
      · exact .inr (.inr (.inr (.inr h)))

theorem addEdges_bad : ∀ (es : List (Int × Int)) {adj : FArr.F GNSet.G} {e : Int × Int}, e ∈ es →
    (e.1 < 0 ∨ (adj.mx : Int) ≤ e.1 ∨ e.2 < 0 ∨ (adj.mx : Int) ≤ e.2) → addEdges es adj = none := by
  intro es
  induction es with
  | nil => intro _ e he; simp at he
  | cons x es ih =>
    intro adj e he hb
    rw [addEdges]
    cases h1 : addNb adj x.1 x.2 with
    | none => rfl
    | some a1 =>
      rw [Option.bind_some]
      cases h2 : addNb a1 x.2 x.1 with
      | none => rfl
      | some a2 =>
        rw [Option.bind_some]
        have m1 := addNb_mx h1
        have m2 := addNb_mx h2
        rcases List.mem_cons.1 he with rfl | he
        · by_cases hc : e.1 < 0 ∨ (adj.mx : Int) ≤ e.1
          · rw [addNb_bad hc] at h1; simp at h1
          · rw [addNb_bad (by rw [m1]; omega)] at h2; simp at h2
        · exact ih he (by rw [m2, m1]; exact hb)

/-- C120: `convert` makes the sets of neighbours, of an array of up to 2^20 sets whose edges lie in range. -/
theorem convert_ok {sz : Int} {es : List (Int × Int)} (h0 : 0 ≤ sz) (h1 : sz ≤ 2 ^ 20) (he : ∀ e, e ∈ es → 0 ≤ e.1 ∧ e.1 < sz ∧ 0 ≤ e.2 ∧ e.2 < sz) :
    ∃ adj, convert sz es = some adj ∧ adj.mx = sz.toNat ∧ ∀ v, v < sz.toNat → ∃ g, FArr.get adj v = some g ∧ g.nul = false ∧ g.mxw < 2 ^ 15 ∧
      ∀ q, GNSet.contains g q = true ↔ ((v : Int), (q : Int)) ∈ es ∨ ((q : Int), (v : Int)) ∈ es := by
  have hz : ((sz.toNat : Nat) : Int) = sz := by omega
  obtain ⟨adj, a1, a2, a3⟩ := addEdges_ok (n := sz.toNat) (by omega) es adjIs_new (by rw [hz]; exact he)
  refine ⟨adj, by unfold convert; rw [if_neg (by omega)]; exact a1, a2, fun v hv => ?_⟩
  obtain ⟨g, w, c1, c2, R, _⟩ := a3 v hv
  refine ⟨g, c1, ?_, by rw [R.mxw]; exact R.bound, fun q => ?_⟩
  · cases hg : g.nul with
    | false => rfl
    | true => have := R.live hg; rw [R.mxw] at this; omega
  · rw [GNSet.contains_eq, R.mem]; simp

/-- C120: an edge with an end point out of range makes `convert` reach outside the array. -/
theorem convert_bad {sz : Int} {es : List (Int × Int)} {e : Int × Int} (he : e ∈ es) (h : e.1 < 0 ∨ sz ≤ e.1 ∨ e.2 < 0 ∨ sz ≤ e.2) : convert sz es = none := by
  unfold convert
  by_cases h0 : sz < 0
  · rw [if_pos h0]
  · rw [if_neg h0]
    refine addEdges_bad es he ?_
    have : (FArr.mk' (GNSet.new 64) sz.toNat).mx = sz.toNat := rfl
    rw [this]
    omega

theorem foldl_growTo_lt : ∀ (l : List Nat) {w : Nat}, 0 < w → w < 2 ^ 15 → (∀ p, p ∈ l → p < 2 ^ 20) → l.foldl GNSet.growTo w < 2 ^ 15 := by
  intro l
  induction l with
  | nil => intro w _ h _; exact h
  | cons p l ih =>
    intro w h0 h1 hp
    obtain ⟨k1, k2⟩ := growTo_le h0 h1 (hp p (by simp))
    exact ih k1 k2 (fun q hq => hp q (by simp [hq]))

/-- C120: the vertices are 0 to nv-1, and there are nv of them, for up to 2^20. -/
theorem vertices_ok {nv : Int} (h0 : 0 ≤ nv) (h1 : nv ≤ 2 ^ 20) :
    ∃ g, vertices nv = some g ∧ GNSet.size g = some nv.toNat ∧ ∀ q : Nat, GNSet.contains g q = true ↔ (q : Int) < nv := by
  obtain ⟨g, e1, R, _⟩ := GNSet.Rep.insertAll (List.range nv.toNat) new64 (by decide) (by decide)
    (foldl_growTo_lt _ (by decide) (by decide) (fun p hp => by have := List.mem_range.1 hp; omega))
  have hb : g.mxw < 2 ^ 15 := by rw [R.mxw]; exact R.bound
  refine ⟨g, e1, ?_, fun q => ?_⟩
  · unfold GNSet.size
    rw [GNSet.sh_some _ hb, Bits.popAll_eq, R.elems (l := List.range nv.toNat) ⟨List.pairwise_lt_range, fun q => by simp⟩]
    simp
  · rw [GNSet.contains_eq, R.mem, List.mem_range]
    simp only [or_false]
    omega

/-! ### From the file to the answer -/

/-- The graph the lines describe: vertices 1 to `n`, here counted from 0. -/
def graphOf (n : Int) (xs : List DLine) : Misp := ⟨n.toNat, (edgesOf xs).map (fun e => (e.1.toNat, e.2.toNat)), fun _ => 1⟩

/-- C118, C119, C120 together: on a graph file with 1 to 2^20-1 vertices and edges between them, misp5.cpp reads the graph, `convert` and
`vertices` give what the search runs on, and with a width of at least 2^(n/2) the search, if nothing interrupts it, ends with a largest
independent set; at any width all it reports are independent sets with their sizes. -/
theorem misp_program {t : List Char} {xs : List DLine} (h : Shows t xs) {n m : Int} (hn : header xs = some (n, m)) (h1 : 1 ≤ n) (h2 : n < 2 ^ 20)
    (he : ∀ a b, DLine.edge a b ∈ xs → 1 ≤ a ∧ a ≤ n ∧ 1 ≤ b ∧ b ≤ n) {rfuel : Nat} (hf : t.length + 2 ≤ rfuel) :
    ∃ f adj vs, readDim rfuel (Strm.opened t) = .ok f ∧ f.nv = some n ∧ convert (n + 1) f.edges = some adj ∧ vertices n = some vs ∧
      GNSet.size vs = some (graphOf n xs).top ∧
      (∀ v, v < (graphOf n xs).top → ∃ g, FArr.get adj v = some g ∧ ∀ q, GNSet.contains g q = ((graphOf n xs).nb v).testBit q) ∧
      f.misp = graphOf n xs ∧ ∀ {w dfuel fuel : Nat} {lim : Nat → Bool} {s : BB.BS MispS},
        BB.search f.misp.mdl w dfuel lim fuel (-2147483647) = some s →
        (∀ x, x ∈ s.sols → (graphOf n xs).Ind x.2 ∧ x.1 = (graphOf n xs).wt 0 x.2) ∧
        (s.stopped = false → 2 ^ (n.toNat / 2) ≤ w →
          (graphOf n xs).Heaviest01 s.primal ∧ (graphOf n xs).Ind s.inc ∧ (graphOf n xs).wt 0 s.inc = s.primal) := by
  have hes : ∀ e, e ∈ edgesOf xs → 0 ≤ e.1 ∧ e.1 < n + 1 ∧ 0 ≤ e.2 ∧ e.2 < n + 1 := by
    intro e hm
    obtain ⟨x, hx, hxe⟩ := List.mem_filterMap.1 hm
    cases x with
    | edge a b =>
      have := he a b hx
      simp only [Option.some.injEq] at hxe
      subst hxe
      dsimp only
      omega
    | _ => simp at hxe
  obtain ⟨adj, c1, c2, c3⟩ := convert_ok (sz := n + 1) (by omega) (by omega) hes
  obtain ⟨vs, v1, v2, _⟩ := vertices_ok (nv := n) (by omega) (by omega)
  have hr := dimacs_reads h hf
  rw [hn] at hr
  refine ⟨_, adj, vs, hr, rfl, c1, v1, v2, fun v hv => ?_, rfl, ?_⟩
  · have hv' : v < n.toNat := hv
    obtain ⟨g, d1, _, _, d4⟩ := c3 v (by omega)
    refine ⟨g, d1, fun q => ?_⟩
    rw [Bool.eq_iff_iff, d4, (graphOf n xs).nb_bit]
    have conv : ∀ a b : Nat, ((a : Int), (b : Int)) ∈ edgesOf xs ↔ (a, b) ∈ (graphOf n xs).edges := by
      intro a b
      unfold graphOf
      simp only [List.mem_map]
      constructor
      · intro h; exact ⟨_, h, rfl⟩
      · rintro ⟨e, h, heq⟩
        obtain ⟨k1, _, k3, _⟩ := hes e h
        obtain ⟨p, q⟩ := e
        simp only [Prod.mk.injEq] at heq
        dsimp only at k1 k3
        have : ((a : Int), (b : Int)) = (p, q) := by rw [Prod.mk.injEq]; omega
        rw [this]; exact h
    rw [conv, conv]
  · intro w dfuel fuel lim s hs
    have ht : 0 < (graphOf n xs).top := by show 0 < n.toNat; omega
    have hw : ∀ i, 0 ≤ (graphOf n xs).w i := fun _ => by show (0 : Int) ≤ 1; omega
    exact ⟨misp_search_sound (graphOf n xs) hw ht hs, fun hns hR => misp_search_width (graphOf n xs) hw ht hR hs hns⟩

/-! ### A file -/

def pl1 : List Char := ['c', ' ', 'p', 'a', 't', 'h']
def pl2 : List Char := ['p', ' ', 'e', 'd', 'g', 'e', ' ', '3', ' ', '2']
def pl3 : List Char := ['e', ' ', '1', ' ', '2']
def pl4 : List Char := ['e', ' ', '2', ' ', '3']
/-- A comment, `p edge 3 2`, `e 1 2`, `e 2 3`. -/
def pathFile : List Char := pl1 ++ '\n' :: (pl2 ++ '\n' :: (pl3 ++ '\n' :: (pl4 ++ '\n' :: [])))
def pathLines : List DLine := [.comment, .problem 3 2, .edge 1 2, .edge 2 3, .skip]

theorem numeral1 {c : Char} {v : Nat} (h : isDig c = true) (hv : digVal 0 [c] = v) : Numeral [c] v :=
  ⟨[c], by simp, by simpa using h, .inl ⟨rfl, by rw [hv]⟩⟩

theorem pathFile_shows : Shows pathFile pathLines := by
  have n1 : Numeral ['1'] 1 := numeral1 (v := 1) (by decide +kernel) (by decide +kernel)
  have n2 : Numeral ['2'] 2 := numeral1 (v := 2) (by decide +kernel) (by decide +kernel)
  have n3 : Numeral ['3'] 3 := numeral1 (v := 3) (by decide +kernel) (by decide +kernel)
  refine Shows.line (l := pl1) (by decide +kernel) ⟨[], [' ', 'p', 'a', 't', 'h'], rfl, by simp⟩ ?_
  refine Shows.line (l := pl2) (by decide +kernel) ⟨['e', 'd', 'g', 'e'], ['3'], ['2'], by decide +kernel, ⟨n3, by decide, by decide, n2, by decide, by decide, trivial⟩⟩ ?_
  refine Shows.line (l := pl3) (by decide +kernel) ⟨['1'], ['2'], by decide +kernel, ⟨n1, by decide, by decide, n2, by decide, by decide, trivial⟩, by decide, by decide⟩ ?_
  refine Shows.line (l := pl4) (by decide +kernel) ⟨['2'], ['3'], by decide +kernel, ⟨n2, by decide, by decide, n3, by decide, by decide, trivial⟩, by decide, by decide⟩ ?_
  exact Shows.last (by simp) (by intro c hc; simp at hc)

example : readDim 40 (Strm.opened pathFile) = .ok ⟨some 3, some 2, [(0, 1), (1, 2)]⟩ := by
  rw [dimacs_reads pathFile_shows (by decide +kernel)]; rfl

example : ∃ f, readDim 40 (Strm.opened pathFile) = .ok f ∧ ∀ {dfuel fuel : Nat} {lim : Nat → Bool} {s : BB.BS MispS},
    BB.search f.misp.mdl 2 dfuel lim fuel (-2147483647) = some s → s.stopped = false → (graphOf 3 pathLines).Heaviest01 s.primal := by
  obtain ⟨f, _, _, h1, _, _, _, _, _, _, h⟩ := misp_program pathFile_shows (n := 3) (m := 2) rfl (by decide) (by decide)
    (by intro a b hab
        simp only [pathLines, List.mem_cons, reduceCtorEq, DLine.edge.injEq, List.not_mem_nil, or_false, false_or] at hab
        omega) (rfuel := 40) (by decide +kernel)
  exact ⟨f, h1, fun hs hns => ((h hs).2 hns (by decide)).1⟩

end Verif.Ex
