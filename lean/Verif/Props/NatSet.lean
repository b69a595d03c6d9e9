import Verif.NatSet
import Verif.Props.Bits
/-!
# C54, C55: `NatSet` against sets of naturals below `64 * nbw`
-/
namespace Verif.NatSet
open Verif.Bits

/-! ### C54

Sets are described by expressions over the operations; the specification gives their members. -/

inductive E where
  | empty
  | range (lb ub : Nat)
  | list (l : List Nat)
  | insert (e : E) (p : Nat)
  | compl (e : E)
  | union (a b : E)
  | inter (a b : E)

/-- Value computed by the class. -/
def eval (n : Nat) : E → Option (Nat → W)
  | .empty => some zeros
  | .range lb ub => NatSet.range n lb ub
  | .list l => ofList n l zeros
  | .insert e p => (eval n e).bind (NatSet.insert n · p)
  | .compl e => (eval n e).map (complement n)
  | .union a b => (eval n a).bind fun s => (eval n b).map (unionWith n s)
  | .inter a b => (eval n a).bind fun s => (eval n b).map (interWith n s)

/-- Members according to set theory, in the universe of the naturals below `64 * n`. -/
def Mem (n : Nat) : E → Nat → Prop
  | .empty, _ => False
  | .range lb ub, q => lb ≤ q ∧ q ≤ ub
  | .list l, q => q ∈ l
  | .insert e p, q => q = p ∨ Mem n e q
  | .compl e, q => q < 64 * n ∧ ¬ Mem n e q
  | .union a b, q => Mem n a q ∨ Mem n b q
  | .inter a b, q => Mem n a q ∧ Mem n b q

/-- All values mentioned fit. -/
def Fits (n : Nat) : E → Prop
  | .empty => True
  | .range lb ub => lb ≤ ub → ub < 64 * n
  | .list l => ∀ q ∈ l, q < 64 * n
  | .insert e p => Fits n e ∧ p < 64 * n
  | .compl e => Fits n e
  | .union a b => Fits n a ∧ Fits n b
  | .inter a b => Fits n a ∧ Fits n b

theorem zeros_mem (n q : Nat) : inW zeros n q = false := by
  cases h : inW zeros n q with
  | false => rfl
  | true =>
    have := (inW_iff.1 h).2
    rw [show zeros (q / 64) = 0#64 from rfl, BitVec.getLsbD_zero] at this
    exact absurd this (by simp)

theorem insert_mem {n : Nat} {t : Nat → W} {p : Nat} (hp : p < 64 * n) :
    ∃ t', insert n t p = some t' ∧ ∀ q, inW t' n q = true ↔ q = p ∨ inW t n q = true := by
  refine ⟨upd t (p / 64) (t (p / 64) ||| bit (p % 64)), by unfold insert; rw [if_pos (by omega)], fun q => ?_⟩
  rw [inW_iff, inW_iff, upd_apply]
  by_cases h : q / 64 = p / 64
  · rw [if_pos h, BitVec.getLsbD_or, bit_get (by omega), h, Bool.or_eq_true, decide_eq_true_iff]
    constructor
    · rintro ⟨h1, h2 | h2⟩
      · exact .inr ⟨h1, h2⟩
      · exact .inl (by omega)
    · rintro (rfl | ⟨h1, h2⟩)
      · exact ⟨hp, .inr rfl⟩
      · exact ⟨h1, .inl h2⟩
  · rw [if_neg h]
    refine ⟨.inr, ?_⟩
    rintro (rfl | h1)
    · exact absurd rfl h
    · exact h1

theorem rangeLoop_mem {n lb : Nat} : ∀ k, lb + k ≤ 64 * n → ∃ t, rangeLoop n lb k = some t ∧ ∀ q, inW t n q = true ↔ lb ≤ q ∧ q < lb + k := by
  intro k
  induction k with
  | zero => intro _; exact ⟨zeros, rfl, fun q => by rw [zeros_mem]; simp⟩
  | succ k ih =>
    intro h
    obtain ⟨t, h1, h2⟩ := ih (by omega)
    obtain ⟨t', h3, h4⟩ := insert_mem (n := n) (t := t) (p := lb + k) (by omega)
    exact ⟨t', by rw [rangeLoop, h1]; exact h3, fun q => by rw [h4, h2]; omega⟩

theorem ofList_mem {n : Nat} : ∀ (l : List Nat) (t : Nat → W), (∀ q ∈ l, q < 64 * n) →
    ∃ t', ofList n l t = some t' ∧ ∀ q, inW t' n q = true ↔ q ∈ l ∨ inW t n q = true := by
  intro l
  induction l with
  | nil => intro t _; exact ⟨t, rfl, fun q => by simp⟩
  | cons p l ih =>
    intro t h
    obtain ⟨t1, h1, h2⟩ := insert_mem (n := n) (t := t) (p := p) (h p List.mem_cons_self)
    obtain ⟨t2, h3, h4⟩ := ih t1 (fun q hq => h q (List.mem_cons_of_mem _ hq))
    refine ⟨t2, by rw [ofList, h1]; exact h3, fun q => ?_⟩
    rw [h4, h2, List.mem_cons]
    constructor
    · rintro (h | rfl | h)
      · exact .inl (.inr h)
      · exact .inl (.inl rfl)
      · exact .inr h
    · rintro ((rfl | h) | h)
      · exact .inr (.inl rfl)
      · exact .inl h
      · exact .inr (.inr h)

theorem complement_mem (n : Nat) (t : Nat → W) (q : Nat) : inW (complement n t) n q = true ↔ q < 64 * n ∧ ¬ inW t n q = true := by
  rw [inW_iff, inW_iff, complement, each_apply]
  constructor
  · rintro ⟨h1, h2⟩
    rw [if_pos (by omega), BitVec.getLsbD_not] at h2
    simp only [Bool.and_eq_true, Bool.not_eq_true'] at h2
    exact ⟨h1, fun h => by rw [h2.2] at h; exact absurd h.2 (by simp)⟩
  · rintro ⟨h1, h2⟩
    rw [if_pos (by omega), BitVec.getLsbD_not]
    simp only [Bool.and_eq_true, Bool.not_eq_true', decide_eq_true_iff]
    refine ⟨h1, by omega, ?_⟩
    cases hc : (t (q / 64)).getLsbD (q % 64) with
    | false => rfl
    | true => exact absurd ⟨h1, hc⟩ h2

theorem union_mem (n : Nat) (s t : Nat → W) (q : Nat) : inW (unionWith n s t) n q = true ↔ inW s n q = true ∨ inW t n q = true := by
  rw [inW_iff, inW_iff, inW_iff, unionWith, each_apply]
  constructor
  · rintro ⟨h1, h2⟩
    rw [if_pos (by omega), BitVec.getLsbD_or, Bool.or_eq_true] at h2
    exact h2.imp (⟨h1, ·⟩) (⟨h1, ·⟩)
  · rintro (⟨h1, h2⟩ | ⟨h1, h2⟩)
    all_goals refine ⟨h1, ?_⟩; rw [if_pos (by omega), BitVec.getLsbD_or, Bool.or_eq_true]
    · exact .inl h2
    · exact .inr h2

theorem inter_mem (n : Nat) (s t : Nat → W) (q : Nat) : inW (interWith n s t) n q = true ↔ inW s n q = true ∧ inW t n q = true := by
  rw [inW_iff, inW_iff, inW_iff, interWith, each_apply]
  constructor
  · rintro ⟨h1, h2⟩
    rw [if_pos (by omega), BitVec.getLsbD_and, Bool.and_eq_true] at h2
    exact ⟨⟨h1, h2.1⟩, h1, h2.2⟩
  · rintro ⟨⟨h1, h2⟩, _, h3⟩
    refine ⟨h1, ?_⟩
    rw [if_pos (by omega), BitVec.getLsbD_and, Bool.and_eq_true]
    exact ⟨h2, h3⟩

/-- C54, membership. -/
theorem natset_mem (n : Nat) : ∀ e, Fits n e → ∃ t, eval n e = some t ∧ ∀ q, inW t n q = true ↔ Mem n e q := by
  intro e
  induction e with
  | empty => intro _; exact ⟨zeros, rfl, fun q => by rw [zeros_mem]; simp [Mem]⟩
  | range lb ub =>
    intro h
    by_cases hc : ub < lb
    · exact ⟨zeros, by simp only [eval, NatSet.range, if_pos hc], fun q => by rw [zeros_mem]; simp [Mem]; omega⟩
    · have := h (by omega)
      obtain ⟨t, h1, h2⟩ := rangeLoop_mem (n := n) (lb := lb) (ub + 1 - lb) (by omega)
      exact ⟨t, by simp only [eval, NatSet.range, if_neg hc, h1], fun q => by rw [h2]; simp only [Mem]; omega⟩
  | list l =>
    intro h
    obtain ⟨t, h1, h2⟩ := ofList_mem (n := n) l zeros h
    exact ⟨t, h1, fun q => by rw [h2, zeros_mem]; simp [Mem]⟩
  | insert e p ih =>
    intro h
    obtain ⟨t, h1, h2⟩ := ih h.1
    obtain ⟨t', h3, h4⟩ := insert_mem (n := n) (t := t) (p := p) h.2
    exact ⟨t', by rw [eval, h1]; exact h3, fun q => by rw [h4, h2]; rfl⟩
  | compl e ih =>
    intro h
    obtain ⟨t, h1, h2⟩ := ih h
    exact ⟨_, by rw [eval, h1]; rfl, fun q => by rw [complement_mem, h2]; rfl⟩
  | union a b iha ihb =>
    intro h
    obtain ⟨s, h1, h2⟩ := iha h.1
    obtain ⟨t, h3, h4⟩ := ihb h.2
    exact ⟨_, by rw [eval, h1, h3]; rfl, fun q => by rw [union_mem, h2, h4]; rfl⟩
  | inter a b iha ihb =>
    intro h
    obtain ⟨s, h1, h2⟩ := iha h.1
    obtain ⟨t, h3, h4⟩ := ihb h.2
    exact ⟨_, by rw [eval, h1, h3]; rfl, fun q => by rw [inter_mem, h2, h4]; rfl⟩

/-- `l` lists the members of the set in increasing order. -/
def Lists (l : List Nat) (M : Nat → Prop) : Prop := l.Pairwise (· < ·) ∧ ∀ q, q ∈ l ↔ M q

theorem elems_lists {t : Nat → W} {n : Nat} : Lists (elems t n) (fun q => inW t n q = true) := ⟨elems_sorted t n, fun _ => mem_elems⟩

theorem Lists.unique {l l' : List Nat} {M : Nat → Prop} (h : Lists l M) (h' : Lists l' M) : l = l' := by
  have hn : ∀ {l : List Nat}, l.Pairwise (· < ·) → l.Nodup := fun h => h.imp (fun {a b} hab => by omega)
  refine List.Perm.eq_of_pairwise (le := fun a b => a < b) (fun a b _ _ h1 h2 => by omega) h.1 h'.1 ?_
  rw [List.perm_ext_iff_of_nodup (hn h.1) (hn h'.1)]
  intro a; rw [h.2, h'.2]

theorem contains_eq {n : Nat} {t : Nat → W} {p : Nat} (hp : p < 64 * n) : contains n t p = some (inW t n p) := by
  unfold contains
  rw [if_pos (by omega)]
  congr 1
  rw [Bool.eq_iff_iff, inW_iff, decide_eq_true_iff, Ne, eq_zero_iff]
  constructor
  · intro h
    refine ⟨hp, ?_⟩
    cases hc : (t (p / 64)).getLsbD (p % 64) with
    | true => rfl
    | false =>
      exfalso; apply h
      intro i _
      rw [BitVec.getLsbD_and, bit_get (by omega)]
      by_cases hi : i = p % 64
      · rw [hi, hc]; rfl
      · simp [hi]
  · rintro ⟨_, h⟩ hc
    have := hc (p % 64) (by omega)
    rw [BitVec.getLsbD_and, bit_get (by omega), h] at this
    simp at this

theorem empty_iff (t : Nat → W) : ∀ n, empty t n = true ↔ ∀ i < n, t i = 0 := by
  intro n
  induction n with
  | zero => simp [empty]
  | succ n ih =>
    rw [empty, Bool.and_eq_true, ih, decide_eq_true_iff]
    constructor
    · rintro ⟨h1, h2⟩ i hi
      by_cases h : i = n
      · rw [h, h2]
      · exact h1 i (by omega)
    · intro h; exact ⟨fun i hi => h i (by omega), h n (by omega)⟩

theorem zero_iff {t : Nat → W} {n : Nat} : (∀ i < n, t i = 0) ↔ ∀ q, inW t n q = false := by
  constructor
  · intro h q
    cases hc : inW t n q with
    | false => rfl
    | true =>
      obtain ⟨h1, h2⟩ := inW_iff.1 hc
      rw [h _ (by omega)] at h2
      simp at h2
  · intro h i hi
    rw [eq_zero_iff]
    intro b hb
    cases hc : (t i).getLsbD b with
    | false => rfl
    | true =>
      have : inW t n (64 * i + b) = true := by
        rw [inW_iff, show (64 * i + b) / 64 = i by omega, show (64 * i + b) % 64 = b by omega]
        exact ⟨by omega, hc⟩
      rw [h] at this; exact absurd this (by simp)

theorem same_iff {s t : Nat → W} {n : Nat} : (∀ i < n, s i = t i) ↔ ∀ q, inW s n q = inW t n q := by
  constructor
  · intro h q
    by_cases hq : q < 64 * n
    · simp [inW, h (q / 64) (by omega)]
    · simp [inW, hq]
  · intro h i hi
    refine BitVec.eq_of_getLsbD_eq (fun b hb => ?_)
    have := h (64 * i + b)
    unfold inW at this
    rw [show (64 * i + b) / 64 = i by omega, show (64 * i + b) % 64 = b by omega] at this
    simpa [show 64 * i + b < 64 * n by omega] using this

theorem agree_le (s t : Nat → W) : ∀ n, agree s t n ≤ n ∧ (agree s t n = n ↔ ∀ i < n, s i = t i) := by
  intro n
  induction n with
  | zero => simp [agree]
  | succ n ih =>
    obtain ⟨h1, h2⟩ := ih
    rw [agree]
    split
    · rename_i he
      refine ⟨by omega, ?_⟩
      rw [show agree s t n + 1 = n + 1 ↔ agree s t n = n by omega, h2]
      refine ⟨fun h i hi => ?_, fun h i hi => h i (by omega)⟩
      by_cases hin : i = n
      · rw [hin, he]
      · exact h i (by omega)
    · rename_i he
      exact ⟨by omega, by omega, fun h => absurd (h n (by omega)) he⟩

theorem hash_congr {s t : Nat → W} : ∀ {n}, (∀ i < n, s i = t i) → hash s n = hash t n := by
  intro n
  induction n with
  | zero => intro _; rfl
  | succ n ih => intro h; rw [hash, hash, ih (fun i hi => h i (by omega)), h n (by omega)]

theorem mask_good {n : Nat} {it : Nat × W} (h : Good n it) : mask n it = it := by
  unfold mask
  rcases h with ⟨h1, h2⟩ | h
  · rw [if_pos h1]
  · rw [h]; simp

theorem iter_eq {n : Nat} (hn : 0 < n) (t : Nat → W) :
    iter n t = some ((elems t n).map toShort) ∧ citer n t = some ((elems t n).map toShort) := by
  obtain ⟨g1, g2⟩ := rest_begin (t := t) hn
  have hl : (elems t n).length < 64 * n + 1 := by
    have : (elems t n).length ≤ (List.range (64 * n)).length := List.length_filter_le _ _
    rw [List.length_range] at this; omega
  constructor
  · unfold iter
    rw [if_pos hn, mask_good g1, iterL_spec t n (fun it h1 h2 => mask_good (rest_next h1 h2).1) _ _ g1 (by rw [g2]; exact hl), g2]
  · unfold citer
    rw [if_pos hn, iterL_spec t n (fun _ _ _ => rfl) _ _ g1 (by rw [g2]; exact hl), g2]

/-- C54.  Queries on the value of any expression, against the members `l` of the set in increasing
order.  Iteration yields `short`s, so the values are the members up to 512 words. -/
theorem natset_queries {n : Nat} (hn : 0 < n) {e : E} (hf : Fits n e) {l : List Nat} (hl : Lists l (Mem n e)) :
    ∃ t, eval n e = some t ∧ (∀ p, p < 64 * n → contains n t p = some (decide (p ∈ l))) ∧ size n t = l.length ∧
      empty t n = decide (l = []) ∧ largest n t = (match l.getLast? with | none => -1 | some x => (x : Int)) ∧
      (n ≤ 512 → iter n t = some (l.map (fun x : Nat => (x : Int))) ∧ citer n t = some (l.map (fun x : Nat => (x : Int)))) := by
  obtain ⟨t, h1, h2⟩ := natset_mem n e hf
  have he : elems t n = l := Lists.unique (elems_lists (t := t) (n := n)) ⟨hl.1, fun q => (hl.2 q).trans (h2 q).symm⟩
  refine ⟨t, h1, fun p hp => ?_, ?_, ?_, ?_, fun h512 => ?_⟩
  · rw [contains_eq hp, ← he]
    congr 1
    rw [Bool.eq_iff_iff, decide_eq_true_iff, mem_elems]
  · rw [size, popAll_eq, he]
  · rw [Bool.eq_iff_iff, empty_iff, decide_eq_true_iff, zero_iff, ← he, List.eq_nil_iff_forall_not_mem]
    constructor
    · intro h q hq; rw [mem_elems, h] at hq; exact absurd hq (by simp)
    · intro h q
      cases hc : inW t n q with
      | false => rfl
      | true => exact absurd (mem_elems.2 hc) (h q)
  · unfold largest
    cases hw : lastWord t n with
    | none =>
      have : l = [] := by
        rw [← he, List.eq_nil_iff_forall_not_mem]
        intro q hq
        rw [mem_elems, zero_iff.1 (lastWord_none.1 hw)] at hq
        exact absurd hq (by simp)
      rw [this]; rfl
    | some lw =>
      obtain ⟨m1, m2⟩ := largest_spec hw
      have hm : 64 * lw + top (t lw) ∈ l := by rw [← he, mem_elems]; exact m1
      cases hg : l.getLast? with
      | none => rw [List.getLast?_eq_none_iff] at hg; rw [hg] at hm; simp at hm
      | some x =>
        have hx : x ∈ l := List.mem_of_getLast? hg
        have hle : x ≤ 64 * lw + top (t lw) := m2 x (by rw [← mem_elems, he]; exact hx)
        have hge : 64 * lw + top (t lw) ≤ x := by
          obtain ⟨ys, hys⟩ := List.getLast?_eq_some_iff.1 hg
          rw [hys] at hm
          have hp := hl.1
          rw [hys, List.pairwise_append] at hp
          rcases List.mem_append.1 hm with hm | hm
          · exact Nat.le_of_lt (hp.2.2 _ hm x (by simp))
          · simp at hm; omega
        simp only
        omega
  · have hs : (elems t n).map toShort = l.map (fun x : Nat => (x : Int)) := by
      rw [he]
      refine List.map_congr_left (fun x hx => toShort_eq ?_)
      have := (inW_iff.1 (mem_elems.1 (he ▸ hx : x ∈ elems t n))).1
      omega
    obtain ⟨i1, i2⟩ := iter_eq hn t
    rw [i1, i2, hs]
    exact ⟨rfl, rfl⟩

/-- C54, equality and hash. -/
theorem natset_eq {n : Nat} {a b : E} (ha : Fits n a) (hb : Fits n b) :
    ∃ s t, eval n a = some s ∧ eval n b = some t ∧ (eq n s t = true ↔ ∀ q, Mem n a q ↔ Mem n b q) ∧
      ((∀ q, Mem n a q ↔ Mem n b q) → hash s n = hash t n) := by
  obtain ⟨s, h1, h2⟩ := natset_mem n a ha
  obtain ⟨t, h3, h4⟩ := natset_mem n b hb
  have key : (∀ i < n, s i = t i) ↔ ∀ q, Mem n a q ↔ Mem n b q := by
    rw [same_iff]
    constructor
    · intro h q; rw [← h2, ← h4, h]
    · intro h q; rw [Bool.eq_iff_iff, h2, h4]; exact h q
  refine ⟨s, t, h1, h3, ?_, fun h => hash_congr (key.2 h)⟩
  rw [eq, decide_eq_true_iff, (agree_le s t n).2, key]

/-- Across a word boundary, with a complement. -/
example : ∃ t, eval 2 (.inter (.compl (.range 2 62)) (.insert (.list [1, 63, 64]) 127)) = some t ∧ size 2 t = 4 ∧
    iter 2 t = some [1, 63, 64, 127] := by
  obtain ⟨t, h1, _, h2, _, _, h3⟩ := natset_queries (n := 2) (by decide)
    (e := .inter (.compl (.range 2 62)) (.insert (.list [1, 63, 64]) 127)) (by simp [Fits]) (l := [1, 63, 64, 127])
    ⟨by decide, fun q => by simp [Mem]; omega⟩
  exact ⟨t, h1, h2, (h3 (by decide)).1⟩

/-- Iteration needs the bound: in a set of 513 words the member 32768 comes out negative. -/
theorem iter_false : ¬ ∀ (n : Nat) (t : Nat → W), 0 < n → iter n t = some ((elems t n).map (fun x : Nat => (x : Int))) := by
  intro h
  have h1 := h 513 (upd zeros 512 1) (by decide)
  rw [(iter_eq (by decide) _).1, Option.some.injEq] at h1
  have h2 : 32768 ∈ elems (upd zeros 512 1) 513 := by rw [mem_elems]; decide
  have h3 : ∀ x ∈ elems (upd zeros 512 1) 513, toShort x = (x : Int) := List.map_inj_left.1 h1
  exact absurd (h3 _ h2) (by decide)

/-! ### C55 -/

/-- Bit `p` of an array of words. -/
def rb (t : Nat → W) (p : Nat) : Bool := (t (p / 64)).getLsbD (p % 64)

theorem rb_word (t : Nat → W) (i b : Nat) (hb : b < 64) : rb t (64 * i + b) = (t i).getLsbD b := by
  unfold rb
  rw [show (64 * i + b) / 64 = i by omega, show (64 * i + b) % 64 = b by omega]

theorem flip_rb (t : Nat → W) (lw j : Nat) : rb (flip t lw) j = (decide (j < 64 * (lw + 1)) && rb t (64 * lw + 63 - j)) := by
  unfold rb flip
  by_cases h : j < 64 * (lw + 1)
  · rw [if_pos (by omega), revLong_bit _ (by omega)]
    rw [show (64 * lw + 63 - j) / 64 = lw - j / 64 by omega, show (64 * lw + 63 - j) % 64 = 63 - j % 64 by omega]
    simp [h]
  · rw [if_neg (by omega)]; simp [h]

theorem ctz_rev {w : W} (h : w ≠ 0) : ctz (revLong w) = 63 - top w := by
  obtain ⟨t1, t2, t3⟩ := top_spec h
  have hr : (revLong w).getLsbD (63 - top w) = true := by
    rw [revLong_bit _ (by omega), show 63 - (63 - top w) = top w by omega]; exact t1
  have hne : revLong w ≠ 0 := by
    intro hc; rw [hc] at hr; simp at hr
  obtain ⟨c1, c2, c3⟩ := ctz_spec hne
  rw [revLong_bit _ c2] at c1
  have h1 := t3 _ c1
  have h2 := c3 _ hr
  omega

/-- A word of the array shifted down by `0 < x < 64` bits; `x = 63` only where the next word is not read. -/
theorem down_bit {n x : Nat} {r : Nat → W} {i b : Nat} (hx0 : 0 < x) (hx : x < 64) (hx1 : x + 1 < 64 ∨ n = 1) (hb : b < 64)
    (hl : i + 1 = n → r (i + 1) = 0) (hn : n = 1 → i = 0) : (down n x r i).getLsbD b = rb r (64 * i + b + x) := by
  unfold down
  rw [BitVec.getLsbD_or, BitVec.getLsbD_ushiftRight, BitVec.getLsbD_shiftLeft]
  by_cases h : b + x < 64
  · rw [show 64 * i + b + x = 64 * i + (b + x) by omega, rb_word _ _ _ h, Nat.add_comm x b]
    simp [show b < 64 - x by omega]
  · rw [show 64 * i + b + x = 64 * (i + 1) + (b + x - 64) by omega, rb_word _ _ _ (by omega)]
    rw [BitVec.getLsbD_of_ge _ (x + b) (by omega)]
    split
    · rename_i hin
      rw [hl hin]; simp
    · rename_i hin
      have hx2 : x + 1 < 64 := by
        rcases hx1 with h1 | h1
        · exact h1
        · exact absurd (by rw [hn h1, h1]) hin
      rw [BitVec.getLsbD_and, low_get hx2, show b - (64 - x) = b + x - 64 by omega]
      simp [hb, show ¬ b < 64 - x by omega, show b + x - 64 < x + 1 by omega]

theorem downLoop_apply (n x : Nat) (r : Nat → W) : ∀ k i, downLoop n x r k i = if i < k then down n x r i else 0 := by
  intro k
  induction k with
  | zero => intro i; simp [downLoop, zeros]
  | succ k ih =>
    intro i
    rw [downLoop, upd_apply]
    by_cases h : i = k
    · subst h; simp
    · rw [if_neg h, ih]
      by_cases h2 : i < k
      · rw [if_pos h2, if_pos (by omega)]
      · rw [if_neg h2, if_neg (by omega)]

/-- The clearing does no harm if it only hits words already used. -/
theorem clearLoop_apply {n x delta : Nat} {r : Nat → W} {lw : Nat} (hd : delta ≤ 1 ∨ lw = 0) : ∀ k, k ≤ lw + 1 →
    (∀ j, k ≤ j → (clearLoop n x delta r k).1 j = r j ∨ (lw + 1 ≤ k ∧ lw = 0)) ∧
    (∀ i, (clearLoop n x delta r k).2 i = if delta ≤ i ∧ i < k + delta then down n x r (i - delta) else 0) := by
  intro k
  induction k with
  | zero => intro _; exact ⟨fun j _ => .inl rfl, fun i => by simp [clearLoop, zeros]; intro h1 h2; omega⟩
  | succ k ih =>
    intro hk
    obtain ⟨h1, h2⟩ := ih (by omega)
    have hsrc : ∀ j, k ≤ j → (clearLoop n x delta r k).1 j = r j := by
      intro j hj
      rcases h1 j hj with h | h
      · exact h
      · omega
    refine ⟨fun j hj => ?_, fun i => ?_⟩
    · rcases hd with hd | hd
      · left
        simp only [clearLoop]
        rw [if_neg (by omega), hsrc j (by omega)]
      · right; omega
    · simp only [clearLoop]
      rw [upd_apply]
      have hdn : down n x (clearLoop n x delta r k).1 k = down n x r k := by
        unfold down; rw [hsrc k (Nat.le_refl _), hsrc (k + 1) (by omega)]
      by_cases h : i = k + delta
      · subst h
        rw [if_pos rfl, if_pos (by omega), hdn, Nat.add_sub_cancel]
      · rw [if_neg h, h2]
        by_cases h3 : delta ≤ i ∧ i < k + delta
        · rw [if_pos h3, if_pos (by omega)]
        · rw [if_neg h3, if_neg (by omega)]

theorem up_bit {y : Nat} {r : Nat → W} {i b : Nat} (hy0 : 0 < y) (hy : y < 64) (hb : b < 64) (prev : W)
    (hp : prev = if i = 0 then 0 else (r (i - 1) &&& ~~~ (low (64 - y))) >>> (64 - y)) :
    ((r i <<< y) ||| prev).getLsbD b = (decide (y ≤ 64 * i + b) && rb r (64 * i + b - y)) := by
  rw [BitVec.getLsbD_or, BitVec.getLsbD_shiftLeft]
  by_cases h : y ≤ b
  · have hpb : prev.getLsbD b = false := by
      rw [hp]
      split
      · simp
      · rw [BitVec.getLsbD_ushiftRight]; exact BitVec.getLsbD_of_ge _ _ (by omega)
    rw [hpb, show 64 * i + b - y = 64 * i + (b - y) by omega, rb_word _ _ _ (by omega)]
    simp [hb, show ¬ b < y by omega, show y ≤ 64 * i + b by omega]
  · rw [hp]
    by_cases hi : i = 0
    · subst hi; simp [hb, show b < y by omega, show ¬ y ≤ b by omega]
    · rw [if_neg hi, BitVec.getLsbD_ushiftRight, BitVec.getLsbD_and, BitVec.getLsbD_not, low_get (by omega)]
      rw [show 64 * i + b - y = 64 * (i - 1) + (64 - y + b) by omega, rb_word _ _ _ (by omega)]
      simp [hb, show b < y by omega, show y ≤ 64 * i + b by omega, show 64 - y + b < 64 by omega]

theorem upLoop_apply (y : Nat) (r : Nat → W) : ∀ k,
    (upLoop y r k).2 = (if k = 0 then 0 else (r (k - 1) &&& ~~~ (low (64 - y))) >>> (64 - y)) ∧
    ∀ i, (upLoop y r k).1 i = if i < k then (r i <<< y) ||| (if i = 0 then 0 else (r (i - 1) &&& ~~~ (low (64 - y))) >>> (64 - y)) else 0 := by
  intro k
  induction k with
  | zero => exact ⟨rfl, fun i => by simp [upLoop, zeros]⟩
  | succ k ih =>
    obtain ⟨h1, h2⟩ := ih
    refine ⟨by simp [upLoop], fun i => ?_⟩
    simp only [upLoop]
    rw [upd_apply]
    by_cases h : i = k
    · subst h; rw [if_pos rfl, if_pos (Nat.lt_succ_self _), h1]
    · rw [if_neg h, h2]
      by_cases h3 : i < k
      · rw [if_pos h3, if_pos (Nat.lt_succ_of_lt h3)]
      · rw [if_neg h3, if_neg (by omega)]

/-- The result, bit by bit, in terms of the reversed words: everything moves by `dec - nbs`. -/
theorem minus_bits {n : Nat} {t : Nat → W} {lw ofs : Nat} (hw : lastWord t n = some lw) (hle : 64 * lw + top (t lw) ≤ ofs)
    (hof : ofs < 64 * n) (hub : n = 1 ∨ ¬ (top (t lw) = 0 ∧ (ofs - (64 * lw + top (t lw))) % 64 = 0))
    (hcl : lw = 0 ∨ ofs - (64 * lw + top (t lw)) < 128 ∨ 63 - top (t lw) ≤ (ofs - (64 * lw + top (t lw))) % 64) :
    ∃ res, minus n t ofs = some res ∧ ∀ q, q < 64 * n →
      rb res q = (decide (ofs ≤ q + (64 * lw + 63)) && rb (flip t lw) (q + (64 * lw + 63) - ofs)) := by
  obtain ⟨l1, l2, l3⟩ := lastWord_some hw
  obtain ⟨t1, t2, t3⟩ := top_spec l2
  have hr0 : flip t lw 0 = revLong (t lw) := by unfold flip; rw [if_pos (Nat.zero_le _)]; rfl
  have hnbs : ctz (flip t lw 0) = 63 - top (t lw) := by rw [hr0, ctz_rev l2]
  have hbeyond : ∀ i, lw < i → flip t lw i = 0 := fun i hi => by unfold flip; rw [if_neg (by omega)]
  -- the lowest bits of the reversed words are clear
  have hlow : ∀ b, b < 63 - top (t lw) → (flip t lw 0).getLsbD b = false := by
    intro b hb
    cases hc : (flip t lw 0).getLsbD b with
    | false => rfl
    | true =>
      have hne : flip t lw 0 ≠ 0 := fun h0 => by rw [h0] at hc; simp at hc
      have := (ctz_spec hne).2.2 b hc
      omega
  generalize hT : top (t lw) = T at *
  generalize hR : flip t lw = r at *
  unfold minus
  rw [hw]
  simp only []
  rw [hR, hT, hnbs]
  have hdec : ((ofs : Int) - ((64 * lw + T : Nat) : Int)) = ((ofs - (64 * lw + T) : Nat) : Int) := by omega
  rw [hdec]
  generalize hD : ofs - (64 * lw + T) = d at *
  by_cases hdown : ((63 - T : Nat) : Int) > (d : Int)
  · rw [if_pos hdown]
    have hx : (((63 - T : Nat) : Int) - (d : Int)).toNat = 63 - T - d := by omega
    rw [hx]
    have hx1 : 63 - T - d + 1 < 64 ∨ n = 1 := by
      rcases hub with h | h
      · exact .inr h
      · left
        by_cases hT0 : T = 0
        · have : ¬ d % 64 = 0 := fun h2 => h ⟨hT0, h2⟩
          omega
        · omega
    rw [if_neg (by omega)]
    refine ⟨_, rfl, fun q hq => ?_⟩
    have hmin : min lw (n - 1) + 1 = lw + 1 := by omega
    rw [hmin]
    have hpos : q + (64 * lw + 63) - ofs = q + (63 - T - d) := by omega
    rw [hpos]
    simp only [show ofs ≤ q + (64 * lw + 63) by omega, decide_true, Bool.true_and]
    unfold rb
    rw [downLoop_apply]
    by_cases hq2 : q / 64 < lw + 1
    · rw [if_pos hq2, down_bit (by omega) (by omega) hx1 (by omega) (fun h => hbeyond _ (by omega)) (fun h => by omega)]
      unfold rb
      rw [show 64 * (q / 64) + q % 64 + (63 - T - d) = q + (63 - T - d) by omega]
    · rw [if_neg hq2, hbeyond _ (by omega)]
      simp
  · rw [if_neg hdown]
    rw [show ((d : Int)).toNat = d by omega]
    by_cases h1 : d % 64 < 63 - T
    · rw [if_pos h1]
      have hx1 : 63 - T - d % 64 + 1 < 64 ∨ n = 1 := by
        rcases hub with h | h
        · exact .inr h
        · left
          by_cases hT0 : T = 0
          · have : ¬ d % 64 = 0 := fun h2 => h ⟨hT0, h2⟩
            omega
          · omega
      rw [if_neg (by omega), if_pos (by omega)]
      refine ⟨_, rfl, fun q hq => ?_⟩
      have hcl' : d / 64 ≤ 1 ∨ lw = 0 := by omega
      unfold rb
      rw [(clearLoop_apply hcl' (lw + 1) (Nat.le_refl _)).2]
      by_cases hq2 : d / 64 ≤ q / 64 ∧ q / 64 < lw + 1 + d / 64
      · rw [if_pos hq2, down_bit (by omega) (by omega) hx1 (by omega) (fun h => hbeyond _ (by omega)) (fun h => by omega)]
        unfold rb
        simp only [show ofs ≤ q + (64 * lw + 63) by omega, decide_true, Bool.true_and]
        rw [show 64 * (q / 64 - d / 64) + q % 64 + (63 - T - d % 64) = q + (64 * lw + 63) - ofs by omega]
      · rw [if_neg hq2]
        rw [show (0 : W) = 0#64 from rfl, BitVec.getLsbD_zero]
        symm
        by_cases hz : ofs ≤ q + (64 * lw + 63)
        · simp only [hz, decide_true, Bool.true_and]
          by_cases hq3 : q / 64 < d / 64
          · rw [show (q + (64 * lw + 63) - ofs) / 64 = 0 by omega]
            exact hlow _ (by omega)
          · rw [hbeyond _ (by omega)]; simp
        · simp [hz]
    · rw [if_neg h1]
      by_cases h2 : 63 - T < d % 64
      · rw [if_pos h2]
        refine ⟨_, rfl, fun q hq => ?_⟩
        unfold rb
        dsimp only
        by_cases hq2 : q / 64 < d / 64
        · rw [if_pos hq2]
          have : ¬ ofs ≤ q + (64 * lw + 63) := by omega
          simp [this]
        · rw [if_neg hq2, (upLoop_apply _ r _).2]
          by_cases hq3 : q / 64 - d / 64 < min (lw + 1) (n - 1) + 1
          · rw [if_pos hq3, up_bit (by omega) (by omega) (by omega) _ rfl]
            unfold rb
            by_cases hz : ofs ≤ q + (64 * lw + 63)
            · rw [show 64 * (q / 64 - d / 64) + q % 64 - (d % 64 - (63 - T)) = q + (64 * lw + 63) - ofs by omega]
              simp [hz, show d % 64 - (63 - T) ≤ 64 * (q / 64 - d / 64) + q % 64 by omega]
            · simp [hz, show ¬ d % 64 - (63 - T) ≤ 64 * (q / 64 - d / 64) + q % 64 by omega]
          · rw [if_neg hq3, hbeyond _ (by omega)]
            simp
      · rw [if_neg h2]
        by_cases h3 : d / 64 ≠ 0
        · rw [if_pos h3]
          refine ⟨_, rfl, fun q hq => ?_⟩
          unfold rb
          dsimp only
          by_cases hq2 : d / 64 ≤ q / 64 ∧ q / 64 < n
          · rw [if_pos hq2]
            rw [show (q + (64 * lw + 63) - ofs) / 64 = q / 64 - d / 64 by omega, show (q + (64 * lw + 63) - ofs) % 64 = q % 64 by omega]
            simp [show ofs ≤ q + (64 * lw + 63) by omega]
          · rw [if_neg hq2]
            simp [show ¬ ofs ≤ q + (64 * lw + 63) by omega]
        · rw [if_neg h3]
          refine ⟨_, rfl, fun q hq => ?_⟩
          rw [show q + (64 * lw + 63) - ofs = q by omega]
          simp [show ofs ≤ q + (64 * lw + 63) by omega]

/-- C55, what holds.  `m` is the largest member.  Excluded are two families of offsets: `m` and
`ofs` both multiples of 64 with more than one word (a shift by 64 bits), and sets reaching beyond the
first word moved by at least 128 with the low bits of the move below those of the flipped set (words
cleared too early). -/
theorem minus_partial {n : Nat} {t : Nat → W} {ofs m : Nat} (hm : inW t n m = true) (hmax : ∀ p, inW t n p = true → p ≤ m)
    (hle : m ≤ ofs) (hof : ofs < 64 * n) (hub : n = 1 ∨ ¬ (m % 64 = 0 ∧ ofs % 64 = 0))
    (hcl : m < 64 ∨ ofs - m < 128 ∨ 63 - m % 64 ≤ (ofs - m) % 64) :
    ∃ res, minus n t ofs = some res ∧ ∀ q, inW res n q = true ↔ ∃ v, inW t n v = true ∧ q + v = ofs := by
  cases hw : lastWord t n with
  | none =>
    rw [zero_iff.1 (lastWord_none.1 hw)] at hm
    exact absurd hm (by simp)
  | some lw =>
    obtain ⟨g1, g2⟩ := largest_spec hw
    obtain ⟨l1, l2, l3⟩ := lastWord_some hw
    obtain ⟨t1, t2, t3⟩ := top_spec l2
    have hme : m = 64 * lw + top (t lw) := Nat.le_antisymm (g2 m hm) (hmax _ g1)
    obtain ⟨res, h1, h2⟩ := minus_bits hw (ofs := ofs) (by omega) hof (by
      rcases hub with h | h
      · exact .inl h
      · right; intro hc; apply h; omega) (by omega)
    refine ⟨res, h1, fun q => ?_⟩
    have hiff : ∀ p, inW t n p = true ↔ p < 64 * (lw + 1) ∧ rb t p = true := by
      intro p
      rw [inW_iff]
      refine ⟨fun ⟨a, b⟩ => ⟨?_, b⟩, fun ⟨a, b⟩ => ⟨by omega, b⟩⟩
      have := g2 p (inW_iff.2 ⟨a, b⟩)
      omega
    constructor
    · intro hq
      obtain ⟨q1, q2⟩ := inW_iff.1 hq
      have h3 := h2 q q1
      rw [show rb res q = true from q2, flip_rb] at h3
      have h3 := h3.symm
      simp only [Bool.and_eq_true, decide_eq_true_iff] at h3
      obtain ⟨h4, h5, h6⟩ := h3
      rw [show 64 * lw + 63 - (q + (64 * lw + 63) - ofs) = ofs - q by omega] at h6
      exact ⟨ofs - q, (hiff _).2 ⟨by omega, h6⟩, by omega⟩
    · rintro ⟨v, hv, hqv⟩
      obtain ⟨v1, v2⟩ := (hiff v).1 hv
      have h3 := h2 q (by omega)
      rw [flip_rb, show 64 * lw + 63 - (q + (64 * lw + 63) - ofs) = v by omega, v2] at h3
      rw [inW_iff]
      refine ⟨by omega, ?_⟩
      show rb res q = true
      rw [h3]
      simp; omega

/-- The empty set. -/
theorem minus_empty {n : Nat} {t : Nat → W} (h : ∀ p, inW t n p = false) (ofs : Int) : minus n t ofs = some zeros := by
  unfold minus
  rw [lastWord_none.2 (zero_iff.2 h)]

/-- C55 is false: 228 - {0, 100} should be {128, 228}, and 228 is missing. -/
theorem minus_false : ∃ t : Nat → W, (∀ p, inW t 4 p = true ↔ p = 0 ∨ p = 100) ∧
    ∃ res, minus 4 t 228 = some res ∧ inW res 4 128 = true ∧ inW res 4 228 = false := by
  refine ⟨fun i => if i = 0 then 1 else if i = 1 then bit 36 else 0, fun p => ?_, ?_⟩
  · by_cases hp : p < 256
    · have : ∀ p < 256, (inW (fun i => if i = 0 then 1 else if i = 1 then bit 36 else 0) 4 p = true ↔ p = 0 ∨ p = 100) := by decide +kernel
      exact this p hp
    · simp [inW, hp]; omega
  · have hv : (minus 4 (fun i => if i = 0 then 1 else if i = 1 then bit 36 else 0) 228).map (fun r => (inW r 4 128, inW r 4 228)) = some (true, false) := by
      decide +kernel
    simp only [Option.map_eq_some_iff] at hv
    obtain ⟨r, h1, h2⟩ := hv
    exact ⟨r, h1, (Prod.mk.inj h2).1, (Prod.mk.inj h2).2⟩

/-- C55 is false: 0 - {0} with two words shifts by 64 bits. -/
theorem minus_shift : ∃ t : Nat → W, (∀ p, inW t 2 p = true ↔ p = 0) ∧ minus 2 t 0 = none := by
  refine ⟨fun i => if i = 0 then 1 else 0, fun p => ?_, by decide +kernel⟩
  by_cases hp : p < 128
  · have : ∀ p < 128, (inW (fun i => if i = 0 then 1 else 0) 2 p = true ↔ p = 0) := by decide +kernel
    exact this p hp
  · simp [inW, hp]; omega

/-- A case in each direction of movement. -/
example : (minus 3 (fun i => if i = 0 then bit 3 else if i = 1 then bit 36 else 0) 110).map (fun r => elems r 3) = some [10, 107] ∧
    (minus 3 (fun i => if i = 0 then bit 3 else if i = 1 then bit 36 else 0) 190).map (fun r => elems r 3) = some [90, 187] := by decide +kernel

end Verif.NatSet
