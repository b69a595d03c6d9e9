import Verif.GNSet
import Verif.Props.NatSet
/-!
# C49-C53, C70: `GNSet` against finite sets of naturals
-/
namespace Verif.GNSet
open Verif.Bits
open Verif.NatSet (Lists elems_lists zero_iff)

/-! ### C53: growth -/

theorem grow_zero (i : Nat) : ∀ f, grow i f 0 = none := by
  intro f
  induction f with
  | zero => rfl
  | succ f ih => rw [grow, if_pos (Nat.zero_le _)]; exact ih

theorem grow_add (i : Nat) : ∀ a b m, m < 2 ^ 16 → grow i a m = none → grow i (a + b) m = grow i b (m * 2 ^ a % 2 ^ 16) := by
  intro a
  induction a with
  | zero => intro b m hm _; rw [Nat.zero_add, Nat.pow_zero, Nat.mul_one, Nat.mod_eq_of_lt hm]
  | succ a ih =>
    intro b m hm h
    rw [grow] at h
    rw [show a + 1 + b = (a + b) + 1 by omega, grow]
    split at h
    · rename_i hc
      rw [if_pos hc, ih b _ (Nat.mod_lt _ (by omega)) h]
      congr 1
      rw [Nat.mod_mul_mod, Nat.mul_assoc, ← Nat.pow_succ']
    · simp at h

/-- 17 rounds are enough: if the loop has not ended by then, the counter is 0 and it never ends. -/
theorem grow_none {i m : Nat} (hm : m < 2 ^ 16) (h : grow i 17 m = none) : ∀ f, grow i f m = none := by
  intro f
  have h0 : m * 2 ^ 17 % 2 ^ 16 = 0 := by omega
  by_cases hf : f ≤ 17
  · have mono : ∀ a b m, grow i (a + b) m = none → grow i a m = none := by
      intro a
      induction a with
      | zero => intro b m _; rfl
      | succ a ih =>
        intro b m h
        rw [show a + 1 + b = (a + b) + 1 by omega, grow] at h
        rw [grow]
        split at h
        · rename_i hc; rw [if_pos hc]; exact ih _ _ h
        · simp at h
    exact mono f (17 - f) m (by rw [show f + (17 - f) = 17 by omega]; exact h)
  · rw [show f = 17 + (f - 17) by omega, grow_add i 17 _ m hm h, h0, grow_zero]

theorem grow_pow {i : Nat} : ∀ (k f m : Nat), k < f → (∀ j < k, m * 2 ^ j ≤ i) → i < m * 2 ^ k → m * 2 ^ k < 2 ^ 16 → grow i f m = some (m * 2 ^ k) := by
  intro k
  induction k with
  | zero =>
    intro f m hf _ h1 h2
    cases f with
    | zero => omega
    | succ f => rw [grow, if_neg (by simpa using h1)]; simp
  | succ k ih =>
    intro f m hf hj h1 h2
    cases f with
    | zero => omega
    | succ f =>
      have e : m * 2 ^ (k + 1) = m * 2 * 2 ^ k := by rw [Nat.pow_succ', Nat.mul_assoc]
      have hp : 1 ≤ 2 ^ k := Nat.one_le_two_pow
      have hm2 : m * 2 < 2 ^ 16 := by
        have : m * 2 * 1 ≤ m * 2 * 2 ^ k := Nat.mul_le_mul_left _ hp
        omega
      rw [grow, if_pos (by simpa using hj 0 (by omega)), Nat.mod_eq_of_lt hm2, e]
      refine ih f (m * 2) (by omega) (fun j hjk => ?_) (by omega) (by omega)
      have := hj (j + 1) (by omega)
      rwa [Nat.pow_succ', ← Nat.mul_assoc] at this

/-- Words after inserting `p` in a set of `w` words: doubled just often enough. -/
def growTo (w p : Nat) : Nat := if p / 64 < w then w else w * 2 ^ (Nat.log2 (p / 64 / w) + 1)

theorem growTo_spec {w p : Nat} (hw : 0 < w) : p < 64 * growTo w p ∧ w ≤ growTo w p ∧ (w ≤ p / 64 → growTo w p ≤ 2 * (p / 64)) := by
  unfold growTo
  split
  · exact ⟨by omega, Nat.le_refl _, fun h => by omega⟩
  · rename_i hc
    have h1 : p / 64 / w ≠ 0 := by
      have := Nat.div_pos (Nat.not_lt.1 hc) hw
      omega
    have h2 := Nat.lt_log2_self (n := p / 64 / w)
    have h3 := Nat.log2_self_le h1
    have h4 : p / 64 < w * 2 ^ (Nat.log2 (p / 64 / w) + 1) := by
      rw [Nat.mul_comm]; exact (Nat.div_lt_iff_lt_mul hw).1 h2
    have h5 : w * 2 ^ (Nat.log2 (p / 64 / w)) ≤ p / 64 := by
      rw [Nat.mul_comm]; exact (Nat.le_div_iff_mul_le hw).1 h3
    refine ⟨by omega, ?_, fun _ => ?_⟩
    · exact Nat.le_mul_of_pos_right _ (Nat.pow_pos (by omega))
    · rw [Nat.pow_succ, ← Nat.mul_assoc]; omega

theorem grow_growTo {w p : Nat} (hw : 0 < w) (hc : w ≤ p / 64) (hb : growTo w p < 2 ^ 16) : grow (p / 64) 17 w = some (growTo w p) := by
  have h0 := growTo_spec (p := p) hw
  unfold growTo at hb h0 ⊢
  rw [if_neg (by omega)] at hb h0 ⊢
  have h1 : p / 64 / w ≠ 0 := by
    have := Nat.div_pos hc hw
    omega
  have h3 := Nat.log2_self_le h1
  have h5 : w * 2 ^ (Nat.log2 (p / 64 / w)) ≤ p / 64 := by
    rw [Nat.mul_comm]; exact (Nat.le_div_iff_mul_le hw).1 h3
  refine grow_pow _ 17 w ?_ (fun j hj => ?_) (by omega) hb
  · have : 2 ^ (Nat.log2 (p / 64 / w) + 1) < 2 ^ 16 := Nat.lt_of_le_of_lt (Nat.le_mul_of_pos_left _ hw) hb
    have := (Nat.pow_lt_pow_iff_right (a := 2) (by omega)).1 this
    omega
  · exact Nat.le_trans (Nat.mul_le_mul_left _ (Nat.pow_le_pow_right (by omega) (by omega))) h5

/-- Membership as the class stores it. -/
abbrev has (g : G) (q : Nat) : Bool := inW g.t g.mxw q

/-- A set that was not moved from. -/
def Live (g : G) : Prop := g.nul = true → g.mxw = 0

theorem contains_eq (g : G) (p : Nat) : contains g p = has g p := by
  unfold contains
  split
  · rename_i h; simp [has, inW]; omega
  · rename_i h
    have := NatSet.contains_eq (n := g.mxw) (t := g.t) (p := p) (by omega)
    unfold NatSet.contains at this
    rw [if_pos (by omega), Option.some.injEq] at this
    exact this

theorem has_or_bit {t : Nat → W} {n p : Nat} (hp : p < 64 * n) (q : Nat) :
    inW (upd t (p / 64) (t (p / 64) ||| bit (p % 64))) n q = true ↔ q = p ∨ inW t n q = true := by
  obtain ⟨t', h1, h2⟩ := NatSet.insert_mem (n := n) (t := t) hp
  unfold NatSet.insert at h1
  rw [if_pos (by omega), Option.some.injEq] at h1
  rw [h1]; exact h2 q

/-- `insert`, exactly: words, members and `_nbp` afterwards. -/
theorem insert_spec {g : G} (hl : Live g) (hw : 0 < g.mxw) {p : Nat} (hb : growTo g.mxw p < 2 ^ 16) :
    ∃ g', insert g p = some g' ∧ g'.mxw = growTo g.mxw p ∧ g'.nul = false ∧ g'.nbp = max g.nbp (p % 2 ^ 16) ∧
      ∀ q, has g' q = true ↔ q = p ∨ has g q = true := by
  obtain ⟨s1, s2, _⟩ := growTo_spec (p := p) hw
  unfold insert
  simp only []
  by_cases hc : g.mxw ≤ p / 64
  · rw [if_pos hc, grow_growTo hw hc hb]
    refine ⟨_, rfl, rfl, rfl, rfl, fun q => ?_⟩
    show inW (upd (fun j => if j < g.mxw then g.t j else 0) (p / 64) ((fun j => if j < g.mxw then g.t j else 0) (p / 64) ||| bit (p % 64))) (growTo g.mxw p) q = true ↔ _
    rw [has_or_bit s1]
    refine or_congr Iff.rfl ?_
    rw [inW_iff, inW_iff]
    by_cases hq : q / 64 < g.mxw
    · rw [if_pos hq]
      exact ⟨fun h => ⟨by omega, h.2⟩, fun h => ⟨by omega, h.2⟩⟩
    · rw [if_neg hq]
      constructor
      · intro h; have := h.2; simp at this
      · intro h; omega
  · rw [if_neg hc]
    have hg : growTo g.mxw p = g.mxw := by unfold growTo; rw [if_pos (by omega)]
    cases hn : g.nul with
    | true => have := hl hn; omega
    | false =>
      simp only [Bool.false_eq_true, if_false, Option.map_some]
      refine ⟨_, rfl, hg.symm, hn, rfl, fun q => ?_⟩
      exact has_or_bit (n := g.mxw) (by omega) q

/-- C53, what holds: inserting in a set with at least one word terminates for every value below
2^21, and the value is then a member. -/
theorem insert_partial {g : G} (hl : Live g) (hw : 0 < g.mxw) (hm : g.mxw < 2 ^ 16) {p : Nat} (hp : p < 2 ^ 21) :
    ∃ g', insert g p = some g' ∧ contains g' p = true := by
  obtain ⟨s1, s2, s3⟩ := growTo_spec (p := p) hw
  have hb : growTo g.mxw p < 2 ^ 16 := by
    by_cases hc : g.mxw ≤ p / 64
    · have := s3 hc; omega
    · unfold growTo; rw [if_pos (by omega)]; exact hm
  obtain ⟨g', h1, _, _, _, h2⟩ := insert_spec hl hw hb
  exact ⟨g', h1, by rw [contains_eq, h2]; exact .inl rfl⟩

/-- C53 is false: inserting in a set with no words never ends. -/
theorem insert_false (p : Nat) : insert (new 0) p = none ∧ ∀ f, grow (p / 64) f (new 0).mxw = none := by
  refine ⟨?_, grow_zero _⟩
  unfold insert
  simp only []
  rw [show (new 0).mxw = 0 from rfl, if_pos (Nat.zero_le _), grow_zero]; rfl

/-- C53 is false: inserting 2^21 in a default set never ends. -/
theorem insert_large : insert (new 64) (2 ^ 21) = none ∧ ∀ f, grow (2 ^ 21 / 64) f (new 64).mxw = none := by
  have h : grow (2 ^ 21 / 64) 17 (new 64).mxw = none := by decide
  refine ⟨?_, grow_none (by decide) h⟩
  unfold insert
  simp only []
  rw [if_pos (by decide), h]; rfl

/-! ### C49 -/

inductive E where
  | new (nb : Nat)
  | range (f e : Nat)
  | interval (lb ub : Nat)
  | list (l : List Nat)
  | copy (e : E)
  | insert (e : E) (p : Nat)
  | remove (e : E) (p : Nat)
  | clear (e : E)
  | compl (e : E)
  | union (a b : E)
  | inter (a b : E)
  | diff (a b : E)
  | atLeast (e : E) (p : Nat)

def eval : E → Option G
  | .new nb => some (GNSet.new nb)
  | .range f e => ofRange f e
  | .interval lb ub => GNSet.interval lb ub
  | .list l => ofList l
  | .copy e => (eval e).bind GNSet.copy
  | .insert e p => (eval e).bind (GNSet.insert · p)
  | .remove e p => (eval e).map (GNSet.remove · p)
  | .clear e => (eval e).bind GNSet.clear
  | .compl e => (eval e).bind GNSet.complement
  | .union a b => (eval a).bind fun s => (eval b).bind (unionWith s)
  | .inter a b => (eval a).bind fun s => (eval b).bind (interWith s)
  | .diff a b => (eval a).bind fun s => (eval b).bind (diffWith s)
  | .atLeast e p => (eval e).map (removeBelow · p)

/-- `nbWords()` of the value. -/
def words : E → Nat
  | .new nb => (nb + 63) / 64
  | .range f e => if f = e then 0 else if f < e then (e + 63) / 64 else growTo ((f + 63) / 64) f
  | .interval lb ub => if ub < lb then 0 else (ub + 64) / 64
  | .list l => l.foldl growTo (growTo 1 l.length)
  | .copy e => words e
  | .insert e p => growTo (words e) p
  | .remove e _ => words e
  | .clear e => words e
  | .compl e => words e
  | .union a b => max (words a) (words b)
  | .inter a _ => words a
  | .diff a _ => words a
  | .atLeast e _ => words e

/-- Members according to set theory; complements are within the capacity. -/
def Mem : E → Nat → Prop
  | .new _, _ => False
  | .range f e, q => (f ≤ q ∧ q < e) ∨ (e < q ∧ q ≤ f)
  | .interval lb ub, q => lb ≤ q ∧ q ≤ ub
  | .list l, q => q ∈ l
  | .copy e, q => Mem e q
  | .insert e p, q => q = p ∨ Mem e q
  | .remove e p, q => Mem e q ∧ q ≠ p
  | .clear _, _ => False
  | .compl e, q => q < 64 * words e ∧ ¬ Mem e q
  | .union a b, q => Mem a q ∨ Mem b q
  | .inter a b, q => Mem a q ∧ Mem b q
  | .diff a b, q => Mem a q ∧ ¬ Mem b q
  | .atLeast e p, q => Mem e q ∧ p ≤ q

/-- Supported: fewer than 2^15 words everywhere, and nothing is inserted in a set without words. -/
def Fits : E → Prop
  | .new nb => nb < 2 ^ 16
  | .range f e => words (.range f e) < 2 ^ 15
  | .interval lb ub => words (.interval lb ub) < 2 ^ 15
  | .list l => words (.list l) < 2 ^ 15
  | .copy e => Fits e
  | .insert e p => Fits e ∧ 0 < words e ∧ words (.insert e p) < 2 ^ 15
  | .remove e _ => Fits e
  | .clear e => Fits e
  | .compl e => Fits e
  | .union a b => Fits a ∧ Fits b
  | .inter a b => Fits a ∧ Fits b
  | .diff a b => Fits a ∧ Fits b
  | .atLeast e _ => Fits e

structure Rep (g : G) (n : Nat) (M : Nat → Prop) : Prop where
  live : Live g
  mxw : g.mxw = n
  bound : n < 2 ^ 15
  mem : ∀ q, has g q = true ↔ M q

theorem ceil_eq (nb : Nat) : ceil64 nb = (nb + 63) / 64 := by
  unfold ceil64; split <;> omega

theorem zero_has {n q : Nat} : inW (fun _ => 0) n q = false := NatSet.zeros_mem n q

theorem sh_some {β : Type} {n : Nat} (x : β) (h : n < 2 ^ 15) : sh n x = some x := by unfold sh; rw [if_pos h]

theorem Rep.insert {g : G} {n : Nat} {M : Nat → Prop} (R : Rep g n M) {p : Nat} (hn : 0 < n) (hb : growTo n p < 2 ^ 15) :
    ∃ g', GNSet.insert g p = some g' ∧ Rep g' (growTo n p) (fun q => q = p ∨ M q) ∧ g'.nul = false ∧ g'.nbp = max g.nbp (p % 2 ^ 16) := by
  obtain ⟨g', h1, h2, h3, h4, h5⟩ := insert_spec R.live (by rw [R.mxw]; exact hn) (p := p) (by rw [R.mxw]; omega)
  exact ⟨g', h1, ⟨fun h => by rw [h3] at h; exact absurd h (by simp), by rw [h2, R.mxw], hb, fun q => by rw [h5, R.mem]⟩, h3, h4⟩

theorem foldl_growTo_le : ∀ (l : List Nat) (w : Nat), 0 < w → w ≤ l.foldl growTo w := by
  intro l
  induction l with
  | nil => intro w _; exact Nat.le_refl _
  | cons p l ih =>
    intro w hw
    obtain ⟨_, s2, _⟩ := growTo_spec (p := p) hw
    exact Nat.le_trans s2 (ih _ (by omega))

theorem Rep.insertAll : ∀ (l : List Nat) {g : G} {n : Nat} {M : Nat → Prop}, Rep g n M → 0 < n → g.nul = false → l.foldl growTo n < 2 ^ 15 →
    ∃ g', GNSet.insertAll l g = some g' ∧ Rep g' (l.foldl growTo n) (fun q => q ∈ l ∨ M q) ∧ g'.nul = false ∧
      g'.nbp = l.foldl (fun a p => max a (p % 2 ^ 16)) g.nbp := by
  intro l
  induction l with
  | nil => intro g n M R _ hnul _; exact ⟨g, rfl, ⟨R.live, R.mxw, R.bound, fun q => by rw [R.mem]; simp⟩, hnul, rfl⟩
  | cons p l ih =>
    intro g n M R hn hnul hb
    rw [List.foldl_cons] at hb
    obtain ⟨_, s2, _⟩ := growTo_spec (p := p) hn
    have hle := foldl_growTo_le l (growTo n p) (by omega)
    obtain ⟨g1, h1, R1, hn1, hp1⟩ := R.insert hn (p := p) (by omega)
    obtain ⟨g2, h2, R2, hn2, hp2⟩ := ih R1 (by omega) hn1 hb
    refine ⟨g2, by rw [GNSet.insertAll, h1]; exact h2, ⟨R2.live, R2.mxw, R2.bound, fun q => ?_⟩, hn2, by rw [hp2, hp1]; rfl⟩
    rw [R2.mem, List.mem_cons]
    constructor
    · rintro (h | rfl | h)
      · exact .inl (.inr h)
      · exact .inl (.inl rfl)
      · exact .inr h
    · rintro ((rfl | h) | h)
      · exact .inr (.inl rfl)
      · exact .inl h
      · exact .inr (.inr h)

theorem growTo_same {w p : Nat} (h : p < 64 * w) : growTo w p = w := by unfold growTo; rw [if_pos (by omega)]

theorem foldl_growTo_same : ∀ (l : List Nat) (w : Nat), (∀ p ∈ l, p < 64 * w) → l.foldl growTo w = w := by
  intro l
  induction l with
  | nil => intro w _; rfl
  | cons p l ih =>
    intro w h
    rw [List.foldl_cons, growTo_same (h p List.mem_cons_self)]
    exact ih w (fun q hq => h q (List.mem_cons_of_mem _ hq))

theorem mem_rangeL {f e q : Nat} : q ∈ rangeL f e ↔ (f ≤ q ∧ q < e) ∨ (e < q ∧ q ≤ f) := by
  unfold rangeL
  split
  · rw [List.mem_range'_1]; omega
  · rw [List.mem_reverse, List.mem_range'_1]; omega

theorem rangeL_words {f e : Nat} (h : f ≠ e) : (rangeL f e).foldl growTo ((max f e + 63) / 64) =
    if f < e then (e + 63) / 64 else growTo ((f + 63) / 64) f := by
  unfold rangeL
  by_cases hc : f < e
  · rw [if_pos (by omega), if_pos hc, show max f e = e by omega, foldl_growTo_same]
    intro p hp
    rw [List.mem_range'_1] at hp; omega
  · rw [if_neg (by omega), if_neg hc, show max f e = f by omega]
    rw [show f - e = (f - e - 1) + 1 by omega, List.range'_1_concat, List.reverse_append]
    rw [show e + 1 + (f - e - 1) = f by omega]
    simp only [List.reverse_cons, List.reverse_nil, List.nil_append, List.cons_append, List.foldl_cons]
    obtain ⟨s1, _, _⟩ := growTo_spec (w := (f + 63) / 64) (p := f) (by omega)
    refine foldl_growTo_same _ _ (fun p hp => ?_)
    rw [List.mem_reverse, List.mem_range'_1] at hp
    omega

theorem fillLoop_mem {m lb : Nat} : ∀ k, lb + k ≤ 64 * m → ∃ t, fillLoop m lb k = some t ∧ ∀ q, inW t m q = true ↔ lb ≤ q ∧ q < lb + k := by
  intro k
  induction k with
  | zero => intro _; exact ⟨_, rfl, fun q => by rw [zero_has]; simp⟩
  | succ k ih =>
    intro h
    obtain ⟨t, h1, h2⟩ := ih (by omega)
    obtain ⟨t', h3, h4⟩ := NatSet.insert_mem (n := m) (t := t) (p := lb + k) (by omega)
    exact ⟨t', by rw [fillLoop, h1]; exact h3, fun q => by rw [h4, h2]; omega⟩

theorem remove_mem (g : G) (p q : Nat) : has (remove g p) q = true ↔ has g q = true ∧ q ≠ p := by
  unfold remove
  by_cases hp : p / 64 < g.mxw
  · rw [if_pos hp]
    show inW (upd g.t (p / 64) (g.t (p / 64) &&& ~~~ (bit (p % 64)))) g.mxw q = true ↔ _
    rw [inW_iff, inW_iff, upd_apply]
    by_cases h : q / 64 = p / 64
    · rw [if_pos h, BitVec.getLsbD_and, BitVec.getLsbD_not, bit_get (by omega), h]
      simp only [Bool.and_eq_true, Bool.not_eq_true', decide_eq_false_iff_not, decide_eq_true_iff]
      constructor
      · rintro ⟨h1, h2, _, h3⟩; exact ⟨⟨h1, h2⟩, fun hc => h3 (by rw [hc])⟩
      · rintro ⟨⟨h1, h2⟩, h3⟩; exact ⟨h1, h2, by omega, by omega⟩
    · rw [if_neg h]
      exact ⟨fun h1 => ⟨h1, fun hc => h (by rw [hc])⟩, And.left⟩
  · rw [if_neg hp]
    refine ⟨fun h => ⟨h, fun hc => ?_⟩, And.left⟩
    have := (inW_iff.1 h).1
    omega

theorem remove_keep (g : G) (p : Nat) : (remove g p).mxw = g.mxw ∧ (remove g p).nul = g.nul ∧ (remove g p).nbp = g.nbp := by
  unfold remove; split <;> exact ⟨rfl, rfl, rfl⟩

theorem removeBelow_mem (g : G) : ∀ p, ((removeBelow g p).mxw = g.mxw ∧ (removeBelow g p).nul = g.nul ∧ (removeBelow g p).nbp = g.nbp) ∧
    ∀ q, has (removeBelow g p) q = true ↔ has g q = true ∧ p ≤ q := by
  intro p
  induction p with
  | zero => exact ⟨⟨rfl, rfl, rfl⟩, fun q => by simp [removeBelow]⟩
  | succ p ih =>
    obtain ⟨⟨h1, h2, h3⟩, h4⟩ := ih
    obtain ⟨r1, r2, r3⟩ := remove_keep (removeBelow g p) p
    refine ⟨⟨by rw [removeBelow, r1, h1], by rw [removeBelow, r2, h2], by rw [removeBelow, r3, h3]⟩, fun q => ?_⟩
    rw [removeBelow, remove_mem, h4]
    constructor
    · rintro ⟨⟨a, b⟩, c⟩; exact ⟨a, by omega⟩
    · rintro ⟨a, b⟩; exact ⟨⟨a, by omega⟩, by omega⟩

theorem Rep.union {a b : G} {n m : Nat} {A B : Nat → Prop} (ha : Rep a n A) (hb : Rep b m B) :
    ∃ g, unionWith a b = some g ∧ Rep g (max n m) (fun q => A q ∨ B q) := by
  have e1 := ha.mxw; have e2 := hb.mxw; have b1 := ha.bound; have b2 := hb.bound
  unfold unionWith
  simp only []
  split
  · rename_i hc
    rw [sh_some _ (by omega)]
    refine ⟨_, rfl, fun h => by simp at h, by dsimp only; omega, by omega, fun q => ?_⟩
    rw [← ha.mem, ← hb.mem]
    show inW (fun i => if i < a.mxw then each (fun i w => w ||| b.t i) (min a.mxw b.mxw) a.t i else b.t i) b.mxw q = true ↔ _
    rw [inW_iff, inW_iff, inW_iff]
    by_cases hq : q / 64 < a.mxw
    · rw [if_pos hq, each_apply, if_pos (by omega), BitVec.getLsbD_or, Bool.or_eq_true]
      constructor
      · rintro ⟨h1, h2⟩; exact h2.imp (⟨by omega, ·⟩) (⟨h1, ·⟩)
      · rintro (⟨h1, h2⟩ | ⟨h1, h2⟩)
        · exact ⟨by omega, .inl h2⟩
        · exact ⟨h1, .inr h2⟩
    · rw [if_neg hq]
      constructor
      · intro h; exact .inr h
      · rintro (⟨h1, h2⟩ | h)
        · omega
        · exact h
  · rename_i hc
    rw [sh_some _ (by omega)]
    refine ⟨_, rfl, ha.live, by dsimp only; omega, by omega, fun q => ?_⟩
    rw [← ha.mem, ← hb.mem]
    show inW (each (fun i w => w ||| b.t i) (min a.mxw b.mxw) a.t) a.mxw q = true ↔ _
    rw [inW_iff, inW_iff, inW_iff, each_apply]
    by_cases hq : q / 64 < b.mxw
    · constructor
      · rintro ⟨h1, h2⟩
        rw [if_pos (by omega), BitVec.getLsbD_or, Bool.or_eq_true] at h2
        exact h2.imp (⟨h1, ·⟩) (⟨by omega, ·⟩)
      · intro h
        rw [if_pos (by omega), BitVec.getLsbD_or, Bool.or_eq_true]
        rcases h with ⟨h1, h2⟩ | ⟨h1, h2⟩
        · exact ⟨h1, .inl h2⟩
        · exact ⟨by omega, .inr h2⟩
    · rw [if_neg (by omega)]
      constructor
      · intro h; exact .inl h
      · rintro (h | ⟨h1, h2⟩)
        · exact h
        · omega

theorem Rep.inter {a b : G} {n m : Nat} {A B : Nat → Prop} (ha : Rep a n A) (hb : Rep b m B) :
    ∃ g, interWith a b = some g ∧ Rep g n (fun q => A q ∧ B q) ∧ g.nbp = a.nbp ∧ g.nul = a.nul := by
  have e1 := ha.mxw; have e2 := hb.mxw; have b1 := ha.bound; have b2 := hb.bound
  unfold interWith
  simp only []
  rw [sh_some _ (by omega)]
  refine ⟨_, rfl, ⟨ha.live, e1, b1, fun q => ?_⟩, rfl, rfl⟩
  rw [← ha.mem, ← hb.mem]
  show inW (fun i => if min a.mxw b.mxw ≤ i ∧ i < a.mxw then 0 else each (fun i w => w &&& b.t i) (min a.mxw b.mxw) a.t i) a.mxw q = true ↔ _
  rw [inW_iff, inW_iff, inW_iff]
  by_cases hq : q / 64 < min a.mxw b.mxw
  · rw [if_neg (by omega), each_apply, if_pos hq, BitVec.getLsbD_and, Bool.and_eq_true]
    constructor
    · rintro ⟨h1, h2, h3⟩; exact ⟨⟨h1, h2⟩, by omega, h3⟩
    · rintro ⟨⟨h1, h2⟩, _, h3⟩; exact ⟨h1, h2, h3⟩
  · constructor
    · rintro ⟨h1, h2⟩
      rw [if_pos (by omega)] at h2
      simp at h2
    · rintro ⟨⟨h1, h2⟩, h3, h4⟩; omega

theorem Rep.diff {a b : G} {n m : Nat} {A B : Nat → Prop} (ha : Rep a n A) (hb : Rep b m B) :
    ∃ g, diffWith a b = some g ∧ Rep g n (fun q => A q ∧ ¬ B q) ∧ g.nbp = a.nbp ∧ g.nul = a.nul := by
  have e1 := ha.mxw; have e2 := hb.mxw; have b1 := ha.bound; have b2 := hb.bound
  unfold diffWith
  rw [sh_some _ (by omega)]
  refine ⟨_, rfl, ⟨ha.live, e1, b1, fun q => ?_⟩, rfl, rfl⟩
  rw [← ha.mem, ← hb.mem]
  show inW (each (fun i w => w &&& ~~~ b.t i) (min a.mxw b.mxw) a.t) a.mxw q = true ↔ _
  rw [inW_iff, inW_iff, inW_iff, each_apply]
  by_cases hq : q / 64 < min a.mxw b.mxw
  · rw [if_pos hq, BitVec.getLsbD_and, BitVec.getLsbD_not]
    simp only [Bool.and_eq_true, Bool.not_eq_true', decide_eq_true_iff]
    constructor
    · rintro ⟨h1, h2, _, h3⟩; exact ⟨⟨h1, h2⟩, fun h => by rw [h3] at h; exact absurd h.2 (by simp)⟩
    · rintro ⟨⟨h1, h2⟩, h3⟩
      refine ⟨h1, h2, by omega, ?_⟩
      cases hc : (b.t (q / 64)).getLsbD (q % 64) with
      | false => rfl
      | true => exact absurd ⟨by omega, hc⟩ h3
  · rw [if_neg hq]
    refine ⟨fun h => ⟨h, fun h2 => ?_⟩, And.left⟩
    have := h.1; have := h2.1
    omega

/-- C49, membership and capacity: every expression within the supported capacity. -/
theorem gnset_mem : ∀ e, Fits e → ∃ g, eval e = some g ∧ Rep g (words e) (Mem e) := by
  intro e
  induction e with
  | new nb =>
    intro h
    have h : nb < 2 ^ 16 := h
    refine ⟨_, rfl, fun hn => ?_, ceil_eq nb, by simp only [words]; omega, fun q => by show inW (fun _ => 0) _ q = true ↔ _; rw [zero_has]; simp [Mem]⟩
    simpa [GNSet.new] using hn
  | range f e =>
    intro h
    have h : words (.range f e) < 2 ^ 15 := h
    simp only [words] at h
    simp only [eval, ofRange, words]
    by_cases hfe : f = e
    · rw [if_pos hfe, if_pos hfe]
      exact ⟨_, rfl, fun _ => rfl, rfl, by decide, fun q => by show inW (fun _ => 0) _ q = true ↔ _; rw [zero_has]; simp [Mem]; omega⟩
    · rw [if_neg hfe] at h ⊢
      rw [if_neg hfe, ceil_eq]
      rw [← rangeL_words hfe] at h ⊢
      have hpos : 0 < (max f e + 63) / 64 := by omega
      have hle := foldl_growTo_le (rangeL f e) _ hpos
      rw [Nat.mod_eq_of_lt (by omega)]
      obtain ⟨g, h1, R, _⟩ := Rep.insertAll (rangeL f e) (g := ⟨(max f e + 63) / 64, (max f e + 63) / 64 * 64 % 2 ^ 16, false, fun _ => 0⟩)
        (n := (max f e + 63) / 64) (M := fun _ => False) ⟨fun h => by simp at h, rfl, by omega, fun q => by show inW (fun _ => 0) _ q = true ↔ _; rw [zero_has]; simp⟩ hpos rfl h
      exact ⟨g, h1, R.live, R.mxw, R.bound, fun q => by rw [R.mem, mem_rangeL]; simp [Mem]⟩
  | interval lb ub =>
    intro h
    have h : words (.interval lb ub) < 2 ^ 15 := h
    simp only [words] at h
    simp only [eval, GNSet.interval, words]
    by_cases hc : ub < lb
    · rw [if_pos hc, if_pos hc]
      exact ⟨_, rfl, fun _ => rfl, rfl, by decide, fun q => by show inW (fun _ => 0) _ q = true ↔ _; rw [zero_has]; simp [Mem]; omega⟩
    · rw [if_neg hc] at h ⊢
      rw [if_neg hc, ceil_eq, show (ub + 1 + 63) / 64 = (ub + 64) / 64 by omega, Nat.mod_eq_of_lt (by omega)]
      obtain ⟨t, h1, h2⟩ := fillLoop_mem (m := (ub + 64) / 64) (lb := lb) (ub + 1 - lb) (by omega)
      rw [h1]
      exact ⟨_, rfl, fun h => by simp at h, rfl, h, fun q => by show inW t _ q = true ↔ _; rw [h2]; simp only [Mem]; omega⟩
  | list l =>
    intro h
    have h : words (.list l) < 2 ^ 15 := h
    simp only [words] at h
    simp only [eval, ofList, words]
    obtain ⟨s1, s2, _⟩ := growTo_spec (w := 1) (p := l.length) (by omega)
    have hle := foldl_growTo_le l (growTo 1 l.length) (by omega)
    have hg : grow (l.length / 64) 17 1 = some (growTo 1 l.length) := by
      by_cases hc : 1 ≤ l.length / 64
      · exact grow_growTo (by omega) hc (by omega)
      · rw [growTo_same (by omega), grow, if_neg (by omega)]
    rw [hg]
    obtain ⟨g, h1, R, _⟩ := Rep.insertAll l (g := ⟨growTo 1 l.length, l.length / 64 * 64 % 2 ^ 16, false, fun _ => 0⟩)
      (n := growTo 1 l.length) (M := fun _ => False) ⟨fun h => by simp at h, rfl, by omega, fun q => by show inW (fun _ => 0) _ q = true ↔ _; rw [zero_has]; simp⟩ (by omega) rfl h
    exact ⟨g, h1, R.live, R.mxw, R.bound, fun q => by rw [R.mem]; simp [Mem]⟩
  | copy e ih =>
    intro h
    obtain ⟨g, h1, R⟩ := ih h
    refine ⟨{ g with nul := false }, ?_, fun h => by simp at h, R.mxw, R.bound, R.mem⟩
    rw [eval, h1]
    show GNSet.copy g = _
    unfold GNSet.copy
    rw [if_neg]
    rintro ⟨h2, h3⟩
    exact h3 (R.live h2)
  | insert e p ih =>
    intro h
    obtain ⟨g, h1, R⟩ := ih h.1
    obtain ⟨g', h2, R', _⟩ := R.insert h.2.1 h.2.2
    exact ⟨g', by rw [eval, h1]; exact h2, R'⟩
  | remove e p ih =>
    intro h
    obtain ⟨g, h1, R⟩ := ih h
    obtain ⟨k1, k2, _⟩ := remove_keep g p
    exact ⟨_, by rw [eval, h1]; rfl, fun h => by rw [k1]; exact R.live (k2 ▸ h), by rw [k1]; exact R.mxw, R.bound,
      fun q => by rw [remove_mem, R.mem]; rfl⟩
  | clear e ih =>
    intro h
    obtain ⟨g, h1, R⟩ := ih h
    refine ⟨{ g with t := each (fun _ _ => 0) g.mxw g.t }, by rw [eval, h1]; exact sh_some _ (by rw [R.mxw]; exact R.bound),
      R.live, R.mxw, R.bound, fun q => ?_⟩
    show inW (each (fun _ _ => 0) g.mxw g.t) g.mxw q = true ↔ _
    rw [inW_iff, each_apply]
    simp only [Mem, iff_false]
    rintro ⟨h2, h3⟩
    rw [if_pos (by omega)] at h3
    simp at h3
  | compl e ih =>
    intro h
    obtain ⟨g, h1, R⟩ := ih h
    refine ⟨{ g with t := each (fun _ w => ~~~ w) g.mxw g.t }, by rw [eval, h1]; exact sh_some _ (by rw [R.mxw]; exact R.bound),
      R.live, R.mxw, R.bound, fun q => ?_⟩
    have := NatSet.complement_mem g.mxw g.t q
    refine this.trans ?_
    show q < 64 * g.mxw ∧ ¬ has g q = true ↔ _
    rw [R.mem, R.mxw]; rfl
  | union a b iha ihb =>
    intro h
    obtain ⟨s, h1, R1⟩ := iha h.1
    obtain ⟨t, h2, R2⟩ := ihb h.2
    obtain ⟨g, h3, R⟩ := R1.union R2
    exact ⟨g, by rw [eval, h1, h2]; exact h3, R⟩
  | inter a b iha ihb =>
    intro h
    obtain ⟨s, h1, R1⟩ := iha h.1
    obtain ⟨t, h2, R2⟩ := ihb h.2
    obtain ⟨g, h3, R, _⟩ := R1.inter R2
    exact ⟨g, by rw [eval, h1, h2]; exact h3, R⟩
  | diff a b iha ihb =>
    intro h
    obtain ⟨s, h1, R1⟩ := iha h.1
    obtain ⟨t, h2, R2⟩ := ihb h.2
    obtain ⟨g, h3, R, _⟩ := R1.diff R2
    exact ⟨g, by rw [eval, h1, h2]; exact h3, R⟩
  | atLeast e p ih =>
    intro h
    obtain ⟨g, h1, R⟩ := ih h
    obtain ⟨⟨k1, k2, _⟩, k3⟩ := removeBelow_mem g p
    exact ⟨_, by rw [eval, h1]; rfl, fun h => by rw [k1]; exact R.live (k2 ▸ h), by rw [k1]; exact R.mxw, R.bound,
      fun q => by rw [k3, R.mem]; rfl⟩

theorem emptyLoop_eq (t : Nat → W) (n : Nat) : ∀ f i, n - i < f → (emptyLoop t n f i = true ↔ ∀ j, i ≤ j → j < n → t j = 0) := by
  intro f
  induction f with
  | zero => intro i h; omega
  | succ f ih =>
    intro i h
    rw [emptyLoop]
    by_cases hi : i < n
    · rw [if_pos hi]
      by_cases h0 : t i = 0
      · rw [if_neg (by simp [h0]), ih (i + 1) (by omega)]
        refine ⟨fun h1 j hj hn => ?_, fun h1 j hj hn => h1 j (by omega) hn⟩
        by_cases hji : j = i
        · rw [hji, h0]
        · exact h1 j (by omega) hn
      · rw [if_pos h0]
        simp only [Bool.false_eq_true, false_iff]
        intro h1; exact h0 (h1 i (Nat.le_refl _) hi)
    · rw [if_neg hi]
      simp only [true_iff]
      intro j hj hn; omega

theorem Rep.elems {g : G} {n : Nat} {M : Nat → Prop} (R : Rep g n M) {l : List Nat} (hl : Lists l M) : Bits.elems g.t g.mxw = l :=
  Lists.unique (elems_lists (t := g.t) (n := g.mxw)) ⟨hl.1, fun q => (hl.2 q).trans (R.mem q).symm⟩

/-- C49, queries. -/
theorem gnset_queries {e : E} (hf : Fits e) {l : List Nat} (hl : Lists l (Mem e)) :
    ∃ g, eval e = some g ∧ g.mxw = words e ∧ (∀ p, contains g p = decide (p ∈ l)) ∧ size g = some l.length ∧ empty g = some (decide (l = [])) := by
  obtain ⟨g, h1, R⟩ := gnset_mem e hf
  have he := R.elems hl
  have hb : g.mxw < 2 ^ 15 := by rw [R.mxw]; exact R.bound
  refine ⟨g, h1, R.mxw, fun p => ?_, ?_, ?_⟩
  · rw [contains_eq, Bool.eq_iff_iff, decide_eq_true_iff, R.mem, hl.2]
  · unfold size; rw [sh_some _ hb, popAll_eq, he]
  · unfold empty
    rw [sh_some _ hb, Option.some.injEq, Bool.eq_iff_iff, emptyLoop_eq _ _ _ _ (by omega), decide_eq_true_iff, ← he]
    have : (∀ j, 0 ≤ j → j < g.mxw → g.t j = 0) ↔ ∀ i < g.mxw, g.t i = 0 := ⟨fun h i hi => h i (Nat.zero_le _) hi, fun h j _ hj => h j hj⟩
    rw [this, zero_iff, List.eq_nil_iff_forall_not_mem]
    constructor
    · intro h q hq; rw [mem_elems, h] at hq; exact absurd hq (by simp)
    · intro h q
      cases hc : inW g.t g.mxw q with
      | false => rfl
      | true => exact absurd (mem_elems.2 hc) (h q)

theorem sameTo_iff {s t : Nat → W} {k : Nat} : sameTo s t k = true ↔ ∀ i < k, s i = t i := by
  simp [sameTo, List.all_eq_true]
theorem zeroTo_iff {s : Nat → W} {a b : Nat} : zeroTo s a b = true ↔ ∀ i, a ≤ i → i < b → s i = 0 := by
  simp only [zeroTo, List.all_eq_true, List.mem_range'_1, beq_iff_eq]
  exact ⟨fun h i h1 h2 => h i (by omega), fun h i h1 => h i h1.1 (by omega)⟩

theorem ne_eq_not (a b : G) : ne a b = !eq a b := by
  have h1 : ∀ k, (List.range k).any (fun i => a.t i != b.t i) = !sameTo a.t b.t k := by
    intro k; unfold sameTo; rw [List.not_all_eq_any_not]; rfl
  have h2 : ∀ (s : Nat → W) x y, (List.range' x (y - x)).any (fun i => s i != 0) = !zeroTo s x y := by
    intro s x y; unfold zeroTo; rw [List.not_all_eq_any_not]; rfl
  unfold ne eq
  rw [h1, h1, h2, h2]
  split
  · rfl
  · cases sameTo a.t b.t (min a.mxw b.mxw)
    · rfl
    · simp only [Bool.not_true, Bool.false_eq_true, if_false]
      split <;> rfl

/-- Equality when the first set has no more words. -/
theorem same_short {s t : Nat → W} {n m : Nat} (hnm : n ≤ m) :
    ((∀ i < n, s i = t i) ∧ ∀ i, n ≤ i → i < m → t i = 0) ↔ ∀ q, inW s n q = inW t m q := by
  constructor
  · rintro ⟨h1, h2⟩ q
    by_cases hq : q / 64 < n
    · simp only [inW, h1 _ hq, show q < 64 * n by omega, show q < 64 * m by omega]
    · by_cases hqm : q / 64 < m
      · simp only [inW, h2 _ (by omega) hqm, show ¬ q < 64 * n by omega]; simp
      · simp only [inW, show ¬ q < 64 * n by omega, show ¬ q < 64 * m by omega]; simp
  · intro h
    constructor
    · intro i hi
      refine BitVec.eq_of_getLsbD_eq (fun b hb => ?_)
      have := h (64 * i + b)
      unfold inW at this
      rw [show (64 * i + b) / 64 = i by omega, show (64 * i + b) % 64 = b by omega] at this
      simpa [show 64 * i + b < 64 * n by omega, show 64 * i + b < 64 * m by omega] using this
    · intro i hi hm
      rw [eq_zero_iff]
      intro b hb
      have := h (64 * i + b)
      unfold inW at this
      rw [show (64 * i + b) / 64 = i by omega, show (64 * i + b) % 64 = b by omega] at this
      simpa [show ¬ 64 * i + b < 64 * n by omega, show 64 * i + b < 64 * m by omega] using this.symm

theorem eq_iff (a b : G) : eq a b = true ↔ ∀ q, has a q = has b q := by
  unfold eq
  split
  · rename_i h
    rw [sameTo_iff, NatSet.same_iff]
    unfold has; rw [h]
  · rename_i h
    have hs : (if (!sameTo a.t b.t (min a.mxw b.mxw)) = true then false else if a.mxw < b.mxw then zeroTo b.t a.mxw b.mxw else zeroTo a.t b.mxw a.mxw) = true ↔
        sameTo a.t b.t (min a.mxw b.mxw) = true ∧ (if a.mxw < b.mxw then zeroTo b.t a.mxw b.mxw else zeroTo a.t b.mxw a.mxw) = true := by
      cases sameTo a.t b.t (min a.mxw b.mxw) <;> simp
    rw [hs, sameTo_iff]
    split
    · rename_i hlt
      rw [zeroTo_iff, show min a.mxw b.mxw = a.mxw by omega, same_short (by omega)]
    · rename_i hlt
      rw [zeroTo_iff, show min a.mxw b.mxw = b.mxw by omega]
      have := same_short (s := b.t) (t := a.t) (n := b.mxw) (m := a.mxw) (by omega)
      have hsym : (∀ i < b.mxw, a.t i = b.t i) ↔ ∀ i < b.mxw, b.t i = a.t i := ⟨fun h i hi => (h i hi).symm, fun h i hi => (h i hi).symm⟩
      rw [hsym, this]
      exact ⟨fun h q => (h q).symm, fun h q => (h q).symm⟩

/-- C49, `==` and `!=`: whatever the word counts. -/
theorem gnset_eq {a b : E} (ha : Fits a) (hb : Fits b) :
    ∃ s t, eval a = some s ∧ eval b = some t ∧ (eq s t = true ↔ ∀ q, Mem a q ↔ Mem b q) ∧ (ne s t = true ↔ ¬ ∀ q, Mem a q ↔ Mem b q) := by
  obtain ⟨s, h1, R1⟩ := gnset_mem a ha
  obtain ⟨t, h2, R2⟩ := gnset_mem b hb
  have : eq s t = true ↔ ∀ q, Mem a q ↔ Mem b q := by
    rw [eq_iff]
    constructor
    · intro h q; rw [← R1.mem, ← R2.mem, h]
    · intro h q; rw [Bool.eq_iff_iff, R1.mem, R2.mem]; exact h q
  refine ⟨s, t, h1, h2, this, ?_⟩
  rw [ne_eq_not, ← this]
  cases eq s t <;> simp

/-! ### C50 -/

theorem Lists.last {l : List Nat} {M : Nat → Prop} (h : Lists l M) {m : Nat} (hm : M m) (hx : ∀ q, M q → q ≤ m) : l.getLast? = some m := by
  have hml := (h.2 m).2 hm
  cases hg : l.getLast? with
  | none => rw [List.getLast?_eq_none_iff] at hg; rw [hg] at hml; simp at hml
  | some x =>
    have hxl : x ∈ l := List.mem_of_getLast? hg
    have hle := hx x ((h.2 x).1 hxl)
    obtain ⟨ys, hys⟩ := List.getLast?_eq_some_iff.1 hg
    rw [hys] at hml
    have hp := h.1
    rw [hys, List.pairwise_append] at hp
    rcases List.mem_append.1 hml with hm2 | hm2
    · have := hp.2.2 _ hm2 x (by simp); exact absurd this (by omega)
    · simp at hm2; rw [hm2]

theorem rloop_spec (g : G) {lw : Nat} : ∀ (k f : Nat) (w : W) (found : Nat × W), (wl w).length = k → k + 1 < f → w ≠ 0 →
    ∃ it, rloop g lw f (lw, w) found = some it ∧ it.1 = lw ∧ it.2 ≠ 0 ∧ w.getLsbD (ctz it.2) = true ∧ ∀ j, w.getLsbD j = true → j ≤ ctz it.2 := by
  intro k
  induction k with
  | zero =>
    intro f w found hk _ hw
    rw [List.length_eq_zero_iff, wl_nil] at hk
    exact absurd hk hw
  | succ k ih =>
    intro f w found hk hf hw
    cases f with
    | zero => omega
    | succ f =>
      rw [rloop, if_pos rfl]
      have hc := wl_cons hw
      rw [hc, List.length_cons] at hk
      have hw' : (wl (w ^^^ (w &&& -w))).length = k := by omega
      by_cases h0 : w ^^^ (w &&& -w) = 0
      · -- the word is used up: the iterator leaves it
        obtain ⟨c1, c2, c3⟩ := ctz_spec hw
        have hnx : (next g.t g.mxw (lw, w)).1 ≠ lw := by
          unfold next
          dsimp only
          rw [h0]
          rw [adv, if_pos rfl]
          split
          · rename_i hlt
            have mono : ∀ f i v, i ≤ (adv g.t g.mxw f i v).1 := by
              intro f
              induction f with
              | zero => intro i v; exact Nat.le_refl _
              | succ f ihf =>
                intro i v
                rw [adv]
                split
                · split
                  · exact Nat.le_trans (by omega) (ihf (i + 1) _)
                  · exact Nat.le_succ _
                · exact Nat.le_refl _
            have := mono g.mxw (lw + 1) (g.t (lw + 1))
            omega
          · simp
        cases f with
        | zero => omega
        | succ f =>
          rw [rloop, if_neg hnx]
          refine ⟨_, rfl, rfl, hw, c1, fun j hj => ?_⟩
          by_cases hj2 : j = ctz w
          · exact Nat.le_of_eq hj2
          · have := clear_get hw j
            rw [h0, hj] at this
            simp [hj2] at this
      · have hnx : next g.t g.mxw (lw, w) = (lw, w ^^^ (w &&& -w)) := by
          unfold next
          dsimp only
          rw [adv, if_neg h0]
        rw [hnx]
        obtain ⟨it, i1, i2, i3, i4, i5⟩ := ih f (w ^^^ (w &&& -w)) (lw, w) hw' (by omega) h0
        refine ⟨it, i1, i2, i3, ?_, fun j hj => ?_⟩
        · rw [clear_get hw] at i4
          simp only [Bool.and_eq_true] at i4
          exact i4.1
        · by_cases hj2 : j = ctz w
          · have hm := (ctz_spec h0).1
            rw [clear_get hw] at i4
            simp only [Bool.and_eq_true] at i4
            have := (ctz_spec hw).2.2 _ i4.1
            omega
          · refine i5 j ?_
            rw [clear_get hw, hj]; simp [hj2]

theorem pop_le (w : W) : (wl w).length ≤ 64 := by
  unfold wl
  exact Nat.le_trans (List.length_filter_le _ _) (by simp)

/-- C50.  Sets of up to 512 words (members below 32768): iteration, `min` and `max`.  A set without
words can be iterated if its array is null. -/
theorem gnset_iter {e : E} (hf : Fits e) {l : List Nat} (hl : Lists l (Mem e)) (hw : words e ≤ 512) :
    ∃ g, eval e = some g ∧ ((0 < words e ∨ g.nul = true) → iter g = some (l.map (fun x : Nat => (x : Int)))) ∧
      minS g = some (match l.head? with | none => 2 ^ 31 - 1 | some x => (x : Int)) ∧
      maxS g = some (match l.getLast? with | none => - 2 ^ 31 | some x => (x : Int)) := by
  obtain ⟨g, h1, R⟩ := gnset_mem e hf
  have he := R.elems hl
  have hb : g.mxw < 2 ^ 15 := by rw [R.mxw]; exact R.bound
  have hm := R.mxw
  have hsz : size g = some l.length := by unfold size; rw [sh_some _ hb, popAll_eq, he]
  have hsh : ∀ x ∈ l, toShort x = (x : Int) := by
    intro x hx
    refine toShort_eq ?_
    have := (inW_iff.1 (mem_elems.1 (he ▸ hx : x ∈ elems g.t g.mxw))).1
    omega
  have hpos : 0 < l.length → 0 < g.mxw := by
    intro h
    refine Nat.pos_of_ne_zero (fun h0 => ?_)
    rw [← he, h0] at h
    simp [elems] at h
  have hbeg : 0 < g.mxw → iterAt g 0 = some (adv g.t g.mxw (g.mxw + 1) 0 (g.t 0)) := by
    intro hp
    unfold iterAt
    rw [if_pos hp]
    cases hn : g.nul with
    | true => have := R.live hn; omega
    | false => simp
  refine ⟨g, h1, ?_, ?_, ?_⟩
  · intro hor
    by_cases hp : 0 < g.mxw
    · obtain ⟨g1, g2⟩ := rest_begin (t := g.t) hp
      have hlen : (elems g.t g.mxw).length < 64 * g.mxw + 1 := by
        have : (elems g.t g.mxw).length ≤ (List.range (64 * g.mxw)).length := List.length_filter_le _ _
        rw [List.length_range] at this; omega
      unfold iter
      rw [hbeg hp, Option.bind_some, iterL_spec g.t g.mxw (fun _ _ _ => rfl) _ _ g1 (by rw [g2]; exact hlen), g2, he]
      rw [List.map_congr_left hsh]
    · have hn : g.nul = true := by
        rcases hor with h | h
        · omega
        · exact h
      have h0 : g.mxw = 0 := by omega
      have hl0 : l = [] := by
        rw [← List.length_eq_zero_iff]
        exact Nat.eq_zero_of_not_pos (fun h => by have := hpos h; omega)
      unfold iter iterAt
      rw [h0, hn, hl0]
      rfl
  · unfold minS
    rw [hsz, Option.bind_some]
    cases hlc : l with
    | nil => simp
    | cons x r =>
      rw [if_pos (by simp)]
      have hp := hpos (by rw [hlc]; simp)
      rw [hbeg hp]
      obtain ⟨g1, g2⟩ := rest_begin (t := g.t) hp
      rw [he, hlc] at g2
      generalize adv g.t g.mxw (g.mxw + 1) 0 (g.t 0) = it at *
      rcases g1 with ⟨q1, q2⟩ | q
      · have := (rest_next (t := g.t) q1 q2).2
        rw [g2] at this
        have hx := (List.cons.inj this).1
        rw [Option.map_some, ← hx, hsh x (by rw [hlc]; simp)]
        rfl
      · rw [q, rest_end] at g2; simp at g2
  · unfold maxS
    rw [hsz, Option.bind_some]
    by_cases hl0 : l = []
    · subst hl0; simp
    · have hlp : 0 < l.length := by
        cases l with
        | nil => exact absurd rfl hl0
        | cons x r => simp
      rw [if_pos hlp]
      have hp := hpos hlp
      unfold rbegin
      cases hlw : lastWord g.t g.mxw with
      | none =>
        rw [← he] at hlp
        obtain ⟨x, hx⟩ := List.exists_mem_of_length_pos hlp
        rw [mem_elems, zero_iff.1 (lastWord_none.1 hlw)] at hx
        exact absurd hx (by simp)
      | some lw =>
        obtain ⟨m1, m2⟩ := largest_spec hlw
        obtain ⟨w1, w2, w3⟩ := lastWord_some hlw
        obtain ⟨t1, t2, t3⟩ := top_spec w2
        have hit : iterAt g lw = some (lw, g.t lw) := by
          unfold iterAt
          rw [if_pos w1, adv, if_neg w2]
          cases hn : g.nul with
          | true => have := R.live hn; omega
          | false => simp
        rw [Option.bind_some, hit, Option.bind_some]
        dsimp only
        obtain ⟨it, i1, i2, i3, i4, i5⟩ := rloop_spec g (lw := lw) _ 66 (g.t lw) (lw, g.t lw) rfl (by have := pop_le (g.t lw); omega) w2
        rw [i1, Option.map_some]
        have htop : ctz it.2 = top (g.t lw) := Nat.le_antisymm (t3 _ i4) (i5 _ t1)
        have hlast : l.getLast? = some (64 * lw + top (g.t lw)) :=
          Lists.last hl ((R.mem _).1 m1) (fun q hq => m2 q ((R.mem q).2 hq))
        rw [hlast, i2, htop, hsh _ (List.mem_of_getLast? hlast)]

/-- Operations across a growth from one to four words. -/
example : ∃ g, eval (.diff (.union (.insert (.list [3, 70]) 200) (.interval 60 66)) (.list [63])) = some g ∧
    size g = some 9 ∧ contains g 63 = false := by
  obtain ⟨g, h1, _, h2, h3, _⟩ := gnset_queries (e := .diff (.union (.insert (.list [3, 70]) 200) (.interval 60 66)) (.list [63]))
    (by simp only [Fits]; decide) (l := [3, 60, 61, 62, 64, 65, 66, 70, 200]) ⟨by decide, fun q => by simp [Mem]; omega⟩
  exact ⟨g, h1, h3, by rw [h2]; decide⟩
example : ∃ g, eval (.compl (.insert (.new 64) 0)) = some g ∧ minS g = some 1 ∧ maxS g = some 63 := by
  have hf : Fits (.compl (.insert (.new 64) 0)) := by simp only [Fits]; decide
  have hl : Lists (List.range' 1 63) (Mem (.compl (.insert (.new 64) 0))) :=
    ⟨List.pairwise_lt_range', fun q => by rw [List.mem_range'_1]; simp [Mem, words, growTo]; omega⟩
  obtain ⟨g, h1, _, h2, h3⟩ := gnset_iter hf hl (by decide)
  exact ⟨g, h1, h2, h3⟩

/-- C50 is false for a copy of a set without words: its `begin()` is not its `end()`, so a loop over
the empty set produces values. -/
theorem iter_copy_false : ∃ e, Fits e ∧ (∀ q, ¬ Mem e q) ∧ ∃ g, eval e = some g ∧ iterAt g 0 = some (1, 0) ∧ ((1, 0) : Nat × W) ≠ (g.mxw, 0) ∧
    ∀ f, iterL (next g.t g.mxw) g.mxw f (1, 0) = none := by
  refine ⟨.copy (.interval 1 0), by simp only [Fits]; decide, fun q => by simp [Mem]; omega,
    ⟨0, 0, false, fun _ => 0⟩, rfl, rfl, by decide, ?_⟩
  have key : ∀ f i, 0 < i → iterL (next (fun _ => 0) 0) 0 f (i, 0) = none := by
    intro f
    induction f with
    | zero => intro i _; rfl
    | succ f ih =>
      intro i hi
      rw [iterL, if_neg (by simp; omega)]
      have hn : next (fun _ => 0) 0 (i, 0) = (i + 1, 0) := by
        unfold next
        dsimp only
        rw [show (0 : W) ^^^ (0 &&& -0) = 0 by decide, adv, if_pos rfl, if_neg (by omega)]
      rw [hn, ih _ (by omega)]; rfl
  exact fun f => key f 1 (by omega)

/-- C50 is false from 513 words on: the member 32768 comes out as -32768. -/
theorem iter_short : ∃ e, Fits e ∧ Mem e 32768 ∧ ∃ g, eval e = some g ∧ maxS g = some (-32768) := by
  refine ⟨.insert (.new 32832) 32768, by simp only [Fits]; decide, .inl rfl, ?_⟩
  have hv : (eval (.insert (.new 32832) 32768)).map maxS = some (some (-32768)) := by decide +kernel
  simp only [Option.map_eq_some_iff] at hv
  exact hv

/-! ### C51 -/

/-- `k` rotations by 2. -/
def rot : Nat → W → W
  | 0, w => w
  | k + 1, w => (rot k w).rotateLeft 2

theorem hash_congr {s t : Nat → W} : ∀ {n}, (∀ i < n, s i = t i) → hash s n = hash t n := by
  intro n
  induction n with
  | zero => intro _; rfl
  | succ n ih => intro h; rw [hash, hash, ih (fun i hi => h i (by omega)), h n (by omega)]

theorem hash_zero {t : Nat → W} {n : Nat} : ∀ {k}, (∀ i, n ≤ i → i < n + k → t i = 0) → hash t (n + k) = rot k (hash t n) := by
  intro k
  induction k with
  | zero => intro _; rfl
  | succ k ih =>
    intro h
    rw [← Nat.add_assoc, hash, ih (fun i h1 h2 => h i h1 (by omega)), h (n + k) (by omega) (by omega), rot]
    exact BitVec.xor_zero

/-- C51, what holds: equal sets hash alike up to a rotation by twice the difference in words; in
particular equal sets of the same word count hash alike. -/
theorem hash_partial {a b : G} (h : eq a b = true) (hw : a.mxw ≤ b.mxw) : hash b.t b.mxw = rot (b.mxw - a.mxw) (hash a.t a.mxw) := by
  obtain ⟨h1, h2⟩ := (same_short hw).2 ((eq_iff a b).1 h)
  rw [hash_congr h1]
  have := hash_zero (t := b.t) (n := a.mxw) (k := b.mxw - a.mxw) (fun i h3 h4 => h2 i h3 (by omega))
  rwa [show a.mxw + (b.mxw - a.mxw) = b.mxw by omega] at this

/-- C51 is false: {1} in one word and {1} in two words are equal and hash to 2 and 8. -/
theorem hash_false : ∃ a b, Fits a ∧ Fits b ∧ ∃ s t, eval a = some s ∧ eval b = some t ∧ eq s t = true ∧ hash s.t s.mxw = 2 ∧ hash t.t t.mxw = 8 := by
  refine ⟨.list [1], .remove (.insert (.list [1]) 64) 64, by simp only [Fits]; decide, by simp only [Fits]; decide, ?_⟩
  have hv : ((eval (.list [1])).bind fun s => (eval (.remove (.insert (.list [1]) 64) 64)).map fun t =>
      (s, t, eq s t, hash s.t s.mxw, hash t.t t.mxw)).map (·.2.2) = some (true, 2, 8) := by decide +kernel
  simp only [Option.map_eq_some_iff, Option.bind_eq_some_iff] at hv
  obtain ⟨⟨s, t, x⟩, ⟨s', h1, t', h2, h3⟩, h4⟩ := hv
  simp only [Prod.mk.injEq] at h3 h4
  obtain ⟨rfl, rfl, rfl⟩ := h3
  exact ⟨s', t', h1, h2, (Prod.mk.inj h4).1, (Prod.mk.inj (Prod.mk.inj h4).2).1, (Prod.mk.inj (Prod.mk.inj h4).2).2⟩

/-! ### C52 -/

/-- C52, what holds: right whenever no member exceeds `_nbp` and the word of `p + 1` exists unless
`p + 1` exceeds `_nbp`. -/
theorem removeAbove_partial {g : G} (hn : ∀ q, has g q = true → q ≤ g.nbp) {p : Nat} (hp : p + 1 ≤ g.nbp → p + 1 < 64 * g.mxw) :
    ∃ g', removeAbove g p = some g' ∧ ∀ q, has g' q = true ↔ has g q = true ∧ q ≤ p := by
  unfold removeAbove
  simp only []
  split
  · rename_i h
    refine ⟨g, rfl, fun q => ⟨fun hq => ⟨hq, ?_⟩, And.left⟩⟩
    have := hn q hq; omega
  · rename_i h
    have := hp (by omega)
    rw [if_pos (by omega)]
    refine ⟨_, rfl, fun q => ?_⟩
    show inW (fun i => if i = (p + 1) / 64 then g.t ((p + 1) / 64) &&& low ((p + 1) % 64) else if (p + 1) / 64 < i ∧ i < g.mxw then 0 else g.t i) g.mxw q = true ↔ _
    rw [inW_iff, inW_iff]
    rcases Nat.lt_trichotomy (q / 64) ((p + 1) / 64) with hq | hq | hq
    · rw [if_neg (by omega), if_neg (by omega)]
      exact ⟨fun h => ⟨h, by omega⟩, And.left⟩
    · rw [if_pos hq, BitVec.getLsbD_and, low_get (by omega), Bool.and_eq_true, decide_eq_true_iff, hq]
      constructor
      · rintro ⟨h1, h2, h3⟩; exact ⟨⟨h1, h2⟩, by omega⟩
      · rintro ⟨⟨h1, h2⟩, h3⟩; exact ⟨h1, h2, by omega⟩
    · rw [if_neg (by omega)]
      constructor
      · rintro ⟨h1, h2⟩
        rw [if_pos (by omega)] at h2
        simp at h2
      · rintro ⟨_, h2⟩; omega

/-- Built without unions and complements, and with members below 2^16. -/
def Plain : E → Prop
  | .new _ => True
  | .range f e => max f e < 2 ^ 16 - 64
  | .interval _ ub => ub < 2 ^ 16 - 64
  | .list l => l.length < 2 ^ 16 ∧ ∀ q ∈ l, q < 2 ^ 16
  | .copy e => Plain e
  | .insert e p => Plain e ∧ p < 2 ^ 16
  | .remove e _ => Plain e
  | .clear e => Plain e
  | .compl _ => False
  | .union _ _ => False
  | .inter a _ => Plain a
  | .diff a _ => Plain a
  | .atLeast e _ => Plain e

theorem foldl_max_le : ∀ (l : List Nat) (a : Nat), a ≤ l.foldl (fun a p => max a (p % 2 ^ 16)) a ∧
    (∀ q ∈ l, q % 2 ^ 16 ≤ l.foldl (fun a p => max a (p % 2 ^ 16)) a) ∧
    ∀ c, a ≤ c → (∀ q ∈ l, q ≤ c) → l.foldl (fun a p => max a (p % 2 ^ 16)) a ≤ c := by
  intro l
  induction l with
  | nil => intro a; exact ⟨Nat.le_refl _, fun q hq => by simp at hq, fun c h _ => h⟩
  | cons p l ih =>
    intro a
    obtain ⟨h1, h2, h3⟩ := ih (max a (p % 2 ^ 16))
    rw [List.foldl_cons]
    refine ⟨by omega, fun q hq => ?_, fun c hc hq => ?_⟩
    · rcases List.mem_cons.1 hq with rfl | hq
      · omega
      · exact h2 q hq
    · refine h3 c ?_ (fun q hm => hq q (List.mem_cons_of_mem _ hm))
      have := hq p List.mem_cons_self
      have := Nat.mod_le p (2 ^ 16)
      omega

theorem foldl_growTo_fits : ∀ (l : List Nat) (w : Nat), 0 < w → ∀ q ∈ l, q < 64 * l.foldl growTo w := by
  intro l
  induction l with
  | nil => intro w _ q hq; simp at hq
  | cons p l ih =>
    intro w hw q hq
    obtain ⟨s1, s2, _⟩ := growTo_spec (p := p) hw
    rw [List.foldl_cons]
    rcases List.mem_cons.1 hq with rfl | hq
    · have := foldl_growTo_le l (growTo w q) (by omega); omega
    · exact ih _ (by omega) q hq

/-- `_nbp` of sets built plainly: at least the members, at most the capacity. -/
theorem plain_nbp : ∀ e, Fits e → Plain e → ∀ g, eval e = some g → (∀ q, Mem e q → q ≤ g.nbp) ∧ g.nbp ≤ 64 * words e := by
  intro e
  induction e with
  | new nb =>
    intro _ _ g hg
    simp only [eval, Option.some.injEq] at hg
    subst hg
    exact ⟨fun q hq => hq.elim, by simp only [GNSet.new, words]; omega⟩
  | range f e =>
    intro h hp g hg
    have h : words (.range f e) < 2 ^ 15 := h
    have hp : max f e < 2 ^ 16 - 64 := hp
    simp only [words] at h ⊢
    simp only [eval, ofRange] at hg
    by_cases hfe : f = e
    · rw [if_pos hfe, Option.some.injEq] at hg
      subst hg
      exact ⟨fun q hq => by simp only [Mem] at hq; omega, by simp⟩
    · rw [if_neg hfe] at h ⊢
      rw [if_neg hfe, ceil_eq] at hg
      rw [← rangeL_words hfe] at h ⊢
      have hpos : 0 < (max f e + 63) / 64 := by omega
      have hle := foldl_growTo_le (rangeL f e) _ hpos
      rw [Nat.mod_eq_of_lt (show (max f e + 63) / 64 < 2 ^ 16 by omega), Nat.mod_eq_of_lt (show (max f e + 63) / 64 * 64 < 2 ^ 16 by omega)] at hg
      obtain ⟨g', h1, R, _, hn⟩ := Rep.insertAll (rangeL f e) (g := ⟨(max f e + 63) / 64, (max f e + 63) / 64 * 64, false, fun _ => 0⟩)
        (n := (max f e + 63) / 64) (M := fun _ => False) ⟨fun h => by simp at h, rfl, by omega, fun q => by show inW (fun _ => 0) _ q = true ↔ _; rw [zero_has]; simp⟩ hpos rfl h
      rw [hg, Option.some.injEq] at h1
      subst h1
      obtain ⟨f1, f2, f3⟩ := foldl_max_le (rangeL f e) ((max f e + 63) / 64 * 64)
      rw [hn]
      refine ⟨fun q hq => ?_, f3 _ (by omega) (fun q hq => ?_)⟩
      · have hq := mem_rangeL.2 hq
        have h4 := f2 q hq
        rw [mem_rangeL] at hq
        rw [Nat.mod_eq_of_lt (by omega)] at h4
        exact h4
      · exact Nat.le_of_lt (foldl_growTo_fits _ _ hpos q hq)
  | interval lb ub =>
    intro h hp g hg
    have hp : ub < 2 ^ 16 - 64 := hp
    simp only [words]
    simp only [eval, GNSet.interval] at hg
    by_cases hc : ub < lb
    · rw [if_pos hc, Option.some.injEq] at hg
      subst hg
      exact ⟨fun q hq => by simp only [Mem] at hq; omega, by simp⟩
    · rw [if_neg hc, ceil_eq, show (ub + 1 + 63) / 64 = (ub + 64) / 64 by omega, Nat.mod_eq_of_lt (show (ub + 64) / 64 < 2 ^ 16 by omega),
        Nat.mod_eq_of_lt (show (ub + 64) / 64 * 64 < 2 ^ 16 by omega), Option.map_eq_some_iff] at hg
      obtain ⟨t, _, rfl⟩ := hg
      rw [if_neg hc]
      exact ⟨fun q hq => by simp only [Mem] at hq; dsimp only; omega, by dsimp only; omega⟩
  | list l =>
    intro h hp g hg
    have h : words (.list l) < 2 ^ 15 := h
    obtain ⟨hp1, hp2⟩ : l.length < 2 ^ 16 ∧ ∀ q ∈ l, q < 2 ^ 16 := hp
    simp only [words] at h ⊢
    simp only [eval, ofList] at hg
    obtain ⟨s1, s2, _⟩ := growTo_spec (w := 1) (p := l.length) (by omega)
    have hle := foldl_growTo_le l (growTo 1 l.length) (by omega)
    have hgr : grow (l.length / 64) 17 1 = some (growTo 1 l.length) := by
      by_cases hc : 1 ≤ l.length / 64
      · exact grow_growTo (by omega) hc (by omega)
      · rw [growTo_same (by omega), grow, if_neg (by omega)]
    rw [hgr, Option.bind_some] at hg
    obtain ⟨g', h1, R, _, hn⟩ := Rep.insertAll l (g := ⟨growTo 1 l.length, l.length / 64 * 64 % 2 ^ 16, false, fun _ => 0⟩)
      (n := growTo 1 l.length) (M := fun _ => False) ⟨fun h => by simp at h, rfl, by omega, fun q => by show inW (fun _ => 0) _ q = true ↔ _; rw [zero_has]; simp⟩ (by omega) rfl h
    rw [hg, Option.some.injEq] at h1
    subst h1
    obtain ⟨f1, f2, f3⟩ := foldl_max_le l (l.length / 64 * 64 % 2 ^ 16)
    rw [hn]
    refine ⟨fun q hq => ?_, f3 _ ?_ (fun q hq => Nat.le_of_lt (foldl_growTo_fits _ _ (by omega) q hq))⟩
    · have h4 := f2 q hq
      rwa [Nat.mod_eq_of_lt (hp2 q hq)] at h4
    · have := Nat.mod_le (l.length / 64 * 64) (2 ^ 16)
      omega
  | copy e ih =>
    intro h hp g hg
    rw [eval, Option.bind_eq_some_iff] at hg
    obtain ⟨g0, h1, h2⟩ := hg
    unfold GNSet.copy at h2
    split at h2
    · simp at h2
    · simp only [Option.some.injEq] at h2
      subst h2
      exact ih h hp g0 h1
  | insert e p ih =>
    intro h hp g hg
    obtain ⟨g0, h1, R⟩ := gnset_mem e h.1
    obtain ⟨i1, i2⟩ := ih h.1 hp.1 g0 h1
    obtain ⟨g', h2, R', _, hn⟩ := R.insert h.2.1 h.2.2
    rw [eval, h1, Option.bind_some, h2, Option.some.injEq] at hg
    subst hg
    obtain ⟨s1, s2, _⟩ := growTo_spec (p := p) h.2.1
    have hp2 : p < 2 ^ 16 := hp.2
    rw [hn, Nat.mod_eq_of_lt hp2]
    simp only [words]
    refine ⟨fun q hq => ?_, by omega⟩
    rcases hq with rfl | hq
    · omega
    · have := i1 q hq; omega
  | remove e p ih =>
    intro h hp g hg
    rw [eval, Option.map_eq_some_iff] at hg
    obtain ⟨g0, h1, rfl⟩ := hg
    obtain ⟨i1, i2⟩ := ih h hp g0 h1
    rw [(remove_keep g0 p).2.2]
    exact ⟨fun q hq => i1 q hq.1, i2⟩
  | clear e ih =>
    intro h hp g hg
    rw [eval, Option.bind_eq_some_iff] at hg
    obtain ⟨g0, h1, h2⟩ := hg
    unfold GNSet.clear sh at h2
    split at h2
    · simp only [Option.some.injEq] at h2
      subst h2
      exact ⟨fun q hq => hq.elim, (ih h hp g0 h1).2⟩
    · simp at h2
  | compl e _ => intro _ hp; exact hp.elim
  | union a b _ _ => intro _ hp; exact hp.elim
  | inter a b iha _ =>
    intro h hp g hg
    obtain ⟨s, h1, R1⟩ := gnset_mem a h.1
    obtain ⟨t, h2, R2⟩ := gnset_mem b h.2
    obtain ⟨g', h3, R, hn, _⟩ := R1.inter R2
    rw [eval, h1, h2, Option.bind_some, Option.bind_some, h3, Option.some.injEq] at hg
    subst hg
    obtain ⟨i1, i2⟩ := iha h.1 hp s h1
    rw [hn]
    exact ⟨fun q hq => i1 q hq.1, i2⟩
  | diff a b iha _ =>
    intro h hp g hg
    obtain ⟨s, h1, R1⟩ := gnset_mem a h.1
    obtain ⟨t, h2, R2⟩ := gnset_mem b h.2
    obtain ⟨g', h3, R, hn, _⟩ := R1.diff R2
    rw [eval, h1, h2, Option.bind_some, Option.bind_some, h3, Option.some.injEq] at hg
    subst hg
    obtain ⟨i1, i2⟩ := iha h.1 hp s h1
    rw [hn]
    exact ⟨fun q hq => i1 q hq.1, i2⟩
  | atLeast e p ih =>
    intro h hp g hg
    rw [eval, Option.map_eq_some_iff] at hg
    obtain ⟨g0, h1, rfl⟩ := hg
    obtain ⟨i1, i2⟩ := ih h hp g0 h1
    rw [(removeBelow_mem g0 p).1.2.2]
    exact ⟨fun q hq => i1 q hq.1, i2⟩

/-- C52 on sets built plainly, for every `p` but the last value of the capacity. -/
theorem removeAbove_plain {e : E} (hf : Fits e) (hp : Plain e) {p : Nat} (hne : p + 1 ≠ 64 * words e) :
    ∃ g g', eval e = some g ∧ removeAbove g p = some g' ∧ ∀ q, has g' q = true ↔ Mem e q ∧ q ≤ p := by
  obtain ⟨g, h1, R⟩ := gnset_mem e hf
  obtain ⟨n1, n2⟩ := plain_nbp e hf hp g h1
  obtain ⟨g', h2, h3⟩ := removeAbove_partial (g := g) (fun q hq => n1 q ((R.mem q).1 hq)) (p := p) (fun hle => by rw [R.mxw]; omega)
  exact ⟨g, g', h1, h2, fun q => by rw [h3, R.mem]⟩

example : ∃ g g', eval (.insert (.interval 3 70) 200) = some g ∧ removeAbove g 66 = some g' ∧
    ∀ q, has g' q = true ↔ (q = 200 ∨ 3 ≤ q ∧ q ≤ 70) ∧ q ≤ 66 :=
  removeAbove_plain (e := .insert (.interval 3 70) 200) (by simp only [Fits]; decide) (by simp only [Plain]; decide) (by decide)

/-- C52 is false: after {1} | {50}, `removeAbove(10)` keeps 50. -/
theorem removeAbove_stale : ∃ e, Fits e ∧ ∃ g g', eval e = some g ∧ removeAbove g 10 = some g' ∧ has g' 50 = true := by
  refine ⟨.union (.list [1]) (.list [50]), by simp only [Fits]; decide, ?_⟩
  have hv : ((eval (.union (.list [1]) (.list [50]))).bind fun g => (removeAbove g 10).map fun g' => (g, g', has g' 50)).map (·.2.2) = some true := by
    decide +kernel
  simp only [Option.map_eq_some_iff, Option.bind_eq_some_iff] at hv
  obtain ⟨⟨g, g', b⟩, ⟨g0, h1, g1, h2, h3⟩, h4⟩ := hv
  simp only [Prod.mk.injEq] at h3 h4
  obtain ⟨rfl, rfl, rfl⟩ := h3
  exact ⟨g0, g1, h1, h2, h4⟩

/-- C52 is false: `GNSet(64).removeAbove(63)` writes behind the array. -/
theorem removeAbove_oob : removeAbove (new 64) 63 = none := by decide

/-! ### C70: functions over sets -/

theorem filterLoop_spec (p : Int → Bool) : ∀ (l : List Nat) {g : G} {n : Nat} {M : Nat → Prop}, Rep g n M → 0 < n → (∀ q ∈ l, q < 2 ^ 15) →
    n ≤ 1024 → ∃ g' m, filterLoop p (l.map (fun x : Nat => (x : Int))) g = some g' ∧ Rep g' m (fun q => (q ∈ l ∧ p q = true) ∨ M q) ∧ n ≤ m ∧ m ≤ 1024 := by
  intro l
  induction l with
  | nil => intro g n M R _ _ hn; exact ⟨g, n, rfl, ⟨R.live, R.mxw, R.bound, fun q => by rw [R.mem]; simp⟩, Nat.le_refl _, hn⟩
  | cons x l ih =>
    intro g n M R hn hb hn2
    have hx := hb x List.mem_cons_self
    rw [List.map_cons, filterLoop]
    cases hp : p (x : Int) with
    | true =>
      obtain ⟨s1, s2, s3⟩ := growTo_spec (p := x) hn
      have hgb : growTo n x ≤ 1024 := by
        by_cases hc : n ≤ x / 64
        · have := s3 hc; omega
        · rw [growTo_same (by omega)]; exact hn2
      obtain ⟨g1, h1, R1, _⟩ := R.insert hn (p := x) (by omega)
      obtain ⟨g2, m, h2, R2, h3, h4⟩ := ih R1 (by omega) (fun q hq => hb q (List.mem_cons_of_mem _ hq)) hgb
      refine ⟨g2, m, ?_, ⟨R2.live, R2.mxw, R2.bound, fun q => ?_⟩, by omega, h4⟩
      · rw [if_pos rfl, if_neg (by omega), show ((x : Int)).toNat = x by omega, h1]; exact h2
      · rw [R2.mem, List.mem_cons]
        constructor
        · rintro (⟨h, h'⟩ | rfl | h)
          · exact .inl ⟨.inr h, h'⟩
          · exact .inl ⟨.inl rfl, hp⟩
          · exact .inr h
        · rintro (⟨rfl | h, h'⟩ | h)
          · exact .inr (.inl rfl)
          · exact .inl ⟨h, h'⟩
          · exact .inr (.inr h)
    | false =>
      obtain ⟨g2, m, h2, R2, h3, h4⟩ := ih R hn (fun q hq => hb q (List.mem_cons_of_mem _ hq)) hn2
      refine ⟨g2, m, ?_, ⟨R2.live, R2.mxw, R2.bound, fun q => ?_⟩, h3, h4⟩
      · rw [if_neg (by simp)]; exact h2
      · rw [R2.mem, List.mem_cons]
        constructor
        · rintro (⟨h, h'⟩ | h)
          · exact .inl ⟨.inr h, h'⟩
          · exact .inr h
        · rintro (⟨rfl | h, h'⟩ | h)
          · rw [hp] at h'; exact absurd h' (by simp)
          · exact .inl ⟨h, h'⟩
          · exact .inr h

theorem foldl_minF {p : Int → Bool} {f : Int → Int} : ∀ (l : List Int) (a : Int),
    l.foldl (fun a v => if p v then (if a < f v then a else f v) else a) a ≤ a ∧
    (∀ v ∈ l, p v = true → l.foldl (fun a v => if p v then (if a < f v then a else f v) else a) a ≤ f v) ∧
    (l.foldl (fun a v => if p v then (if a < f v then a else f v) else a) a = a ∨
      ∃ v ∈ l, p v = true ∧ l.foldl (fun a v => if p v then (if a < f v then a else f v) else a) a = f v) := by
  intro l
  induction l with
  | nil => intro a; exact ⟨Int.le_refl _, fun v hv => by simp at hv, .inl rfl⟩
  | cons x l ih =>
    intro a
    rw [List.foldl_cons]
    obtain ⟨h1, h2, h3⟩ := ih (if p x then (if a < f x then a else f x) else a)
    generalize List.foldl (fun a v => if p v = true then if a < f v then a else f v else a) (if p x = true then if a < f x then a else f x else a) l = r at *
    have hle : (if p x then (if a < f x then a else f x) else a) ≤ a := by split <;> (try split) <;> omega
    refine ⟨by omega, fun v hv hp => ?_, ?_⟩
    · rcases List.mem_cons.1 hv with rfl | hv
      · rw [if_pos hp] at h1
        split at h1 <;> omega
      · exact h2 v hv hp
    · rcases h3 with h3 | ⟨v, hv, hp, h3⟩
      · by_cases hpx : p x = true
        · rw [if_pos hpx] at h3
          split at h3
          · exact .inl h3
          · exact .inr ⟨x, List.mem_cons_self, hpx, h3⟩
        · rw [if_neg hpx] at h3; exact .inl h3
      · exact .inr ⟨v, List.mem_cons_of_mem _ hv, hp, h3⟩

theorem foldl_maxF {p : Int → Bool} {f : Int → Int} : ∀ (l : List Int) (a : Int),
    a ≤ l.foldl (fun a v => if p v then (if a > f v then a else f v) else a) a ∧
    (∀ v ∈ l, p v = true → f v ≤ l.foldl (fun a v => if p v then (if a > f v then a else f v) else a) a) ∧
    (l.foldl (fun a v => if p v then (if a > f v then a else f v) else a) a = a ∨
      ∃ v ∈ l, p v = true ∧ l.foldl (fun a v => if p v then (if a > f v then a else f v) else a) a = f v) := by
  intro l
  induction l with
  | nil => intro a; exact ⟨Int.le_refl _, fun v hv => by simp at hv, .inl rfl⟩
  | cons x l ih =>
    intro a
    rw [List.foldl_cons]
    obtain ⟨h1, h2, h3⟩ := ih (if p x then (if a > f x then a else f x) else a)
    generalize List.foldl (fun a v => if p v = true then if a > f v then a else f v else a) (if p x = true then if a > f x then a else f x else a) l = r at *
    have hle : a ≤ (if p x then (if a > f x then a else f x) else a) := by split <;> (try split) <;> omega
    refine ⟨by omega, fun v hv hp => ?_, ?_⟩
    · rcases List.mem_cons.1 hv with rfl | hv
      · rw [if_pos hp] at h1
        split at h1 <;> omega
      · exact h2 v hv hp
    · rcases h3 with h3 | ⟨v, hv, hp, h3⟩
      · by_cases hpx : p x = true
        · rw [if_pos hpx] at h3
          split at h3
          · exact .inl h3
          · exact .inr ⟨x, List.mem_cons_self, hpx, h3⟩
        · rw [if_neg hpx] at h3; exact .inl h3
      · exact .inr ⟨v, List.mem_cons_of_mem _ hv, hp, h3⟩

/-- C70.  On sets with one to 512 words: `filter` keeps the members satisfying the predicate, `sum`
adds the terms, and the filtered `min` and `max` are attained bounds (or the sentinel). -/
theorem gnset_folds {e : E} (hf : Fits e) {l : List Nat} (hl : Lists l (Mem e)) (h0 : 0 < words e) (hw : words e ≤ 512)
    (p : Int → Bool) (f : Int → Int) :
    ∃ g, eval e = some g ∧
      (∃ r, filterS g p = some r ∧ ∀ q, contains r q = true ↔ Mem e q ∧ p q = true) ∧
      sumS g f = some ((l.map (fun x : Nat => f x)).sum) ∧
      (∃ v, minF g p f = some v ∧ v ≤ 2 ^ 31 - 1 ∧ (∀ q, Mem e q → p q = true → v ≤ f q) ∧ (v = 2 ^ 31 - 1 ∨ ∃ q, Mem e q ∧ p q = true ∧ v = f q)) ∧
      (∃ v, maxF g p f = some v ∧ - 2 ^ 31 ≤ v ∧ (∀ q, Mem e q → p q = true → f q ≤ v) ∧ (v = - 2 ^ 31 ∨ ∃ q, Mem e q ∧ p q = true ∧ v = f q)) := by
  obtain ⟨g, h1, h2, _⟩ := gnset_iter hf hl hw
  have hi := h2 (.inl h0)
  obtain ⟨g', h1', R⟩ := gnset_mem e hf
  rw [h1, Option.some.injEq] at h1'
  subst h1'
  have hlt : ∀ q ∈ l, q < 2 ^ 15 := by
    intro q hq
    have := (inW_iff.1 ((R.mem q).2 ((hl.2 q).1 hq))).1
    have := R.mxw
    omega
  have hmem : ∀ (P : Int → Prop), (∀ v ∈ l.map (fun x : Nat => (x : Int)), P v) ↔ ∀ q, Mem e q → P q := by
    intro P
    simp only [List.mem_map, forall_exists_index, and_imp, forall_apply_eq_imp_iff₂]
    exact ⟨fun h q hq => h q ((hl.2 q).2 hq), fun h q hq => h q ((hl.2 q).1 hq)⟩
  refine ⟨g, h1, ?_, ?_, ?_, ?_⟩
  · obtain ⟨r, m, f1, f2, _⟩ := filterLoop_spec p l (g := new 64) (n := 1) (M := fun _ => False)
      ⟨fun h => by simp [GNSet.new, ceil64] at h, rfl, by decide, fun q => by show inW (fun _ => 0) _ q = true ↔ _; rw [zero_has]; simp⟩ (by decide) hlt (by decide)
    refine ⟨r, by unfold filterS; rw [hi]; exact f1, fun q => ?_⟩
    rw [contains_eq, f2.mem, hl.2]; simp
  · unfold sumS
    rw [hi, Option.map_some, List.foldl_map]
    congr 1
    have : ∀ (m : List Nat) (a : Int), m.foldl (fun (a : Int) (v : Nat) => a + f (v : Int)) a = a + (m.map (fun x : Nat => f x)).sum := by
      intro m
      induction m with
      | nil => intro a; simp
      | cons x m ih => intro a; rw [List.foldl_cons, ih, List.map_cons, List.sum_cons, Int.add_assoc]
    rw [this, Int.zero_add]
  · unfold minF
    rw [hi]
    obtain ⟨m1, m2, m3⟩ := foldl_minF (p := p) (f := f) (l.map (fun x : Nat => (x : Int))) (2 ^ 31 - 1)
    refine ⟨_, rfl, m1, (hmem (fun v => p v = true → _ ≤ f v)).1 m2, m3.imp_right ?_⟩
    rintro ⟨v, hv, hp, h⟩
    obtain ⟨q, hq, rfl⟩ := List.mem_map.1 hv
    exact ⟨q, (hl.2 q).1 hq, hp, h⟩
  · unfold maxF
    rw [hi]
    obtain ⟨m1, m2, m3⟩ := foldl_maxF (p := p) (f := f) (l.map (fun x : Nat => (x : Int))) (- 2 ^ 31)
    refine ⟨_, rfl, m1, (hmem (fun v => p v = true → f v ≤ _)).1 m2, m3.imp_right ?_⟩
    rintro ⟨v, hv, hp, h⟩
    obtain ⟨q, hq, rfl⟩ := List.mem_map.1 hv
    exact ⟨q, (hl.2 q).1 hq, hp, h⟩

end Verif.GNSet
