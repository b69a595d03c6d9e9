import Verif.Props.GNSet
import Verif.MispW
/-!
# The number a `GNSet` spells

`mask g` is the number whose binary digits are the words of `g`.  Each operation of the class is shown to be the
operation on that number which the mask models of the examples use.
-/
namespace Verif.GNSet
open Verif.Bits
open Verif.NatSet (Lists elems_lists zero_iff)

def maskTo (t : Nat → W) : Nat → Nat
  | 0 => 0
  | n + 1 => maskTo t n ||| (t n).toNat <<< (64 * n)

/-- The number spelled by the words. -/
def mask (g : G) : Nat := maskTo g.t g.mxw

theorem maskTo_bit (t : Nat → W) : ∀ n q, (maskTo t n).testBit q = inW t n q
  | 0, q => by simp [maskTo, inW]
  | n + 1, q => by
    rw [maskTo, Nat.testBit_or, maskTo_bit t n q, Nat.testBit_shiftLeft, BitVec.testBit_toNat, Bool.eq_iff_iff, Bool.or_eq_true, inW_iff, inW_iff,
      Bool.and_eq_true, decide_eq_true_iff]
    constructor
    · rintro (⟨h1, h2⟩ | ⟨h1, h2⟩)
      · exact ⟨by omega, h2⟩
      · have h3 := BitVec.lt_of_getLsbD h2
        have e1 : q / 64 = n := by omega
        have e2 : q % 64 = q - 64 * n := by omega
        exact ⟨by omega, by rw [e1, e2]; exact h2⟩
    · rintro ⟨h1, h2⟩
      by_cases hq : q < 64 * n
      · exact .inl ⟨hq, h2⟩
      · have e1 : q / 64 = n := by omega
        have e2 : q % 64 = q - 64 * n := by omega
        rw [e1, e2] at h2
        exact .inr ⟨by omega, h2⟩

theorem mask_bit (g : G) (q : Nat) : (mask g).testBit q = has g q := maskTo_bit g.t g.mxw q

theorem mask_zero {g : G} : mask g = 0 ↔ ∀ q, has g q = false := by
  constructor
  · intro h q; rw [← mask_bit, h, Nat.zero_testBit]
  · intro h
    refine Nat.eq_of_testBit_eq fun q => ?_
    rw [mask_bit, h, Nat.zero_testBit]

/-- C140: `operator==` is equality of the numbers. -/
theorem eq_mask (a b : G) : eq a b = true ↔ mask a = mask b := by
  rw [eq_iff]
  constructor
  · intro h
    exact Nat.eq_of_testBit_eq fun q => by rw [mask_bit, mask_bit, h]
  · intro h q
    rw [← mask_bit, ← mask_bit, h]

theorem Rep.self {g : G} (hl : Live g) (hb : g.mxw < 2 ^ 15) : Rep g g.mxw (fun q => has g q = true) := ⟨hl, rfl, hb, fun _ => Iff.rfl⟩

/-- Sets of one shape: the same number of words, or empty. -/
theorem hash_mask {a b : G} (h : mask a = mask b) (hw : a.mxw = b.mxw ∨ mask a = 0) : hash a.t a.mxw = hash b.t b.mxw := by
  have he := (eq_mask a b).2 h
  rcases hw with hw | h0
  · have := hash_partial he (by omega)
    rw [this, hw, Nat.sub_self]; rfl
  · have key : ∀ {g : G}, mask g = 0 → hash g.t g.mxw = 0 := by
      intro g hg
      have hz : ∀ i < g.mxw, g.t i = 0 := zero_iff.2 (fun q => mask_zero.1 hg q)
      have : ∀ n ≤ g.mxw, hash g.t n = 0 := by
        intro n
        induction n with
        | zero => intro _; rfl
        | succ n ih => intro hn; rw [hash, ih (by omega), hz n (by omega)]; rfl
      exact this _ (Nat.le_refl _)
    rw [key h0, key (h ▸ h0)]

theorem mask_copy {g : G} (hl : Live g) : ∃ c, copy g = some c ∧ c.nul = false ∧ c.mxw = g.mxw ∧ mask c = mask g := by
  refine ⟨{ g with nul := false }, ?_, rfl, rfl, rfl⟩
  unfold copy
  rw [if_neg]
  rintro ⟨h1, h2⟩
  exact h2 (hl h1)

theorem mask_remove (g : G) (p : Nat) : mask (remove g p) = Ex.mdiff (mask g) (2 ^ p) := by
  refine Nat.eq_of_testBit_eq fun q => ?_
  unfold Ex.mdiff
  rw [mask_bit, Nat.testBit_xor, Nat.testBit_and, mask_bit, Nat.testBit_two_pow, Bool.eq_iff_iff, remove_mem]
  by_cases hq : p = q
  · subst hq; cases has g p <;> simp
  · cases has g q <;> simp [hq, Ne.symm hq]

theorem mask_diff {a b : G} (ha : a.mxw < 2 ^ 15) (hla : Live a) (hlb : Live b) (hb : b.mxw < 2 ^ 15) :
    ∃ g, diffWith a b = some g ∧ g.mxw = a.mxw ∧ g.nul = a.nul ∧ mask g = Ex.mdiff (mask a) (mask b) := by
  obtain ⟨g, h1, R, _, h2⟩ := (Rep.self hla ha).diff (Rep.self hlb hb)
  refine ⟨g, h1, R.mxw, h2, Nat.eq_of_testBit_eq fun q => ?_⟩
  unfold Ex.mdiff
  rw [mask_bit, Nat.testBit_xor, Nat.testBit_and, mask_bit, mask_bit, Bool.eq_iff_iff, R.mem]
  cases has a q <;> cases has b q <;> simp

theorem mask_union {a b : G} (ha : a.mxw < 2 ^ 15) (hla : Live a) (hlb : Live b) (hb : b.mxw < 2 ^ 15) :
    ∃ g, union a b = some g ∧ g.mxw = max a.mxw b.mxw ∧ g.nul = false ∧ mask g = mask a ||| mask b := by
  obtain ⟨c, h0, hc, hm, hk⟩ := mask_copy hla
  obtain ⟨g, h1, R⟩ := (Rep.self (g := c) (fun h => by rw [hc] at h; cases h) (by omega)).union (Rep.self hlb hb)
  refine ⟨g, by unfold union; rw [h0]; exact h1, by rw [R.mxw, hm], ?_, Nat.eq_of_testBit_eq fun q => ?_⟩
  · unfold unionWith at h1
    simp only [] at h1
    split at h1 <;> (rw [sh_some _ (by omega)] at h1; cases h1)
    · rfl
    · exact hc
  · rw [Nat.testBit_or, mask_bit, ← hk, mask_bit, mask_bit, Bool.eq_iff_iff, R.mem, Bool.or_eq_true]

theorem contains_mask (g : G) (p : Nat) : contains g p = (mask g).testBit p := by rw [contains_eq, mask_bit]

theorem empty_mask {g : G} (hb : g.mxw < 2 ^ 15) : empty g = some (decide (mask g = 0)) := by
  unfold empty
  rw [sh_some _ hb, Option.some.injEq, Bool.eq_iff_iff, emptyLoop_eq _ _ _ _ (by omega), decide_eq_true_iff, mask_zero]
  have : (∀ j, 0 ≤ j → j < g.mxw → g.t j = 0) ↔ ∀ i < g.mxw, g.t i = 0 := ⟨fun h i hi => h i (Nat.zero_le _) hi, fun h j _ hj => h j hj⟩
  rw [this, zero_iff]

theorem size_mask {g : G} (hb : g.mxw < 2 ^ 15) : (size g).map (fun k => decide (k = 0)) = some (decide (mask g = 0)) := by
  unfold size
  rw [sh_some _ hb, popAll_eq, Option.map_some, Option.some.injEq, decide_eq_decide, mask_zero, List.length_eq_zero_iff, List.eq_nil_iff_forall_not_mem]
  constructor
  · intro h q
    cases hc : inW g.t g.mxw q with
    | false => exact hc
    | true => exact absurd (mem_elems.2 hc) (h q)
  · intro h q hq; rw [mem_elems, show inW g.t g.mxw q = false from h q] at hq; cases hq

theorem iter_elems {g : G} (hn : g.nul = false) (hw : 0 < g.mxw) : iter g = some ((elems g.t g.mxw).map toShort) := by
  obtain ⟨g1, g2⟩ := rest_begin (t := g.t) hw
  have hlen : (elems g.t g.mxw).length < 64 * g.mxw + 1 := by
    have : (elems g.t g.mxw).length ≤ (List.range (64 * g.mxw)).length := List.length_filter_le _ _
    rw [List.length_range] at this; omega
  unfold iter iterAt
  rw [if_pos hw, hn]
  simp only [Bool.false_eq_true, if_false]
  rw [Option.bind_some, iterL_spec g.t g.mxw (fun _ _ _ => rfl) _ _ g1 (by rw [g2]; exact hlen), g2]

/-- The iterator gives the positions of the ones of the number, in increasing order. -/
theorem iter_mask {g : G} (hn : g.nul = false) (hw : 0 < g.mxw) {top : Nat} (ht : top ≤ 2 ^ 15) (hb : ∀ q, has g q = true → q < top) :
    iter g = some (((List.range top).filter (fun i => (mask g).testBit i)).map (fun x : Nat => (x : Int))) := by
  have he : elems g.t g.mxw = (List.range top).filter (fun i => (mask g).testBit i) := by
    refine Lists.unique (elems_lists (t := g.t) (n := g.mxw)) ⟨List.pairwise_lt_range.filter _, fun q => ?_⟩
    rw [List.mem_filter, List.mem_range, mask_bit]
    exact ⟨fun h => h.2, fun h => ⟨hb q h, h⟩⟩
  rw [iter_elems hn hw, Option.some.injEq, he]
  refine List.map_congr_left fun x hx => toShort_eq ?_
  have := List.mem_range.1 (List.mem_filter.1 hx).1
  omega

theorem sum_mask {g : G} (hn : g.nul = false) (hw : 0 < g.mxw) {top : Nat} (ht : top ≤ 2 ^ 15) (hb : ∀ q, has g q = true → q < top) (f : Int → Int) :
    sumS g f = some (((List.range top).filter (fun i => (mask g).testBit i)).map (fun x : Nat => f x)).sum := by
  unfold sumS
  rw [iter_mask hn hw ht hb, Option.map_some, List.foldl_map]
  congr 1
  have : ∀ (m : List Nat) (a : Int), m.foldl (fun (a : Int) (v : Nat) => a + f (v : Int)) a = a + (m.map (fun x : Nat => f x)).sum := by
    intro m
    induction m with
    | nil => intro a; simp
    | cons x m ih => intro a; rw [List.foldl_cons, ih, List.map_cons, List.sum_cons, Int.add_assoc]
  rw [this, Int.zero_add]

theorem foldl_growTo_bound {B : Nat} : ∀ (l : List Nat) (w : Nat), 0 < w → w ≤ B → (∀ p ∈ l, 2 * (p / 64) ≤ B) → l.foldl growTo w ≤ B
  | [], w, _, h, _ => h
  | p :: l, w, h0, h, hl => by
    rw [List.foldl_cons]
    obtain ⟨_, s2, s3⟩ := growTo_spec (p := p) h0
    refine foldl_growTo_bound l _ (by omega) ?_ (fun q hq => hl q (List.mem_cons_of_mem _ hq))
    have := hl p List.mem_cons_self
    by_cases hw : w ≤ p / 64
    · have := s3 hw; omega
    · rw [growTo_same (by omega)]; exact h

theorem new64_rep : Rep (new 64) 1 (fun _ => False) :=
  ⟨fun h => by simp [GNSet.new, ceil64] at h, rfl, by decide, fun q => by show inW (fun _ => 0) _ q = true ↔ _; rw [zero_has]; simp⟩

theorem mask_new : mask (new 64) = 0 := mask_zero.2 fun q => by
  cases h : has (new 64) q with
  | false => rfl
  | true => exact absurd h (fun h => (new64_rep.mem q).1 h)

/-- A set built by insertions into `GNSet()`. -/
theorem mask_insertAll {l : List Nat} (hl : ∀ p ∈ l, p < 2 ^ 20) : ∃ g, insertAll l (new 64) = some g ∧ g.nul = false ∧ 0 < g.mxw ∧
    g.mxw = l.foldl growTo 1 ∧ g.mxw < 2 ^ 15 ∧ ∀ q, has g q = true ↔ q ∈ l := by
  have hb : l.foldl growTo 1 < 2 ^ 15 := by
    have := foldl_growTo_bound (B := 2 ^ 15 - 1) l 1 (by omega) (by omega) (fun p hp => by have := hl p hp; omega)
    omega
  obtain ⟨g, h1, R, h2, _⟩ := new64_rep.insertAll l (by omega) rfl hb
  have := foldl_growTo_le l 1 (by omega)
  exact ⟨g, h1, h2, by rw [R.mxw]; omega, R.mxw, by rw [R.mxw]; exact hb, fun q => by rw [R.mem]; simp⟩

end Verif.GNSet
