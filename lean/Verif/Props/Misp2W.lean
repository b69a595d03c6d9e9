import Verif.Misp2W
import Verif.Props.Misp3W
/-!
# C148: misp2.cpp on the words it stores

The program rebuilds its sets by filtering, so that the number of words of a state changes along a run.  It depends
only on the largest member: this keeps equal states in one bucket.
-/
namespace Verif.GNSet

/-- The smallest power of two of words that holds `m`. -/
def Tight (w m : Nat) : Prop := ∃ k, w = 2 ^ k ∧ m / 64 < w ∧ (k = 0 ∨ 2 ^ (k - 1) ≤ m / 64)

theorem Tight.le {a b m n : Nat} (ha : Tight a m) (hb : Tight b n) (h : m ≤ n) : a ≤ b := by
  obtain ⟨i, rfl, a1, a2⟩ := ha
  obtain ⟨j, rfl, b1, b2⟩ := hb
  rcases a2 with rfl | a2
  · exact Nat.pow_pos (by omega)
  · refine Nat.pow_le_pow_right (by omega) (Classical.byContradiction fun hij => ?_)
    have h1 : 2 ^ j ≤ 2 ^ (i - 1) := Nat.pow_le_pow_right (by omega) (by omega)
    have h2 : m / 64 ≤ n / 64 := Nat.div_le_div_right h
    omega

theorem Tight.uniq {a b m : Nat} (ha : Tight a m) (hb : Tight b m) : a = b :=
  Nat.le_antisymm (ha.le hb (Nat.le_refl _)) (hb.le ha (Nat.le_refl _))

theorem Tight.max {a b m n : Nat} (ha : Tight a m) (hb : Tight b n) : Tight (max a b) (max m n) := by
  rcases Nat.le_total m n with h | h
  · rw [Nat.max_eq_right (ha.le hb h), Nat.max_eq_right h]; exact hb
  · rw [Nat.max_eq_left (hb.le ha h), Nat.max_eq_left h]; exact ha

theorem Tight.grow {w m : Nat} (h : Tight w m) (p : Nat) : Tight (growTo w p) (Max.max m p) := by
  obtain ⟨k, rfl, h1, h2⟩ := h
  unfold growTo
  by_cases hp : p / 64 < 2 ^ k
  · rw [if_pos hp]
    refine ⟨k, rfl, ?_, ?_⟩
    · rcases Nat.le_total m p with e | e
      · rwa [Nat.max_eq_right e]
      · rwa [Nat.max_eq_left e]
    · refine h2.imp id fun h => Nat.le_trans h (Nat.div_le_div_right (Nat.le_max_left _ _))
  · rw [if_neg hp]
    have hmp : m ≤ p := by omega
    rw [Nat.max_eq_right hmp, ← Nat.pow_add]
    have hpos : 0 < 2 ^ k := Nat.two_pow_pos k
    have hne : p / 64 / 2 ^ k ≠ 0 := by
      have := (Nat.le_div_iff_mul_le hpos).2 (show 1 * 2 ^ k ≤ p / 64 by omega)
      omega
    refine ⟨k + ((p / 64 / 2 ^ k).log2 + 1), rfl, ?_, .inr ?_⟩
    · have := Nat.lt_log2_self (n := p / 64 / 2 ^ k)
      rw [Nat.pow_add, Nat.mul_comm]
      exact (Nat.div_lt_iff_lt_mul hpos).1 this
    · have := Nat.log2_self_le hne
      rw [show k + ((p / 64 / 2 ^ k).log2 + 1) - 1 = (p / 64 / 2 ^ k).log2 + k by omega, Nat.pow_add]
      exact (Nat.le_div_iff_mul_le hpos).1 this

theorem Tight.foldl {w m : Nat} : ∀ (l : List Nat), Tight w m → Tight (l.foldl growTo w) (l.foldl Max.max m)
  | [], h => h
  | p :: l, h => Tight.foldl l (h.grow p)

theorem foldl_max_spec : ∀ (l : List Nat) (m : Nat), (∀ x ∈ l, x ≤ l.foldl Nat.max m) ∧ m ≤ l.foldl Nat.max m ∧ (l.foldl Nat.max m = m ∨ l.foldl Nat.max m ∈ l)
  | [], m => ⟨fun x hx => (by cases hx), Nat.le_refl _, .inl rfl⟩
  | p :: l, m => by
    obtain ⟨h1, h2, h3⟩ := foldl_max_spec l (Nat.max m p)
    rw [List.foldl_cons]
    have a1 : m ≤ Nat.max m p := Nat.le_max_left _ _
    have a2 : p ≤ Nat.max m p := Nat.le_max_right _ _
    refine ⟨fun x hx => ?_, by omega, ?_⟩
    · rcases List.mem_cons.1 hx with rfl | hx
      · omega
      · exact h1 x hx
    · rcases h3 with h3 | h3
      · rcases Nat.le_total m p with e | e
        · right; rw [h3, show Nat.max m p = p from Nat.max_eq_right e]; exact List.mem_cons_self
        · left; rw [h3, show Nat.max m p = m from Nat.max_eq_left e]
      · right; exact List.mem_cons_of_mem _ h3

/-- The set has the words its largest member needs. -/
def Fitted (g : G) : Prop := ∃ m, has g m = true ∧ (∀ i, has g i = true → i ≤ m) ∧ Tight g.mxw m

theorem fitted_insertAll {l : List Nat} {g : G} (hm : g.mxw = l.foldl growTo 1) (hb : ∀ q, has g q = true ↔ q ∈ l) (hl : l ≠ []) : Fitted g := by
  have h0 : Tight 1 0 := ⟨0, rfl, by omega, .inl rfl⟩
  obtain ⟨h1, _, h3⟩ := foldl_max_spec l 0
  have ht : Tight g.mxw (l.foldl Nat.max 0) := hm ▸ h0.foldl l
  refine ⟨_, (hb _).2 ?_, fun i hi => h1 i ((hb i).1 hi), ht⟩
  rcases h3 with h3 | h3
  · cases l with
    | nil => exact absurd rfl hl
    | cons p l =>
      have := h1 p List.mem_cons_self
      rw [h3] at this ⊢
      rw [show (0 : Nat) = p by omega]
      exact List.mem_cons_self
  · exact h3

theorem Fitted.uniq {a b : G} (ha : Fitted a) (hb : Fitted b) (h : mask a = mask b) : a.mxw = b.mxw := by
  obtain ⟨m, a1, a2, a3⟩ := ha
  obtain ⟨n, b1, b2, b3⟩ := hb
  have e1 : has b m = true := by rw [← mask_bit, ← h, mask_bit]; exact a1
  have e2 : has a n = true := by rw [← mask_bit, h, mask_bit]; exact b1
  have : m = n := Nat.le_antisymm (b2 m e1) (a2 n e2)
  subst this
  exact a3.uniq b3

end Verif.GNSet

namespace Verif.Ex
open Verif.DD Verif.GNSet

variable (g : Misp)

/-- What the stored states satisfy. -/
structure Misp.Ok2 (x : MispW) : Prop where
  nul : x.sel.nul = false
  pos : 0 < x.sel.mxw
  cap : x.sel.mxw < 2 ^ 15
  wd : mask x.sel ≠ 0 → Fitted x.sel
  fin : mask x.sel = 0 → x.l = (g.top : Int)
  l0 : -1 ≤ x.l
  le : x.l ≤ (g.top : Int)
  bits : ∀ i : Nat, has x.sel i = true → x.l < (i : Int) ∧ i < g.top

variable {g}

theorem Misp.Ok2.live {x : MispW} (h : g.Ok2 x) : GNSet.Live x.sel := fun hn => by rw [h.nul] at hn; cases hn

theorem Misp.Fit.init2 (hg : g.Fit) (h0 : 0 < g.top) : ∃ x, g.init2W = some x ∧ g.Ok2 x ∧ x.abs = g.mdl2.sti := by
  have ht := hg.top
  obtain ⟨u, h1, h2, h3, h4, h5, h6⟩ := mask_insertAll (l := List.range g.top) (fun p hp => by rw [List.mem_range] at hp; omega)
  have hne : List.range g.top ≠ [] := fun e => by rw [List.range_eq_nil] at e; omega
  refine ⟨⟨u, 0, -1⟩, by unfold Misp.init2W; rw [h1]; rfl,
    ⟨h2, h3, h5, fun _ => fitted_insertAll h4 h6 hne, fun hz => ?_, Int.le_refl _, by show (-1 : Int) ≤ _; omega, fun i hi => ?_⟩, ?_⟩
  · have := (h6 0).2 (List.mem_range.2 h0)
    rw [mask_zero.1 hz 0] at this; cases this
  · exact ⟨by show (-1 : Int) < _; omega, List.mem_range.1 ((h6 i).1 hi)⟩
  · show (⟨mask u, 0, -1⟩ : MispS) = ⟨2 ^ g.top - 1, 0, -1⟩
    congr 1
    refine Nat.eq_of_testBit_eq fun q => ?_
    rw [mask_bit, Nat.testBit_two_pow_sub_one, Bool.eq_iff_iff, h6, List.mem_range, decide_eq_true_iff]

theorem Misp.target2_ok : g.Ok2 g.target2W ∧ g.target2W.abs = g.mdl2.stt := by
  refine ⟨⟨rfl, by show 0 < 1; omega, by show 1 < _; omega, fun h => absurd mask_new h, fun _ => rfl, by show (-1 : Int) ≤ g.top; omega, Int.le_refl _, fun i hi => ?_⟩, ?_⟩
  · exact absurd hi (fun h => (new64_rep.mem i).1 h)
  · show (⟨mask (GNSet.new 64), 0, g.top⟩ : MispS) = ⟨0, 0, g.top⟩
    rw [mask_new]

theorem Misp.cur2W_eq (x : MispW) : g.cur2W x = g.cur2 x.abs := scanW_mask _ _ _ _

/-- With a vertex left the loop stops at the smallest. -/
theorem Misp.Ok2.cur {x : MispW} (hx : g.Ok2 x) (hne : mask x.sel ≠ 0) :
    g.cur2W x < g.top ∧ has x.sel (g.cur2W x) = true ∧ ∀ i, has x.sel i = true → g.cur2W x ≤ i := by
  have hb : ∀ i, (mask x.sel).testBit i = true → i < g.top := fun i hi => (hx.bits i (by rw [← mask_bit]; exact hi)).2
  cases hc : g.cand (mask x.sel) with
  | nil => exact absurd ((g.cand_nil hb).1 hc) hne
  | cons v cs =>
    have h1 := g.cand_cons hc
    have hl := (hx.bits v (by rw [← mask_bit]; exact h1.2.1)).1
    have h0 := hx.l0
    have e : g.cur2W x = v := by
      rw [g.cur2W_eq]
      exact scan_spec (by show (x.l + 1).toNat ≤ v; omega) (by omega) h1.2.1 (fun i _ hi => g.cand_least hc i hi)
    rw [e]
    refine ⟨h1.1, by rw [← mask_bit]; exact h1.2.1, fun i hi => Classical.byContradiction fun hlt => ?_⟩
    have := g.cand_least hc i (by omega)
    rw [mask_bit, hi] at this
    cases this

theorem scanTo_zero (top : Nat) : ∀ f v, v + f = top + 1 → scanTo 0 top f v = top + 1
  | 0, v, h => by unfold scanTo; omega
  | f + 1, v, h => by
    unfold scanTo
    rw [if_pos ⟨Nat.zero_testBit _, by omega⟩]
    exact scanTo_zero top f (v + 1) (by omega)

/-- Without one it runs past the end. -/
theorem Misp.Ok2.cur_end {x : MispW} (hx : g.Ok2 x) (hz : mask x.sel = 0) : g.cur2W x = g.top + 1 := by
  have h1 := hx.fin hz
  rw [g.cur2W_eq]
  show scan (mask x.sel) g.top (x.l + 1).toNat = _
  rw [hz]
  exact scanTo_zero _ _ _ (by omega)

theorem Misp.nb3W_out {v : Nat} (h : g.top ≤ v) : g.nb3W v = some (GNSet.new 64) := by
  unfold Misp.nb3W
  rw [if_neg (by omega)]

/-- One step on the words is one step on the masks, and it is defined. -/
theorem Misp.Fit.step2 (hg : g.Fit) {x : MispW} (hx : g.Ok2 x) (l : Int) :
    ∃ o, g.stf2W x l = some o ∧ o.map MispW.abs = g.mdl2.stf x.abs l ∧ ∀ y, o = some y → g.Ok2 y := by
  show ∃ o, g.stf2W x l = some o ∧ o.map MispW.abs = (if g.cur2 x.abs = g.top then (if mask x.sel = 0 then some ⟨0, 0, g.top⟩ else none) else
    let o := g.pick (mask x.sel) (g.cur2 x.abs) l
    some ⟨o, if o = 0 then 0 else x.n + 1, if o = 0 then (g.top : Int) else (g.cur2 x.abs : Int)⟩) ∧ _
  unfold Misp.stf2W
  rw [← g.cur2W_eq]
  have hcap := hx.cap
  have hl0 := hx.l0
  have hv : g.cur2W x ≠ g.top := by
    by_cases hz : mask x.sel = 0
    · rw [hx.cur_end hz]; omega
    · have := (hx.cur hz).1; omega
  rw [if_neg (by omega), if_neg hv, if_neg hv]
  generalize hvv : g.cur2W x = v at hv
  have hbt : ∀ q, has x.sel q = true → q < g.top := fun q hq => (hx.bits q hq).2
  obtain ⟨c, h1, h2, h3, h4⟩ := mask_copy hx.live
  rw [h1, Option.bind_some]
  have hch : ∀ q, has c q = has x.sel q := fun q => by rw [← mask_bit, h4, mask_bit]
  have key : ∃ out, (if l = 0 then some (remove c v) else (g.nb3W v).bind fun nl => filterS c fun i => !contains nl i.toNat) = some out ∧ out.nul = false ∧
      0 < out.mxw ∧ out.mxw < 2 ^ 15 ∧ mask out = g.pick (mask x.sel) v l ∧ (mask out ≠ 0 → Fitted out) := by
    by_cases hl : l = 0
    · obtain ⟨k1, k2, _⟩ := remove_keep c v
      rw [if_pos hl]
      have hm : mask (remove c v) = g.pick (mask x.sel) v l := by
        rw [mask_remove, h4]; unfold Misp.pick; rw [if_pos hl]
      refine ⟨_, rfl, by rw [k2, h2], by rw [k1, h3]; exact hx.pos, by rw [k1, h3]; exact hcap, hm, fun hne => ?_⟩
      obtain ⟨i, hi⟩ := Nat.exists_testBit_of_ne_zero hne
      rw [hm] at hi
      have hi' := (g.pick_bit i).1 hi
      have hxne : mask x.sel ≠ 0 := fun e => by rw [e, Nat.zero_testBit] at hi'; cases hi'.1
      obtain ⟨m, m1, m2, m3⟩ := hx.wd hxne
      have hi1 : has x.sel i = true := by rw [← mask_bit]; exact hi'.1
      have c3 := (hx.cur hxne).2.2 i hi1
      have c4 := m2 i hi1
      rw [hvv] at c3
      have hb : ∀ q, has (remove c v) q = true ↔ has x.sel q = true ∧ q ≠ v := by
        intro q
        rw [← mask_bit, hm, g.pick_bit, mask_bit]
        exact ⟨fun h => ⟨h.1, h.2.1⟩, fun h => ⟨h.1, h.2, fun e => absurd hl e⟩⟩
      have := hi'.2.1
      exact ⟨m, (hb m).2 ⟨m1, by omega⟩, fun q hq => m2 q ((hb q).1 hq).1, by rw [k1, h3]; exact m3⟩
    · rw [if_neg hl]
      have hnl : ∃ nl, g.nb3W v = some nl ∧ ∀ i, has x.sel i = true → contains nl i = (g.closed v).testBit i := by
        by_cases hz : mask x.sel = 0
        · have hv1 := hx.cur_end hz
          refine ⟨_, g.nb3W_out (by omega), fun i hi => ?_⟩
          rw [mask_zero.1 hz i] at hi; cases hi
        · have hv1 := (hx.cur hz).1
          obtain ⟨a, a1, _, _, a4⟩ := hg.nb3 (v := v) (by omega)
          exact ⟨a, a1, fun i hi => by rw [contains_mask]; exact a4 i (hbt i hi)⟩
      obtain ⟨nl, n1, n2⟩ := hnl
      obtain ⟨f, f1, f2, f3, f4, f5, f6⟩ := filterS_mask (g := c) h2 (by rw [h3]; exact hx.pos) hg.top (fun q hq => hbt q (by rw [← hch]; exact hq))
        (fun i => !contains nl i.toNat)
      refine ⟨f, by rw [n1, Option.bind_some]; exact f1, f2, f3, f4, ?_, fun hne => ?_⟩
      · refine Nat.eq_of_testBit_eq fun i => ?_
        unfold Misp.pick
        rw [if_neg hl, mdiff_bit, mask_bit, mask_bit, Bool.eq_iff_iff, f6, hch, Bool.and_eq_true, Int.toNat_natCast]
        constructor
        · rintro ⟨p, q⟩; exact ⟨p, by rw [← n2 i p]; exact q⟩
        · rintro ⟨p, q⟩; exact ⟨p, by rw [n2 i p]; exact q⟩
      · refine fitted_insertAll f5 (fun q => ?_) (fun e => ?_)
        · rw [f6, List.mem_filter, List.mem_filter, List.mem_range, mask_bit]
          exact ⟨fun ⟨a, b⟩ => ⟨⟨hbt q (by rw [← hch]; exact a), a⟩, b⟩, fun ⟨⟨_, a⟩, b⟩ => ⟨a, b⟩⟩
        · obtain ⟨i, hi⟩ := Nat.exists_testBit_of_ne_zero hne
          rw [mask_bit, f6] at hi
          have : i ∈ ((List.range g.top).filter fun i => (mask c).testBit i).filter fun x : Nat => !contains nl (x : Int).toNat :=
            List.mem_filter.2 ⟨List.mem_filter.2 ⟨List.mem_range.2 (hbt i (by rw [← hch]; exact hi.1)), by rw [mask_bit]; exact hi.1⟩, hi.2⟩
          rw [e] at this
          cases this
  obtain ⟨out, o1, o2, o3, o4, o5, o6⟩ := key
  rw [o1, Option.bind_some, empty_mask o4, Option.map_some]
  refine ⟨_, rfl, ?_, ?_⟩
  · simp only [Option.map_some, MispW.abs, ← o5, decide_eq_true_iff]
  · rintro y hy
    cases hy
    by_cases hz : mask out = 0
    · simp only [hz, decide_true, if_true]
      refine ⟨o2, o3, o4, fun h => absurd hz h, fun _ => rfl, by show (-1 : Int) ≤ g.top; omega, Int.le_refl _, fun i hi => ?_⟩
      rw [mask_zero.1 hz] at hi; cases hi
    · simp only [hz, decide_false, Bool.false_eq_true, if_false]
      have hb : ∀ i, has out i = true → has x.sel i = true ∧ i ≠ v := by
        intro i hi
        rw [← mask_bit, o5, g.pick_bit, mask_bit] at hi
        exact ⟨hi.1, hi.2.1⟩
      obtain ⟨i, hi⟩ := Nat.exists_testBit_of_ne_zero hz
      rw [mask_bit] at hi
      have hxne : mask x.sel ≠ 0 := fun e => by have := (hb i hi).1; rw [mask_zero.1 e] at this; cases this
      obtain ⟨c1, _, c3⟩ := hx.cur hxne
      rw [hvv] at c1 c3
      refine ⟨o2, o3, o4, o6, fun h => absurd h hz, by show (-1 : Int) ≤ (v : Nat); omega, by show ((v : Nat) : Int) ≤ _; omega, fun i hi => ?_⟩
      obtain ⟨p, q⟩ := hb i hi
      have := c3 i p
      exact ⟨by show ((v : Nat) : Int) < i; omega, hbt i p⟩

/-- One merge on the words is one merge on the masks. -/
theorem Misp.Ok2.merge {a b : MispW} (ha : g.Ok2 a) (hb : g.Ok2 b) :
    ∃ o, g.smf2W a b = some o ∧ o.map MispW.abs = g.mdl2.smf a.abs b.abs ∧ ∀ y, o = some y → g.Ok2 y := by
  show ∃ o, g.smf2W a b = some o ∧ o.map MispW.abs = (if a.l = b.l then some ⟨mask a.sel ||| mask b.sel, min a.n b.n, min a.l b.l⟩ else none) ∧ _
  unfold Misp.smf2W
  by_cases hl : a.l = b.l
  · rw [if_pos hl, if_pos hl]
    obtain ⟨u, h1, h2, h3, h4⟩ := mask_union ha.cap ha.live hb.live hb.cap
    rw [h1]
    refine ⟨_, rfl, by simp only [Option.map_some, MispW.abs, h4], ?_⟩
    rintro y hy
    cases hy
    have hu : ∀ i, has u i = true ↔ has a.sel i = true ∨ has b.sel i = true := by
      intro i
      rw [← mask_bit, h4, Nat.testBit_or, mask_bit, mask_bit, Bool.or_eq_true]
    have hempty : ∀ {x y : MispW}, g.Ok2 x → g.Ok2 y → x.l = y.l → mask x.sel = 0 → mask y.sel = 0 := by
      intro x y hx hy e hz
      have := hx.fin hz
      refine mask_zero.2 fun q => ?_
      cases hq : has y.sel q with
      | false => rfl
      | true => have := hy.bits q hq; omega
    have p1 := ha.pos; have p2 := ha.cap; have p3 := hb.cap; have l1 := ha.le; have z1 := ha.l0
    refine ⟨h3, by show 0 < u.mxw; omega, by show u.mxw < _; omega, fun hne => ?_, fun hz => ?_, by show -1 ≤ min a.l b.l; omega,
      by show min a.l b.l ≤ _; omega, fun i hi => ?_⟩
    · have hne : mask u ≠ 0 := hne
      have na : mask a.sel ≠ 0 := fun e => hne (by rw [h4, e, hempty ha hb hl e]; rfl)
      have nb : mask b.sel ≠ 0 := fun e => hne (by rw [h4, e, hempty hb ha hl.symm e]; rfl)
      obtain ⟨m, m1, m2, m3⟩ := ha.wd na
      obtain ⟨n, n1, n2, n3⟩ := hb.wd nb
      refine ⟨max m n, (hu _).2 ?_, fun i hi => ?_, ?_⟩
      · rcases Nat.le_total m n with e | e
        · rw [Nat.max_eq_right e]; exact .inr n1
        · rw [Nat.max_eq_left e]; exact .inl m1
      · rcases (hu i).1 hi with h | h
        · have := m2 i h; omega
        · have := n2 i h; omega
      · show Tight u.mxw _
        rw [h2]; exact m3.max n3
    · have hz : mask u = 0 := hz
      have : mask a.sel = 0 := mask_zero.2 fun q => by
        cases hq : has a.sel q with
        | false => rfl
        | true => have := (hu q).2 (.inl hq); rw [mask_zero.1 hz] at this; cases this
      have := ha.fin this
      show min a.l b.l = _
      omega
    · show min a.l b.l < (i : Int) ∧ _
      rcases (hu i).1 hi with h | h
      · have := ha.bits i h; omega
      · have := hb.bits i h; omega
  · rw [if_neg hl, if_neg hl]
    exact ⟨none, rfl, rfl, fun y hy => by cases hy⟩

theorem Misp.Ok2.done {x : MispW} (hx : g.Ok2 x) : g.eqs2W x = some (g.mdl2.eqs x.abs) := size_mask hx.cap

theorem Misp.Ok2.cost {x : MispW} (hx : g.Ok2 x) (hne : mask x.sel ≠ 0) (l : Int) : g.stc2W x l = some (g.mdl2.stc x.abs l) := by
  unfold Misp.stc2W
  rw [if_pos ⟨hx.l0, by have := (hx.cur hne).1; omega⟩, g.cur2W_eq]
  rfl

/-- Equal states of one run have equal hashes. -/
theorem Misp.Ok2.hash {a b : MispW} (ha : g.Ok2 a) (hb : g.Ok2 b) (h : a.abs = b.abs) : a.hash3 = b.hash3 := by
  unfold MispW.abs at h
  rw [MispS.mk.injEq] at h
  obtain ⟨h1, h2, h3⟩ := h
  unfold MispW.hash3
  rw [h2, h3, hash_mask h1]
  by_cases hz : mask a.sel = 0
  · exact .inr hz
  · exact .inl ((ha.wd hz).uniq (hb.wd (h1 ▸ hz)) h1)

theorem Misp.Fit.kept2 (hg : g.Fit) (ht : 0 < g.top) : Kept g.Ok2 g.mdl2W where
  sti := by
    obtain ⟨x, h1, h2, _⟩ := hg.init2 ht
    show g.Ok2 (g.init2W.getD _)
    rw [h1]; exact h2
  stt := g.target2_ok.1
  stf := fun s l t hs h => by
    obtain ⟨o, h1, _, h2⟩ := hg.step2 hs l
    have h : (g.stf2W s l).getD none = some t := h
    rw [h1] at h
    exact h2 t h
  smf := fun a b c ha hb h => by
    obtain ⟨o, h1, _, h2⟩ := ha.merge hb
    have h : (g.smf2W a b).getD none = some c := h
    rw [h1] at h
    exact h2 c h

theorem Misp.Fit.homOn2 (hg : g.Fit) (ht : 0 < g.top) : HomOn g.Ok2 MispW.abs g.mdl2W g.mdl2 where
  sense := rfl
  sti := by
    obtain ⟨x, h1, _, h3⟩ := hg.init2 ht
    show _ = (g.init2W.getD _).abs
    rw [h1, ← h3]; rfl
  stt := g.target2_ok.2.symm
  lgf := fun _ _ => rfl
  stf := fun s l hs => by
    obtain ⟨o, h1, h2, _⟩ := hg.step2 hs l
    show _ = ((g.stf2W s l).getD none).map _
    rw [h1, ← h2]; rfl
  stc := fun s l hs => by
    show _ = (g.stc2W s l).getD _
    by_cases hz : mask s.sel = 0
    · have h1 := hs.cur_end hz
      unfold Misp.stc2W
      rw [if_neg (by omega)]
      show l * (if g.cur2 s.abs = g.top then 0 else g.w (g.cur2 s.abs)) = l * g.w (g.cur2W s)
      rw [← g.cur2W_eq, if_neg (by omega)]
    · rw [hs.cost hz]; rfl
  smf := fun a b ha hb => by
    obtain ⟨o, h1, h2, _⟩ := ha.merge hb
    show _ = ((g.smf2W a b).getD none).map _
    rw [h1, ← h2]; rfl
  eqs := fun s hs => by
    show _ = (g.eqs2W s).getD false
    rw [hs.done]; rfl
  loc := ⟨rfl, fun h h' e => by cases e⟩
  sdom := ⟨rfl, fun h h' e => by cases e⟩

/-- The states a run can meet: the root, the sink, and what transitions and merges return. -/
inductive Misp.Met2 (g : Misp) : MispW → Prop
  | init {x} : g.init2W = some x → Met2 g x
  | target : Met2 g g.target2W
  | step {x y l} : Met2 g x → g.stf2W x l = some (some y) → Met2 g y
  | merge {a b c} : Met2 g a → Met2 g b → g.smf2W a b = some (some c) → Met2 g c

theorem Misp.Met2.ok (hg : g.Fit) (ht : 0 < g.top) {x : MispW} (h : g.Met2 x) : g.Ok2 x := by
  induction h with
  | init h =>
    obtain ⟨x, h1, h2, _⟩ := hg.init2 ht
    rw [h1, Option.some.injEq] at h
    exact h ▸ h2
  | target => exact g.target2_ok.1
  | step _ h ih =>
    obtain ⟨o, h1, _, h2⟩ := hg.step2 ih _
    rw [h1, Option.some.injEq] at h
    exact h2 _ h
  | merge _ _ h iha ihb =>
    obtain ⟨o, h1, _, h2⟩ := iha.merge ihb
    rw [h1, Option.some.injEq] at h
    exact h2 _ h

/-- C148.  On a file of 1 to 32768 vertices the root exists, and on every state a run can meet all functions of the
program are defined, the cost on the states that are not terminal. -/
theorem misp2_words_defined (hg : g.Fit) (ht : 0 < g.top) : (∃ x, g.init2W = some x) ∧ ∀ x, g.Met2 x →
    (∀ l, ∃ o, g.stf2W x l = some o) ∧ (g.eqs2W x = some false → ∀ l, ∃ c, g.stc2W x l = some c) ∧
      (∀ y, g.Met2 y → ∃ o, g.smf2W x y = some o) ∧ ∃ b, g.eqs2W x = some b := by
  refine ⟨?_, fun x hx => ⟨fun l => ?_, fun he l => ⟨_, (hx.ok hg ht).cost (fun hz => ?_) l⟩, fun y hy => ?_, ⟨_, (hx.ok hg ht).done⟩⟩⟩
  · obtain ⟨x, h, _⟩ := hg.init2 ht; exact ⟨x, h⟩
  · obtain ⟨o, h, _⟩ := hg.step2 (hx.ok hg ht) l; exact ⟨o, h⟩
  · rw [(hx.ok hg ht).done, Option.some.injEq] at he
    have he : decide (mask x.sel = 0) = false := he
    rw [hz] at he
    cases he
  · obtain ⟨o, h, _⟩ := (hx.ok hg ht).merge (hy.ok hg ht); exact ⟨o, h⟩

/-- On a terminal state the cost would read `weight[top+1]`, behind the array. -/
theorem misp2_words_cost_false (hg : g.Fit) (ht : 0 < g.top) {x : MispW} (hx : g.Met2 x) (he : g.eqs2W x = some true) (l : Int) : g.stc2W x l = none := by
  rw [(hx.ok hg ht).done, Option.some.injEq] at he
  have he : decide (mask x.sel = 0) = true := he
  have h1 := (hx.ok hg ht).cur_end (of_decide_eq_true he)
  unfold Misp.stc2W
  rw [if_neg (by omega)]

/-- C148.  The states' own equality and hash agree on what a run can meet, although the number of words of a set depends on how it was made. -/
theorem misp2_words_equal (hg : g.Fit) (ht : 0 < g.top) {x y : MispW} (hx : g.Met2 x) (hy : g.Met2 y) :
    (x.eqv3 y = true ↔ (∀ q, contains x.sel q = contains y.sel q) ∧ x.n = y.n ∧ x.l = y.l) ∧ (x.eqv3 y = true → x.hash3 = y.hash3) := by
  refine ⟨?_, fun h => (hx.ok hg ht).hash (hy.ok hg ht) ((x.eqv3_abs y).1 h)⟩
  unfold MispW.eqv3
  rw [Bool.and_eq_true, Bool.and_eq_true, decide_eq_true_iff, decide_eq_true_iff, eq_iff, and_assoc]
  simp only [contains_eq]

/-- C148.  The search of the program on its stored words, equality and hash is the search of the mask model: the same
answer, the same solutions in the same order, the same end, for every width and time limit. -/
theorem misp2_words_search (hg : g.Fit) (ht : 0 < g.top) (w fu : Nat) (lim : Nat → Bool) (N : Nat) (p0 : Int) :
    (@BB.search _ misp3Same g.mdl2W w fu lim N p0).map (fun s => (s.primal, s.inc, s.sols, s.stopped, s.wrel, s.log, s.pq)) =
      (BB.search g.mdl2 w fu lim N p0).map (fun s => (s.primal, s.inc, s.sols, s.stopped, s.wrel, s.log, s.pq)) :=
  state_equality_on (hg.kept2 ht) (hg.homOn2 ht) (fun a b _ _ => a.eqv3_abs b) (fun _ _ ha hb h => congrArg _ (ha.hash hb h)) w fu lim N p0

theorem misp2_words_some (hg : g.Fit) (ht : 0 < g.top) {w fu : Nat} {lim : Nat → Bool} {N : Nat} {p0 : Int} {s : BB.BS MispW}
    (h : @BB.search _ misp3Same g.mdl2W w fu lim N p0 = some s) : ∃ s', BB.search g.mdl2 w fu lim N p0 = some s' ∧
      s'.primal = s.primal ∧ s'.inc = s.inc ∧ s'.sols = s.sols ∧ s'.stopped = s.stopped := by
  have e := misp2_words_search hg ht w fu lim N p0
  rw [h, Option.map_some] at e
  obtain ⟨s', h1, h2⟩ := Option.map_eq_some_iff.1 e.symm
  simp only [Prod.mk.injEq] at h2
  exact ⟨s', h1, h2.1, h2.2.1, h2.2.2.1, h2.2.2.2.1⟩

/-- C148.  Every solution the program reports reads as an independent set and its weight. -/
theorem misp2_words_sound (hg : g.Fit) (hw : ∀ i, 0 ≤ g.w i) (ht : 0 < g.top) {w fu N : Nat} {lim : Nat → Bool} {s : BB.BS MispW}
    (h : @BB.search _ misp3Same g.mdl2W w fu lim N (-2147483647) = some s) :
    ∀ x, x ∈ s.sols → ∃ vs, g.read x.2 (List.range g.top) = some vs ∧ g.IndV vs ∧ x.1 = g.wts vs := by
  obtain ⟨s', h1, _, _, h2, _⟩ := misp2_words_some hg ht h
  rw [← h2]
  exact misp23_search_sound g hw ht (.inl h1)

/-- C148.  The search ends. -/
theorem misp2_words_ends (hg : g.Fit) (hw : ∀ i, 0 ≤ g.w i) (ht : 0 < g.top) (w : Nat) {fu : Nat} (hf : g.top + 2 ≤ fu) (lim : Nat → Bool) :
    ∃ L, ∀ N, L < N → ∃ s, @BB.search _ misp3Same g.mdl2W w fu lim N (-2147483647) = some s ∧ (s.stopped = true ∨ Heap.empty s.pq = true) := by
  obtain ⟨L, hL⟩ := (misp23_search_ends g hw ht w hf lim).1
  refine ⟨L, fun N hN => ?_⟩
  obtain ⟨s, h1, h2⟩ := hL N hN
  have e := misp2_words_search hg ht w fu lim N (-2147483647)
  rw [h1, Option.map_some] at e
  obtain ⟨s', h3, h4⟩ := Option.map_eq_some_iff.1 e
  simp only [Prod.mk.injEq] at h4
  exact ⟨s', h3, by rw [h4.2.2.2.1, h4.2.2.2.2.2.2]; exact h2⟩

/-! ### A width that is always enough -/

theorem Misp.path_open2 {x z : MispS} {ls : List Int} {c : Int} (h : Path g.mdl2 x ls c z) (hx : g.Live2 x) (hz : g.mdl2.eqs z = false) :
    g.Live2 z ∧ z.n = x.n + ls.length := by
  induction h with
  | nil s => exact ⟨hx, rfl⟩
  | @cons x x' z l ls c hs hp ih =>
    obtain ⟨v, cs, hc⟩ := g.decides2.first hx
    obtain ⟨hl, h2⟩ := (g.decides2.step x v cs l x' hx hc).1 hs
    rcases h2 with ⟨_, rfl⟩ | ⟨ho, rfl⟩
    · cases hp with
      | nil => rw [g.decides2.term] at hz; cases hz
      | cons hs' _ => have := hs'.1; rw [g.decides2.term] at this; cases this
    · obtain ⟨h1, h2⟩ := ih (g.decides2.next x v cs l hx hc hl ho) hz
      refine ⟨h1, ?_⟩
      rw [h2, List.length_cons]
      dsimp only
      omega

/-- In misp2.cpp layer `n` has at most 2^n states, and at most 2^(top-n+1), one per set of vertices left with the last one
decided: a width of 2^((top+1)/2) leaves room for every layer. -/
theorem Misp.room2 (g : Misp) (ht : 0 < g.top) {w : Nat} (h : 2 ^ ((g.top + 1) / 2) ≤ w) : Room g.mdl2 g.rank g.mdl2.sti w := by
  intro k L hn hL
  have key : ∀ s, s ∈ L → g.Live2 s ∧ s.n = k ∧ s ∈ ahead g.mdl2 k g.mdl2.sti := by
    intro s hs
    obtain ⟨h1, h2, ls, c, hp⟩ := hL s hs
    obtain ⟨h3, h4⟩ := g.path_open2 hp (g.live2 ht) h1
    have h5 : s.n = k := h2
    have h6 : k = ls.length := by rw [← h5, h4]; show 0 + _ = _; omega
    exact ⟨h3, h5, h6 ▸ ahead_path hp⟩
  by_cases hk : k ≤ (g.top + 1) / 2
  · have h1 := hn.length_le_of_subset (fun s hs => (key s hs).2.2)
    have h2 := ahead_length (m := g.mdl2) (b := 2) (fun s => Nat.le_refl 2) k g.mdl2.sti
    have h3 : 2 ^ k ≤ 2 ^ ((g.top + 1) / 2) := Nat.pow_le_pow_right (by omega) hk
    omega
  · have bit : ∀ s : MispS, ∀ i, (s.sel ||| 2 ^ s.l.toNat).testBit i = true ↔ s.sel.testBit i = true ∨ i = s.l.toNat := by
      intro s i
      rw [Nat.testBit_or, Bool.or_eq_true, Nat.testBit_two_pow, decide_eq_true_iff, eq_comm (a := i)]
    have hm : (L.map (fun s => (s.sel ||| 2 ^ s.l.toNat) / 2 ^ (k - 1))).Nodup := by
      unfold List.Nodup at hn ⊢
      rw [List.pairwise_map]
      refine List.Pairwise.imp_of_mem ?_ hn
      intro a b ha hb hab e
      obtain ⟨a1, a2, _⟩ := key a ha
      obtain ⟨b1, b2, _⟩ := key b hb
      refine hab ?_
      have na := a1.n; have nb := b1.n
      have same : ∀ i, (a.sel ||| 2 ^ a.l.toNat).testBit i = (b.sel ||| 2 ^ b.l.toNat).testBit i := by
        intro i
        by_cases hi : i < k - 1
        · have f : ∀ s : MispS, g.Live2 s → s.n = k → (s.sel ||| 2 ^ s.l.toNat).testBit i = false := by
            intro s s1 s2
            have := s1.n
            refine Bool.eq_false_iff.2 fun hb => ?_
            rcases (bit s i).1 hb with hb | hb
            · have := s1.bits i hb; omega
            · omega
          rw [f a a1 a2, f b b1 b2]
        · have := congrArg (fun n => n.testBit (i - (k - 1))) e
          simp only [Nat.testBit_div_two_pow] at this
          rwa [show i - (k - 1) + (k - 1) = i by omega] at this
      have hl : a.l = b.l := by
        have e1 := (bit b a.l.toNat).1 (by rw [← same]; exact (bit a _).2 (.inr rfl))
        have e2 := (bit a b.l.toNat).1 (by rw [same]; exact (bit b _).2 (.inr rfl))
        rcases e1 with e1 | e1
        · have := b1.bits _ e1
          rcases e2 with e2 | e2
          · have := a1.bits _ e2; omega
          · omega
        · omega
      have hsel : a.sel = b.sel := by
        refine Nat.eq_of_testBit_eq (fun i => ?_)
        rw [Bool.eq_iff_iff]
        constructor
        · intro hi
          have h1 := a1.bits i hi
          rcases (bit b i).1 (by rw [← same]; exact (bit a i).2 (.inl hi)) with h2 | h2
          · exact h2
          · omega
        · intro hi
          have h1 := b1.bits i hi
          rcases (bit a i).1 (by rw [same]; exact (bit b i).2 (.inl hi)) with h2 | h2
          · exact h2
          · omega
      cases a; cases b
      simp only [MispS.mk.injEq]
      dsimp only at *
      exact ⟨hsel, by omega, hl⟩
    have := nodup_length_le w _ hm (by
      intro x hx
      obtain ⟨s, hs, rfl⟩ := List.mem_map.1 hx
      obtain ⟨s1, s2, _⟩ := key s hs
      have hn := s1.n
      obtain ⟨j, hj⟩ := Nat.exists_testBit_of_ne_zero s1.ne
      have hj := s1.bits j hj
      have hlt : (s.sel ||| 2 ^ s.l.toNat) < 2 ^ g.top := by
        refine Nat.lt_pow_two_of_testBit _ (fun i hi => Bool.eq_false_iff.2 fun hb => ?_)
        rcases (bit s i).1 hb with hb | hb
        · have := s1.bits i hb; omega
        · omega
      have h1 : (s.sel ||| 2 ^ s.l.toNat) / 2 ^ (k - 1) < 2 ^ (g.top - (k - 1)) := by
        rw [Nat.div_lt_iff_lt_mul (Nat.two_pow_pos _), ← Nat.pow_add, Nat.sub_add_cancel (by omega)]
        exact hlt
      have h2 : 2 ^ (g.top - (k - 1)) ≤ 2 ^ ((g.top + 1) / 2) := Nat.pow_le_pow_right (by omega) (by omega)
      omega)
    simpa using this

/-- C148.  With width `2 ^ ((top+1)/2)` the program ends with a heaviest independent set. -/
theorem misp2_words_width (hg : g.Fit) (hw : ∀ i, 0 ≤ g.w i) (ht : 0 < g.top) (hB : g.wts (List.range g.top) ≤ 2147483647) {w fu N : Nat}
    (hR : 2 ^ ((g.top + 1) / 2) ≤ w) {lim : Nat → Bool} {s : BB.BS MispW} (h : @BB.search _ misp3Same g.mdl2W w fu lim N (-2147483647) = some s)
    (hns : s.stopped = false) : g.Heaviest s.primal ∧ ∃ vs, g.read s.inc (List.range g.top) = some vs ∧ g.wts vs = s.primal := by
  obtain ⟨s', h1, h2, h3, _, h4⟩ := misp2_words_some hg ht h
  rw [← h2, ← h3]
  exact misp2_search_room g hw ht hB (g.room2 ht hR) h1 (h4.trans hns)

/-! ### A case where the number of words changes -/

/-- Seventy vertices; 0 and 1 are joined to those from 64 on. -/
def wstar : Misp := ⟨70, (List.range 6).map (fun i => (0, 64 + i)) ++ (List.range 6).map (fun i => (1, 64 + i)), fun _ => 1⟩

theorem wstar_fit : wstar.Fit where
  top := by decide
  edges := by decide

/-- Leaving vertex 0 and taking vertex 1 gives the same state as taking 0 and leaving 1.  The root and the first step of the
one have two words, the others one. -/
theorem wstar_words : ∃ x y a b c, wstar.Met2 x ∧ wstar.stf2W x 0 = some (some a) ∧ wstar.stf2W a 1 = some (some b) ∧
    wstar.stf2W x 1 = some (some y) ∧ wstar.stf2W y 0 = some (some c) ∧ wstar.Met2 b ∧ wstar.Met2 c ∧
    x.sel.mxw = 2 ∧ a.sel.mxw = 2 ∧ b.sel.mxw = 1 ∧ y.sel.mxw = 1 ∧ c.sel.mxw = 1 ∧ b.eqv3 c = true ∧ contains b.sel 2 = true := by
  have hv : (wstar.init2W.bind fun x => (wstar.stf2W x 0).bind id |>.bind fun a => (wstar.stf2W a 1).bind id |>.bind fun b =>
      (wstar.stf2W x 1).bind id |>.bind fun y => (wstar.stf2W y 0).bind id |>.map fun c =>
        ([x.sel.mxw, a.sel.mxw, b.sel.mxw, y.sel.mxw, c.sel.mxw], b.eqv3 c, contains b.sel 2)) = some ([2, 2, 1, 1, 1], true, true) := by decide +kernel
  have un : ∀ {o : Option (Option MispW)} {z : MispW}, o.bind id = some z → o = some (some z) := by
    intro o z h
    obtain ⟨p, h1, h2⟩ := Option.bind_eq_some_iff.1 h
    have h2 : p = some z := h2
    rw [h1, h2]
  obtain ⟨x, hx, h1⟩ := Option.bind_eq_some_iff.1 hv
  obtain ⟨a, ha, h1⟩ := Option.bind_eq_some_iff.1 h1
  obtain ⟨b, hb, h1⟩ := Option.bind_eq_some_iff.1 h1
  obtain ⟨y, hy, h1⟩ := Option.bind_eq_some_iff.1 h1
  obtain ⟨c, hc, h1⟩ := Option.map_eq_some_iff.1 h1
  simp only [Prod.mk.injEq, List.cons.injEq, and_true] at h1
  obtain ⟨⟨e1, e2, e3, e4, e5⟩, e6, e7⟩ := h1
  exact ⟨x, y, a, b, c, .init hx, un ha, un hb, un hy, un hc, .step (.step (.init hx) (un ha)) (un hb), .step (.step (.init hx) (un hy)) (un hc),
    e1, e2, e3, e4, e5, e6, e7⟩

end Verif.Ex
