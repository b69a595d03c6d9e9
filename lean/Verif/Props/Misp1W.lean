import Verif.Misp1W
import Verif.Props.Misp2W
import Verif.Props.Open
/-!
# C150: misp.cpp on the words it stores

The last vertex of a final state is 0, as for the states after taking vertex 0, so `smf` would merge the two kinds; the
engine never asks for it (C149).
-/
namespace Verif.Ex
open Verif.DD Verif.GNSet

variable (g : Misp)

/-- What the stored states satisfy. -/
structure Misp.Ok1 (x : MispW) : Prop where
  nul : x.sel.nul = false
  pos : 0 < x.sel.mxw
  cap : x.sel.mxw < 2 ^ 15
  wd : mask x.sel ≠ 0 → Fitted x.sel
  bits : ∀ i : Nat, has x.sel i = true → x.l < (i : Int) ∧ i < g.top

variable {g}

theorem Misp.Ok1.live {x : MispW} (h : g.Ok1 x) : GNSet.Live x.sel := fun hn => by rw [h.nul] at hn; cases hn

theorem Misp.Fit.init1 (hg : g.Fit) : ∃ x, g.init1W = some x ∧ g.Ok1 x ∧ x.abs = g.mdl1.sti := by
  have ht := hg.top
  obtain ⟨u, h1, h2, h3, h4, h5, h6⟩ := mask_insertAll (l := List.range g.top) (fun p hp => by rw [List.mem_range] at hp; omega)
  refine ⟨⟨u, 0, -1⟩, by unfold Misp.init1W; rw [h1]; rfl, ⟨h2, h3, h5, fun hne => fitted_insertAll h4 h6 (fun e => hne ?_), fun i hi => ?_⟩, ?_⟩
  · refine mask_zero.2 fun q => ?_
    rw [Bool.eq_false_iff]
    intro hq
    have := (h6 q).1 hq
    rw [e] at this
    cases this
  · exact ⟨by show (-1 : Int) < _; omega, List.mem_range.1 ((h6 i).1 hi)⟩
  · show (⟨mask u, 0, -1⟩ : MispS) = ⟨2 ^ g.top - 1, 0, -1⟩
    congr 1
    refine Nat.eq_of_testBit_eq fun q => ?_
    rw [mask_bit, Nat.testBit_two_pow_sub_one, Bool.eq_iff_iff, h6, List.mem_range, decide_eq_true_iff]

theorem Misp.target1_ok : g.Ok1 g.target1W ∧ g.target1W.abs = g.mdl1.stt := by
  refine ⟨⟨rfl, by show 0 < 1; omega, by show 1 < _; omega, fun h => absurd mask_new h, fun i hi => ?_⟩, ?_⟩
  · exact absurd hi (fun h => (new64_rep.mem i).1 h)
  · show (⟨mask (GNSet.new 64), 0, 0⟩ : MispS) = ⟨0, 0, 0⟩
    rw [mask_new]

theorem mask_below {s : GNSet.G} (p : Nat) : mask (removeBelow s p) = below (mask s) p := by
  refine Nat.eq_of_testBit_eq fun q => ?_
  rw [Bool.eq_iff_iff, below_bit, mask_bit, mask_bit]
  exact (removeBelow_mem s p).2 q

/-- The labels are those of the masks. -/
theorem Misp.Ok1.labels {x : MispW} (hx : g.Ok1 x) (ht : g.top < 2 ^ 15) : g.lgf1W x = some (g.mdl1.lgf x.abs) := by
  show _ = some (if below (mask x.sel) (x.l + 1).toNat = 0 then [(g.top : Int)] else _)
  unfold Misp.lgf1W
  obtain ⟨c, h1, h2, h3, h4⟩ := mask_copy hx.live
  obtain ⟨⟨k1, k2, _⟩, k3⟩ := removeBelow_mem c (x.l + 1).toNat
  have hb : mask (removeBelow c (x.l + 1).toNat) = below (mask x.sel) (x.l + 1).toNat := by rw [mask_below, h4]
  rw [h1, Option.bind_some, empty_mask (by rw [k1, h3]; exact hx.cap), Option.bind_some, hb]
  have hpos := hx.pos
  have hcap := hx.cap
  by_cases hz : below (mask x.sel) (x.l + 1).toNat = 0
  · rw [if_pos hz]
    simp only [hz, decide_true, if_true]
    have hgr : growTo (removeBelow c (x.l + 1).toNat).mxw g.top < 2 ^ 16 := by
      have := foldl_growTo_bound (B := 2 ^ 15 - 1) [g.top] (removeBelow c (x.l + 1).toNat).mxw (by rw [k1, h3]; exact hpos) (by rw [k1, h3]; omega)
        (fun p hp => by rw [List.mem_singleton.1 hp]; omega)
      have : growTo (removeBelow c (x.l + 1).toNat).mxw g.top ≤ 2 ^ 15 - 1 := by simpa using this
      omega
    obtain ⟨r, r1, r2, r3, _, r5⟩ := insert_spec (g := removeBelow c (x.l + 1).toNat) (fun h => by rw [k2, h2] at h; cases h)
      (by rw [k1, h3]; exact hpos) (p := g.top) hgr
    have hr : ∀ q, has r q = true ↔ q = g.top := by
      intro q
      rw [r5]
      refine ⟨fun h => h.resolve_right fun h => ?_, .inl⟩
      rw [← mask_bit, hb, hz, Nat.zero_testBit] at h
      cases h
    rw [r1, Option.bind_some, iter_mask r3 (by
        rw [r2]
        have := (growTo_spec (w := (removeBelow c (x.l + 1).toNat).mxw) (p := g.top) (by rw [k1, h3]; exact hpos)).1
        rw [k1, h3] at this ⊢
        omega) (top := g.top + 1) (by omega) (fun q hq => by rw [(hr q).1 hq]; omega)]
    have e : (List.range (g.top + 1)).filter (fun i => (mask r).testBit i) = [g.top] := by
      rw [List.range_succ, List.filter_append, List.filter_eq_nil_iff.2]
      · rw [List.nil_append, List.filter_cons, mask_bit, (hr g.top).2 rfl]; rfl
      · intro i hi hb
        rw [mask_bit] at hb
        have := (hr i).1 hb
        have := List.mem_range.1 hi
        omega
    rw [e]; rfl
  · rw [if_neg hz]
    simp only [hz, decide_false, Bool.false_eq_true, if_false, Option.bind_some]
    rw [iter_mask (by rw [k2, h2]) (by rw [k1, h3]; exact hpos) (top := g.top) (by omega) (fun q hq =>
        (hx.bits q (by rw [← mask_bit, ← h4, mask_bit]; exact ((k3 q).1 hq).1)).2), hb]
    rfl

/-- One step on the words is one step on the masks, and it is defined. -/
theorem Misp.Fit.step1 (hg : g.Fit) {x : MispW} (hx : g.Ok1 x) (l : Int) :
    ∃ o, g.stf1W x l = some o ∧ o.map MispW.abs = g.mdl1.stf x.abs l ∧ ∀ y, o = some y → g.Ok1 y := by
  show ∃ o, g.stf1W x l = some o ∧ o.map MispW.abs = (if l = g.top then some ⟨0, 0, 0⟩ else
    let o := if l < 0 then mask x.sel else g.outV (mask x.sel) l.toNat
    some ⟨o, if o = 0 then 0 else x.n + 1, if o = 0 then 0 else l⟩) ∧ _
  unfold Misp.stf1W
  by_cases hl : l = g.top
  · rw [if_pos hl, if_pos hl]
    refine ⟨_, rfl, by rw [Option.map_some, Option.some.injEq]; exact g.target1_ok.2, fun y hy => ?_⟩
    cases hy
    exact g.target1_ok.1
  · rw [if_neg hl, if_neg hl]
    have hbt : ∀ q, has x.sel q = true → q < g.top := fun q hq => (hx.bits q hq).2
    have hnl : ∃ nl, g.nb3W l = some nl ∧ ∀ i, has x.sel i = true →
        ((!contains nl i) = true ∧ l.toNat ≤ i ↔ (if l < 0 then mask x.sel else g.outV (mask x.sel) l.toNat).testBit i = true) := by
      by_cases hr : 0 ≤ l ∧ l < (g.top : Int)
      · obtain ⟨v, rfl⟩ : ∃ v : Nat, l = v := ⟨l.toNat, by omega⟩
        obtain ⟨a, a1, _, _, a4⟩ := hg.nb3 (v := v) (by omega)
        refine ⟨a, a1, fun i hi => ?_⟩
        rw [if_neg (by omega), Int.toNat_natCast, contains_mask, a4 i (hbt i hi)]
        unfold Misp.outV
        rw [below_bit, mdiff_bit, mask_bit, hi, Bool.true_and]
      · refine ⟨GNSet.new 64, by unfold Misp.nb3W; rw [if_neg hr], fun i hi => ?_⟩
        rw [contains_mask, mask_new, Nat.zero_testBit]
        have hi' := hbt i hi
        by_cases hn : l < 0
        · rw [if_pos hn, mask_bit, hi]
          exact ⟨fun _ => rfl, fun _ => ⟨rfl, by omega⟩⟩
        · rw [if_neg hn]
          unfold Misp.outV
          rw [below_bit]
          constructor
          · rintro ⟨_, h⟩; omega
          · rintro ⟨_, h⟩; omega
    obtain ⟨nl, n1, n2⟩ := hnl
    obtain ⟨f, f1, f2, f3, f4, f5, f6⟩ := filterS_mask (g := x.sel) hx.nul hx.pos hg.top hbt (fun i => !contains nl i.toNat)
    obtain ⟨⟨k1, k2, _⟩, k3⟩ := removeBelow_mem f l.toNat
    have hm : mask (removeBelow f l.toNat) = if l < 0 then mask x.sel else g.outV (mask x.sel) l.toNat := by
      refine Nat.eq_of_testBit_eq fun i => ?_
      rw [mask_bit, Bool.eq_iff_iff, k3, f6, Int.toNat_natCast]
      constructor
      · rintro ⟨⟨a, b⟩, c⟩; exact (n2 i a).1 ⟨b, c⟩
      · intro h
        have hi : has x.sel i = true := by
          by_cases hn : l < 0
          · rw [if_pos hn, mask_bit] at h; exact h
          · rw [if_neg hn] at h
            unfold Misp.outV at h
            rw [below_bit, mdiff_bit, Bool.and_eq_true, mask_bit] at h
            exact h.1.1
        have := (n2 i hi).2 h
        exact ⟨⟨hi, this.1⟩, this.2⟩
    rw [n1, Option.bind_some, f1, Option.bind_some, empty_mask (by rw [k1]; exact f4), Option.map_some]
    refine ⟨_, rfl, ?_, ?_⟩
    · simp only [Option.map_some, MispW.abs, ← hm, decide_eq_true_iff]
    · rintro y hy
      cases hy
      have hf : ∀ q, has f q = true ↔ q ∈ (((List.range g.top).filter fun i => (mask x.sel).testBit i).filter fun x : Nat => !contains nl (x : Int).toNat) := by
        intro q
        rw [f6, List.mem_filter, List.mem_filter, List.mem_range, mask_bit]
        exact ⟨fun ⟨a, b⟩ => ⟨⟨hbt q a, a⟩, b⟩, fun ⟨⟨_, a⟩, b⟩ => ⟨a, b⟩⟩
      refine ⟨by rw [k2]; exact f2, by rw [k1]; exact f3, by rw [k1]; exact f4, fun hne => ?_, fun i hi => ?_⟩
      · obtain ⟨q, hq⟩ := Nat.exists_testBit_of_ne_zero hne
        rw [mask_bit, k3] at hq
        obtain ⟨m, m1, m2, m3⟩ := fitted_insertAll f5 hf (fun e => by have := (hf q).1 hq.1; rw [e] at this; cases this)
        have := m2 q hq.1
        exact ⟨m, (k3 m).2 ⟨m1, by omega⟩, fun i hi => m2 i ((k3 i).1 hi).1, by rw [k1]; exact m3⟩
      · have h0 : mask (removeBelow f l.toNat) ≠ 0 := fun e => by rw [mask_zero.1 e] at hi; cases hi
        simp only [h0, decide_false, Bool.false_eq_true, if_false]
        have h1 := (k3 i).1 hi
        have h2 := (f6 i).1 h1.1
        refine ⟨?_, hbt i h2.1⟩
        by_cases hn : l < 0
        · omega
        · rw [← mask_bit, hm, if_neg hn, g.outV_bit] at hi
          have := hi.2.1
          omega

/-- One merge on the words is one merge on the masks; of two sets that are not empty it is sized by its largest member. -/
theorem Misp.Ok1.merge {a b : MispW} (ha : g.Ok1 a) (hb : g.Ok1 b) :
    ∃ o, g.smf1W a b = some o ∧ o.map MispW.abs = g.mdl1.smf a.abs b.abs ∧ (mask a.sel ≠ 0 → mask b.sel ≠ 0 → ∀ y, o = some y → g.Ok1 y) := by
  show ∃ o, g.smf1W a b = some o ∧ o.map MispW.abs = (if a.l = b.l then some ⟨mask a.sel ||| mask b.sel, min a.n b.n, min a.l b.l⟩ else none) ∧ _
  unfold Misp.smf1W
  by_cases hl : a.l = b.l
  · rw [if_pos hl, if_pos hl]
    obtain ⟨u, h1, h2, h3, h4⟩ := mask_union ha.cap ha.live hb.live hb.cap
    rw [h1]
    refine ⟨_, rfl, by simp only [Option.map_some, MispW.abs, h4], ?_⟩
    rintro na nb y hy
    cases hy
    have hu : ∀ i, has u i = true ↔ has a.sel i = true ∨ has b.sel i = true := by
      intro i
      rw [← mask_bit, h4, Nat.testBit_or, mask_bit, mask_bit, Bool.or_eq_true]
    have p1 := ha.pos; have p2 := ha.cap; have p3 := hb.cap
    refine ⟨h3, by show 0 < u.mxw; omega, by show u.mxw < _; omega, fun _ => ?_, fun i hi => ?_⟩
    · obtain ⟨m, m1, m2, m3⟩ := ha.wd na
      obtain ⟨n, n1, n2, n3⟩ := hb.wd nb
      refine ⟨max m n, (hu _).2 ?_, fun i hi => ?_, ?_⟩
      · rcases Nat.le_total m n with e | e
        · rw [Nat.max_eq_right e]; exact .inr n1
        · rw [Nat.max_eq_left e]; exact .inl m1
      · rcases (hu i).1 hi with h | h
        · have := m2 i h; omega
        · have := n2 i h; omega
      · show Tight u.mxw _
        rw [h2]; exact m3.max n3
    · show min a.l b.l < (i : Int) ∧ _
      rcases (hu i).1 hi with h | h
      · have := ha.bits i h; omega
      · have := hb.bits i h; omega
  · rw [if_neg hl, if_neg hl]
    exact ⟨none, rfl, rfl, fun _ _ y hy => by cases hy⟩

theorem Misp.Ok1.done {x : MispW} (hx : g.Ok1 x) : g.eqs1W x = some (g.mdl1.eqs x.abs) := size_mask hx.cap

theorem Misp.Ok1.more {x : MispW} (hx : g.Ok1 x) (h : g.eqs1W x = some false) : mask x.sel ≠ 0 := fun hz => by
  rw [hx.done, Option.some.injEq] at h
  have h : decide (mask x.sel = 0) = false := h
  rw [hz] at h
  cases h

theorem Misp.Ok1.more' {x : MispW} (hx : g.Ok1 x) (h : g.mdl1W.eqs x = false) : mask x.sel ≠ 0 := hx.more (by
  have h : (g.eqs1W x).getD false = false := h
  rw [hx.done] at h ⊢
  exact congrArg some h)

theorem Misp.cost1W (x : MispW) (l : Int) : g.mdl1.stc x.abs l = g.mdl1W.stc x l := by
  show (if l = g.top then 0 else g.w l.toNat) = (g.stc1W x l).getD (if l = g.top then 0 else g.w l.toNat)
  unfold Misp.stc1W
  split
  · split <;> rfl
  · split <;> rfl

/-- Equal states of one run have equal hashes. -/
theorem Misp.Ok1.hash {a b : MispW} (ha : g.Ok1 a) (hb : g.Ok1 b) (h : a.abs = b.abs) : a.hash3 = b.hash3 := by
  unfold MispW.abs at h
  rw [MispS.mk.injEq] at h
  obtain ⟨h1, h2, h3⟩ := h
  unfold MispW.hash3
  rw [h2, h3, hash_mask h1]
  by_cases hz : mask a.sel = 0
  · exact .inr hz
  · exact .inl ((ha.wd hz).uniq (hb.wd (h1 ▸ hz)) h1)

theorem Misp.Fit.kept1 (hg : g.Fit) : KeptO g.Ok1 g.mdl1W where
  sti := by
    obtain ⟨x, h1, h2, _⟩ := hg.init1
    show g.Ok1 (g.init1W.getD _)
    rw [h1]; exact h2
  stt := g.target1_ok.1
  stf := fun s l t hs h => by
    obtain ⟨o, h1, _, h2⟩ := hg.step1 hs l
    have h : (g.stf1W s l).getD none = some t := h
    rw [h1] at h
    exact h2 t h
  smf := fun a b c ha hb ea eb h => by
    obtain ⟨o, h1, _, h2⟩ := ha.merge hb
    have h : (g.smf1W a b).getD none = some c := h
    rw [h1] at h
    exact h2 (ha.more' ea) (hb.more' eb) c h

theorem Misp.Fit.homOn1 (hg : g.Fit) (ht : g.top < 2 ^ 15) : HomOnO g.Ok1 MispW.abs g.mdl1W g.mdl1 where
  sense := rfl
  sti := by
    obtain ⟨x, h1, _, h3⟩ := hg.init1
    show _ = (g.init1W.getD _).abs
    rw [h1, ← h3]; rfl
  stt := g.target1_ok.2.symm
  lgf := fun s hs => by
    show _ = (g.lgf1W s).getD []
    rw [hs.labels ht]; rfl
  stf := fun s l hs => by
    obtain ⟨o, h1, h2, _⟩ := hg.step1 hs l
    show _ = ((g.stf1W s l).getD none).map _
    rw [h1, ← h2]; rfl
  stc := fun s l _ => g.cost1W s l
  smf := fun a b ha hb _ _ => by
    obtain ⟨o, h1, h2, _⟩ := ha.merge hb
    show _ = ((g.smf1W a b).getD none).map _
    rw [h1, ← h2]; rfl
  eqs := fun s hs => by
    show _ = (g.eqs1W s).getD false
    rw [hs.done]; rfl
  loc := ⟨rfl, fun h h' e => by cases e⟩
  sdom := ⟨rfl, fun h h' e => by cases e⟩

/-- The states a run can meet: the root, the sink, and what transitions and merges of states that are not final return. -/
inductive Misp.Met1 (g : Misp) : MispW → Prop
  | init {x} : g.init1W = some x → Met1 g x
  | target : Met1 g g.target1W
  | step {x y l} : Met1 g x → g.stf1W x l = some (some y) → Met1 g y
  | merge {a b c} : Met1 g a → Met1 g b → g.eqs1W a = some false → g.eqs1W b = some false → g.smf1W a b = some (some c) → Met1 g c

theorem Misp.Met1.ok (hg : g.Fit) {x : MispW} (h : g.Met1 x) : g.Ok1 x := by
  induction h with
  | init h =>
    obtain ⟨x, h1, h2, _⟩ := hg.init1
    rw [h1, Option.some.injEq] at h
    exact h ▸ h2
  | target => exact g.target1_ok.1
  | step _ h ih =>
    obtain ⟨o, h1, _, h2⟩ := hg.step1 ih _
    rw [h1, Option.some.injEq] at h
    exact h2 _ h
  | merge _ _ ea eb h iha ihb =>
    obtain ⟨o, h1, _, h2⟩ := iha.merge ihb
    rw [h1, Option.some.injEq] at h
    exact h2 (iha.more ea) (ihb.more eb) _ h

/-- C150.  On a file of at most 32767 vertices the root exists, and on every state a run can meet all functions of the
program are defined, the cost on every label offered. -/
theorem misp1_words_defined (hg : g.Fit) (ht : g.top < 2 ^ 15) : (∃ x, g.init1W = some x) ∧ ∀ x, g.Met1 x →
    (∃ ls, g.lgf1W x = some ls ∧ ∀ l, l ∈ ls → ∃ c, g.stc1W x l = some c) ∧ (∀ l, ∃ o, g.stf1W x l = some o) ∧
      (∀ y, g.Met1 y → ∃ o, g.smf1W x y = some o) ∧ ∃ b, g.eqs1W x = some b := by
  refine ⟨?_, fun x hx => ⟨⟨_, (hx.ok hg).labels ht, fun l hl => ?_⟩, fun l => ?_, fun y hy => ?_, ⟨_, (hx.ok hg).done⟩⟩⟩
  · obtain ⟨x, h, _⟩ := hg.init1; exact ⟨x, h⟩
  · have : 0 ≤ l ∧ l ≤ (g.top : Int) := by
      have hl : l ∈ (if below (mask x.sel) (x.l + 1).toNat = 0 then [(g.top : Int)] else
        ((List.range g.top).filter fun i => (below (mask x.sel) (x.l + 1).toNat).testBit i).map (fun i : Nat => (i : Int))) := hl
      split at hl
      · rw [List.mem_singleton.1 hl]; omega
      · obtain ⟨i, hi, rfl⟩ := List.mem_map.1 hl
        have := List.mem_range.1 (List.mem_filter.1 hi).1
        omega
    unfold Misp.stc1W
    rw [if_pos this]
    exact ⟨_, rfl⟩
  · obtain ⟨o, h, _⟩ := hg.step1 (hx.ok hg) l; exact ⟨o, h⟩
  · obtain ⟨o, h, _⟩ := (hx.ok hg).merge (hy.ok hg); exact ⟨o, h⟩

/-- C150.  The states' own equality and hash agree on what a run can meet. -/
theorem misp1_words_equal (hg : g.Fit) {x y : MispW} (hx : g.Met1 x) (hy : g.Met1 y) :
    (x.eqv3 y = true ↔ (∀ q, contains x.sel q = contains y.sel q) ∧ x.n = y.n ∧ x.l = y.l) ∧ (x.eqv3 y = true → x.hash3 = y.hash3) := by
  refine ⟨?_, fun h => (hx.ok hg).hash (hy.ok hg) ((x.eqv3_abs y).1 h)⟩
  unfold MispW.eqv3
  rw [Bool.and_eq_true, Bool.and_eq_true, decide_eq_true_iff, decide_eq_true_iff, eq_iff, and_assoc]
  simp only [contains_eq]

theorem Misp.open1 (a b c : MispS) (ha : g.mdl1.eqs a = false) (_ : g.mdl1.eqs b = false) (h : g.mdl1.smf a b = some c) : g.mdl1.eqs c = false := by
  obtain ⟨_, rfl⟩ := g.merge1_eq h
  have ha : decide (a.sel = 0) = false := ha
  show decide (a.sel ||| b.sel = 0) = false
  rw [decide_eq_false_iff_not] at ha ⊢
  obtain ⟨i, hi⟩ := Nat.exists_testBit_of_ne_zero ha
  intro e
  have : (a.sel ||| b.sel).testBit i = true := by rw [Nat.testBit_or, hi, Bool.true_or]
  rw [e, Nat.zero_testBit] at this
  cases this

/-- C150.  The search of the program on its stored words, equality and hash is the search of the mask model: the same
answer, the same solutions in the same order, the same end, for every width and time limit. -/
theorem misp1_words_search (hg : g.Fit) (ht : g.top < 2 ^ 15) (w fu : Nat) (lim : Nat → Bool) (N : Nat) (p0 : Int) :
    (@BB.search _ misp3Same g.mdl1W w fu lim N p0).map (fun s => (s.primal, s.inc, s.sols, s.stopped, s.wrel, s.log, s.pq)) =
      (BB.search g.mdl1 w fu lim N p0).map (fun s => (s.primal, s.inc, s.sols, s.stopped, s.wrel, s.log, s.pq)) :=
  state_equality_open hg.kept1 (hg.homOn1 ht) g.open1 (fun a b _ _ => a.eqv3_abs b) (fun _ _ ha hb h => congrArg _ (ha.hash hb h)) w fu lim N p0

theorem misp1_words_some (hg : g.Fit) (ht : g.top < 2 ^ 15) {w fu : Nat} {lim : Nat → Bool} {N : Nat} {p0 : Int} {s : BB.BS MispW}
    (h : @BB.search _ misp3Same g.mdl1W w fu lim N p0 = some s) : ∃ s', BB.search g.mdl1 w fu lim N p0 = some s' ∧
      s'.primal = s.primal ∧ s'.inc = s.inc ∧ s'.sols = s.sols ∧ s'.stopped = s.stopped := by
  have e := misp1_words_search hg ht w fu lim N p0
  rw [h, Option.map_some] at e
  obtain ⟨s', h1, h2⟩ := Option.map_eq_some_iff.1 e.symm
  simp only [Prod.mk.injEq] at h2
  exact ⟨s', h1, h2.1, h2.2.1, h2.2.2.1, h2.2.2.2.1⟩

/-- C150.  Every solution the program reports lists the vertices of an independent set, with its weight. -/
theorem misp1_words_sound (hg : g.Fit) (ht : g.top < 2 ^ 15) (hw : ∀ i, 0 ≤ g.w i) (h0 : 0 < g.top) {w fu N : Nat} {lim : Nat → Bool} {s : BB.BS MispW}
    (h : @BB.search _ misp3Same g.mdl1W w fu lim N (-2147483647) = some s) :
    ∀ x, x ∈ s.sols → ∃ vs : List Nat, x.2 = vs.map (fun i : Nat => (i : Int)) ∧ g.IndV vs ∧ x.1 = g.wts vs := by
  obtain ⟨s', h1, _, _, h2, _⟩ := misp1_words_some hg ht h
  rw [← h2]
  exact misp1_search_sound g hw h0 h1

/-- C150.  The search ends. -/
theorem misp1_words_ends (hg : g.Fit) (ht : g.top < 2 ^ 15) (hw : ∀ i, 0 ≤ g.w i) (h0 : 0 < g.top) (w : Nat) {fu : Nat} (hf : g.top + 2 ≤ fu) (lim : Nat → Bool) :
    ∃ L, ∀ N, L < N → ∃ s, @BB.search _ misp3Same g.mdl1W w fu lim N (-2147483647) = some s ∧ (s.stopped = true ∨ Heap.empty s.pq = true) := by
  obtain ⟨L, hL⟩ := misp1_search_ends g hw h0 w hf lim
  refine ⟨L, fun N hN => ?_⟩
  obtain ⟨s, h1, h2⟩ := hL N hN
  have e := misp1_words_search hg ht w fu lim N (-2147483647)
  rw [h1, Option.map_some] at e
  obtain ⟨s', h3, h4⟩ := Option.map_eq_some_iff.1 e
  simp only [Prod.mk.injEq] at h4
  exact ⟨s', h3, by rw [h4.2.2.2.1, h4.2.2.2.2.2.2]; exact h2⟩

/-! ### A width that is always enough -/

theorem Misp.path_open1 {x z : MispS} {ls : List Int} {c : Int} (h : Path g.mdl1 x ls c z) (hx : g.Live1 x) (hz : g.mdl1.eqs z = false) :
    g.Live1 z ∧ z.n = x.n + ls.length := by
  induction h with
  | nil s => exact ⟨hx, rfl⟩
  | @cons x x' z l ls c hs hp ih =>
    obtain ⟨v, rfl, hv, hb, h2⟩ := (g.step1_iff hx).1 hs
    rcases h2 with ⟨_, rfl⟩ | ⟨ho, rfl⟩
    · cases hp with
      | nil => rw [g.eqs_stt1] at hz; cases hz
      | cons hs' _ => have := hs'.1; rw [g.eqs_stt1] at this; cases this
    · obtain ⟨h1, h2⟩ := ih (hx.next hb ho) hz
      refine ⟨h1, ?_⟩
      rw [h2, List.length_cons]
      dsimp only
      omega

/-- In misp.cpp a layer after the root has at most one state for every set of vertices left with the last one taken. -/
theorem Misp.room1 (g : Misp) (ht : 0 < g.top) {w : Nat} (h : 2 ^ g.top ≤ w) : Room g.mdl1 g.rank g.mdl1.sti w := by
  intro k L hn hL
  have hpos := Nat.two_pow_pos g.top
  have key : ∀ s, s ∈ L → g.Live1 s ∧ s.n = k ∧ (k = 0 → s = g.mdl1.sti) := by
    intro s hs
    obtain ⟨h1, h2, ls, c, hp⟩ := hL s hs
    obtain ⟨h3, h4⟩ := g.path_open1 hp (g.live1 ht) h1
    have h5 : s.n = k := h2
    refine ⟨h3, h5, fun hk => ?_⟩
    have h4 : s.n = 0 + ls.length := h4
    cases hp with
    | nil => rfl
    | cons => rw [List.length_cons] at h4; omega
  by_cases hk : k = 0
  · have : L.length ≤ 1 := by
      have := hn.length_le_of_subset (l₂ := [g.mdl1.sti]) (fun s hs => by rw [(key s hs).2.2 hk]; exact List.mem_singleton.2 rfl)
      simpa using this
    omega
  · have bit : ∀ s : MispS, ∀ i, (s.sel ||| 2 ^ s.l.toNat).testBit i = true ↔ s.sel.testBit i = true ∨ i = s.l.toNat := by
      intro s i
      rw [Nat.testBit_or, Bool.or_eq_true, Nat.testBit_two_pow, decide_eq_true_iff, eq_comm (a := i)]
    have hm : (L.map (fun s => (s.sel ||| 2 ^ s.l.toNat))).Nodup := by
      unfold List.Nodup at hn ⊢
      rw [List.pairwise_map]
      refine List.Pairwise.imp_of_mem ?_ hn
      intro a b ha hb hab e
      obtain ⟨a1, a2, _⟩ := key a ha
      obtain ⟨b1, b2, _⟩ := key b hb
      refine hab ?_
      have na := a1.n; have nb := b1.n
      have same : ∀ i, (a.sel ||| 2 ^ a.l.toNat).testBit i = (b.sel ||| 2 ^ b.l.toNat).testBit i := fun i => by
        have e : (a.sel ||| 2 ^ a.l.toNat) = (b.sel ||| 2 ^ b.l.toNat) := e
        rw [e]
      have hl : a.l = b.l := by
        have e1 := (bit b a.l.toNat).1 (by rw [← same]; exact (bit a _).2 (.inr rfl))
        have e2 := (bit a b.l.toNat).1 (by rw [same]; exact (bit b _).2 (.inr rfl))
        rcases e1 with e1 | e1
        · have := b1.bits _ e1
          rcases e2 with e2 | e2
          · have := a1.bits _ e2; omega
          · omega
        · omega
      have hsel : a.sel = b.sel := by
        refine Nat.eq_of_testBit_eq (fun i => ?_)
        rw [Bool.eq_iff_iff]
        constructor
        · intro hi
          have h1 := a1.bits i hi
          rcases (bit b i).1 (by rw [← same]; exact (bit a i).2 (.inl hi)) with h2 | h2
          · exact h2
          · omega
        · intro hi
          have h1 := b1.bits i hi
          rcases (bit a i).1 (by rw [same]; exact (bit b i).2 (.inl hi)) with h2 | h2
          · exact h2
          · omega
      cases a; cases b
      simp only [MispS.mk.injEq]
      dsimp only at *
      exact ⟨hsel, by omega, hl⟩
    have := nodup_length_le w _ hm (by
      intro x hx
      obtain ⟨s, hs, rfl⟩ := List.mem_map.1 hx
      obtain ⟨s1, s2, _⟩ := key s hs
      obtain ⟨j, hj⟩ := Nat.exists_testBit_of_ne_zero s1.ne
      have hj := s1.bits j hj
      have hlt : (s.sel ||| 2 ^ s.l.toNat) < 2 ^ g.top := by
        refine Nat.lt_pow_two_of_testBit _ (fun i hi => Bool.eq_false_iff.2 fun hb => ?_)
        rcases (bit s i).1 hb with hb | hb
        · have := s1.bits i hb; omega
        · omega
      omega)
    simpa using this

/-- C150.  With width `2 ^ top` the program ends with a heaviest independent set. -/
theorem misp1_words_width (hg : g.Fit) (ht : g.top < 2 ^ 15) (hw : ∀ i, 0 ≤ g.w i) (h0 : 0 < g.top) (hB : g.wts (List.range g.top) ≤ 2147483647) {w fu N : Nat}
    (hR : 2 ^ g.top ≤ w) {lim : Nat → Bool} {s : BB.BS MispW} (h : @BB.search _ misp3Same g.mdl1W w fu lim N (-2147483647) = some s)
    (hns : s.stopped = false) : g.Heaviest s.primal ∧ ∃ vs : List Nat, s.inc = vs.map (fun i : Nat => (i : Int)) ∧ g.IndV vs ∧ g.wts vs = s.primal := by
  obtain ⟨s', h1, h2, h3, _, h4⟩ := misp1_words_some hg ht h
  rw [← h2, ← h3]
  exact misp1_search_room g hw h0 hB (g.room1 h0 hR) h1 (h4.trans hns)

/-! ### A case where the words change -/

/-- Taking vertex 0 of `wstar` leaves one word; taking 69 leaves no vertex in two words, a state equal to the sink, which has
one word, and to the state taking 0 and then 63 leaves. -/
theorem wstar_words1 : ∃ x a b c, wstar.Met1 x ∧ wstar.stf1W x 0 = some (some a) ∧ wstar.stf1W a 63 = some (some b) ∧
    wstar.stf1W x 69 = some (some c) ∧ wstar.Met1 b ∧ wstar.Met1 c ∧ x.sel.mxw = 2 ∧ a.sel.mxw = 1 ∧ b.sel.mxw = 1 ∧ c.sel.mxw = 2 ∧
    b.eqv3 c = true ∧ c.eqv3 wstar.target1W = true ∧ contains a.sel 63 = true ∧ contains a.sel 64 = false := by
  have hv : (wstar.init1W.bind fun x => (wstar.stf1W x 0).bind id |>.bind fun a => (wstar.stf1W a 63).bind id |>.bind fun b =>
      (wstar.stf1W x 69).bind id |>.map fun c =>
        ([x.sel.mxw, a.sel.mxw, b.sel.mxw, c.sel.mxw], [b.eqv3 c, c.eqv3 wstar.target1W, contains a.sel 63, contains a.sel 64])) =
          some ([2, 1, 1, 2], [true, true, true, false]) := by decide +kernel
  have un : ∀ {o : Option (Option MispW)} {z : MispW}, o.bind id = some z → o = some (some z) := by
    intro o z h
    obtain ⟨p, h1, h2⟩ := Option.bind_eq_some_iff.1 h
    have h2 : p = some z := h2
    rw [h1, h2]
  obtain ⟨x, hx, h1⟩ := Option.bind_eq_some_iff.1 hv
  obtain ⟨a, ha, h1⟩ := Option.bind_eq_some_iff.1 h1
  obtain ⟨b, hb, h1⟩ := Option.bind_eq_some_iff.1 h1
  obtain ⟨c, hc, h1⟩ := Option.map_eq_some_iff.1 h1
  simp only [Prod.mk.injEq, List.cons.injEq, and_true] at h1
  obtain ⟨⟨e1, e2, e3, e4⟩, e5, e6, e7, e8⟩ := h1
  exact ⟨x, a, b, c, .init hx, un ha, un hb, un hc, .step (.step (.init hx) (un ha)) (un hb), .step (.init hx) (un hc),
    e1, e2, e3, e4, e5, e6, e7, e8⟩

end Verif.Ex
