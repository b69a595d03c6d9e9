import Verif.Misp3W
import Verif.Props.MispW
import Verif.Props.Misp2
/-!
# C147: misp3.cpp on the words it stores
-/
namespace Verif.GNSet

theorem filterLoop_insertAll (p : Int → Bool) : ∀ (l : List Nat) (g : G),
    filterLoop p (l.map fun x : Nat => (x : Int)) g = insertAll (l.filter fun x => p x) g
  | [], g => rfl
  | v :: l, g => by
    rw [List.map_cons, filterLoop, List.filter_cons]
    by_cases h : p v = true
    · rw [if_pos h, if_pos h, if_neg (by omega), insertAll, Int.toNat_natCast]
      congr 1
      funext g'
      exact filterLoop_insertAll p l g'
    · rw [if_neg h, if_neg h]
      exact filterLoop_insertAll p l g

/-- `filter` on a set of small numbers: a live set of those members that satisfy the predicate. -/
theorem filterS_mask {g : G} (hn : g.nul = false) (hw : 0 < g.mxw) {top : Nat} (ht : top ≤ 2 ^ 15) (hb : ∀ q, has g q = true → q < top)
    (p : Int → Bool) : ∃ f, filterS g p = some f ∧ f.nul = false ∧ 0 < f.mxw ∧ f.mxw < 2 ^ 15 ∧
      f.mxw = (((List.range top).filter fun i => (mask g).testBit i).filter fun x => p (x : Nat)).foldl growTo 1 ∧
      ∀ q : Nat, has f q = true ↔ has g q = true ∧ p q = true := by
  obtain ⟨f, h1, h2, h3, h4, h5, h6⟩ := mask_insertAll (l := ((List.range top).filter (fun i => (mask g).testBit i)).filter fun x => p (x : Nat))
    (fun q hq => by have := List.mem_range.1 (List.mem_filter.1 (List.mem_filter.1 hq).1).1; omega)
  refine ⟨f, ?_, h2, h3, h5, h4, fun q => ?_⟩
  · unfold filterS
    rw [iter_mask hn hw ht hb, Option.bind_some, filterLoop_insertAll]
    exact h1
  · rw [h6, List.mem_filter, List.mem_filter, List.mem_range, mask_bit]
    exact ⟨fun ⟨⟨_, a⟩, b⟩ => ⟨a, b⟩, fun ⟨a, b⟩ => ⟨⟨hb q a, a⟩, b⟩⟩

end Verif.GNSet

namespace Verif.Ex
open Verif.DD Verif.GNSet

variable (g : Misp)

/-- What the stored states satisfy. -/
structure Misp.Ok3 (x : MispW) : Prop where
  nul : x.sel.nul = false
  pos : 0 < x.sel.mxw
  cap : x.sel.mxw < 2 ^ 15
  wd : x.sel.mxw = g.wds ∨ (x.sel.mxw ≤ g.wds ∧ mask x.sel = 0)
  l0 : 0 ≤ x.l
  le : x.l ≤ (g.top : Int)
  bits : ∀ i : Nat, has x.sel i = true → x.l ≤ (i : Int) ∧ i < g.top

variable {g}

theorem Misp.Ok3.live {x : MispW} (h : g.Ok3 x) : GNSet.Live x.sel := fun hn => by rw [h.nul] at hn; cases hn

theorem Misp.Fit.init3 (hg : g.Fit) : ∃ x, g.init3W = some x ∧ g.Ok3 x ∧ x.abs = g.mdl3.sti := by
  have ht := hg.top
  obtain ⟨u, h1, h2, h3, h4, h5, h6⟩ := mask_insertAll (l := List.range g.top) (fun p hp => by rw [List.mem_range] at hp; omega)
  refine ⟨⟨u, 0, 0⟩, by unfold Misp.init3W; rw [h1]; rfl, ⟨h2, h3, h5, .inl h4, Int.le_refl _, by show (0 : Int) ≤ _; omega, fun i hi => ?_⟩, ?_⟩
  · exact ⟨by show (0 : Int) ≤ _; omega, List.mem_range.1 ((h6 i).1 hi)⟩
  · show (⟨mask u, 0, 0⟩ : MispS) = ⟨2 ^ g.top - 1, 0, 0⟩
    congr 1
    refine Nat.eq_of_testBit_eq fun q => ?_
    rw [mask_bit, Nat.testBit_two_pow_sub_one, Bool.eq_iff_iff, h6, List.mem_range, decide_eq_true_iff]

theorem Misp.target3_ok : g.Ok3 g.target3W ∧ g.target3W.abs = g.mdl3.stt := by
  refine ⟨⟨rfl, by show 0 < 1; omega, by show 1 < _; omega, .inr ⟨g.wds_pos, mask_new⟩, by show (0 : Int) ≤ g.top; omega, Int.le_refl _, fun i hi => ?_⟩, ?_⟩
  · exact absurd hi (fun h => (new64_rep.mem i).1 h)
  · show (⟨mask (GNSet.new 64), 0, g.top⟩ : MispS) = ⟨0, 0, g.top⟩
    rw [mask_new]

/-- `neighbors[v]` holds the vertex and what an edge joins to it. -/
theorem Misp.Fit.nb3 (hg : g.Fit) {v : Nat} (hv : v < g.top) : ∃ a, g.nb3W v = some a ∧ a.nul = false ∧ a.mxw < 2 ^ 15 ∧
    ∀ i, i < g.top → (mask a).testBit i = (g.closed v).testBit i := by
  have ht := hg.top
  obtain ⟨u, h1, h2, h3, _, _, h6⟩ := mask_insertAll (l := List.range g.top) (fun p hp => by rw [List.mem_range] at hp; omega)
  obtain ⟨f, f1, f2, f3, f4, _, f5⟩ := filterS_mask h2 h3 ht (fun q hq => List.mem_range.1 ((h6 q).1 hq))
    (fun j => decide (j = (v : Int)) || g.edges.any fun e => decide ((e.1 : Int) = (v : Int) ∧ (e.2 : Int) = j ∨ (e.1 : Int) = j ∧ (e.2 : Int) = (v : Int)))
  refine ⟨f, by unfold Misp.nb3W Misp.verts; rw [if_pos (by omega), h1, Option.bind_some]; exact f1, f2, f4, fun i hi => ?_⟩
  rw [mask_bit, Bool.eq_iff_iff, f5, g.closed_bit, h6, List.mem_range, Bool.or_eq_true, decide_eq_true_iff, List.any_eq_true]
  constructor
  · rintro ⟨_, h | ⟨⟨a, b⟩, he, h⟩⟩
    · exact .inl (by omega)
    · have h := of_decide_eq_true h
      rcases h with ⟨x, y⟩ | ⟨x, y⟩
      · have x : (a : Int) = v := x
        have y : (b : Int) = i := y
        exact .inr (.inl (by rw [show v = a by omega, show i = b by omega]; exact he))
      · have x : (a : Int) = i := x
        have y : (b : Int) = v := y
        exact .inr (.inr (by rw [show v = b by omega, show i = a by omega]; exact he))
  · rintro (h | h | h)
    · exact ⟨hi, .inl (by omega)⟩
    · exact ⟨hi, .inr ⟨_, h, decide_eq_true (.inl ⟨rfl, rfl⟩)⟩⟩
    · exact ⟨hi, .inr ⟨_, h, decide_eq_true (.inr ⟨rfl, rfl⟩)⟩⟩

theorem scanW_mask (s : GNSet.G) (top : Nat) : ∀ f v, scanW s top f v = scanTo (mask s) top f v
  | 0, _ => rfl
  | f + 1, v => by
    unfold scanW scanTo
    rw [contains_mask, scanW_mask s top f]

theorem scanTo_below (s top : Nat) : ∀ (f v : Nat), (∀ i, s.testBit i = true → v ≤ i → scanTo s top f v ≤ i)
  | 0, v, i, _, hv => hv
  | f + 1, v, i, hi, hv => by
    unfold scanTo
    by_cases hc : s.testBit v = false ∧ v ≤ top
    · rw [if_pos hc]
      refine scanTo_below s top f (v + 1) i hi ?_
      by_cases e : v = i
      · rw [e, hi] at hc; cases hc.1
      · omega
    · rw [if_neg hc]; exact hv

/-- One step on the words is one step on the masks, and it is defined. -/
theorem Misp.Fit.step3 (hg : g.Fit) {x : MispW} (hx : g.Ok3 x) (l : Int) :
    ∃ o, g.stf3W x l = some o ∧ o.map MispW.abs = g.mdl3.stf x.abs l ∧ ∀ y, o = some y → g.Ok3 y := by
  show ∃ o, g.stf3W x l = some o ∧ o.map MispW.abs = (if (g.top : Int) ≤ x.l then (if mask x.sel = 0 then some ⟨0, 0, g.top⟩ else none) else
    let o := mdiff (mask x.sel) (2 ^ x.l.toNat)
    let o := if l ≠ 0 then mdiff o (g.closed x.l.toNat) else o
    some ⟨o, if o = 0 then 0 else x.n + 1, if o = 0 then (g.top : Int) else (scan o g.top (x.l.toNat + 1) : Int)⟩) ∧ _
  unfold Misp.stf3W
  have hcap := hx.cap
  have hl0 := hx.l0
  by_cases hc : (g.top : Int) ≤ x.l
  · rw [if_pos hc, if_pos hc, empty_mask hcap, Option.map_some]
    by_cases hz : mask x.sel = 0
    · rw [if_pos hz]
      simp only [hz, decide_true, if_true]
      refine ⟨_, rfl, by rw [Option.map_some, Option.some.injEq]; exact g.target3_ok.2, fun y hy => ?_⟩
      cases hy
      exact g.target3_ok.1
    · rw [if_neg hz]
      simp only [hz, decide_false, Bool.false_eq_true, if_false]
      exact ⟨none, rfl, rfl, fun y hy => by cases hy⟩
  · rw [if_neg hc, if_neg hc, if_neg (by omega)]
    obtain ⟨v, hv⟩ : ∃ v : Nat, x.l = v := ⟨x.l.toNat, by omega⟩
    obtain ⟨c, h1, h2, h3, h4⟩ := mask_copy hx.live
    rw [h1, Option.bind_some, hv, Int.toNat_natCast]
    have hvt : v < g.top := by omega
    have key : ∃ out, (if l ≠ 0 then (g.nb3W v).bind (diffWith (remove c v)) else some (remove c v)) = some out ∧ out.nul = false ∧
        out.mxw = x.sel.mxw ∧ mask out = (if l ≠ 0 then mdiff (mdiff (mask x.sel) (2 ^ v)) (g.closed v) else mdiff (mask x.sel) (2 ^ v)) := by
      obtain ⟨k1, k2, _⟩ := remove_keep c v
      by_cases hl : l ≠ 0
      · rw [if_pos hl, if_pos hl]
        obtain ⟨a, a1, a2, a3, a4⟩ := hg.nb3 hvt
        obtain ⟨d, d1, d2, d3, d4⟩ := mask_diff (a := remove c v) (b := a) (by rw [k1, h3]; exact hcap) (fun h => by rw [k2, h2] at h; cases h)
          (fun h => by rw [a2] at h; cases h) a3
        refine ⟨d, by rw [a1]; exact d1, by rw [d3, k2, h2], by rw [d2, k1, h3], ?_⟩
        rw [d4, mask_remove, h4]
        refine Nat.eq_of_testBit_eq fun i => ?_
        simp only [mdiff_bit]
        by_cases hi : i < g.top
        · rw [a4 i hi]
        · have : (mask x.sel).testBit i = false := by
            rw [mask_bit]
            cases hb : has x.sel i with
            | false => rfl
            | true => exact absurd (hx.bits i hb).2 hi
          rw [this, Bool.false_and, Bool.false_and, Bool.false_and]
      · rw [if_neg hl, if_neg hl]
        exact ⟨_, rfl, by rw [k2, h2], by rw [k1, h3], by rw [mask_remove, h4]⟩
    obtain ⟨out, o1, o2, o3, o4⟩ := key
    rw [o1, Option.bind_some, empty_mask (by rw [o3]; exact hcap), Option.map_some]
    refine ⟨_, rfl, ?_, ?_⟩
    · simp only [Option.map_some, MispW.abs, scanW_mask, ← o4, decide_eq_true_iff, Option.some.injEq]
      rfl
    · rintro y hy
      cases hy
      rw [g.pick3] at o4
      have hb : ∀ i, has out i = true → v + 1 ≤ i ∧ i < g.top ∧ (mask x.sel).testBit i = true := by
        intro i hi
        rw [← mask_bit, o4, g.pick_bit] at hi
        obtain ⟨i1, i2, _⟩ := hi
        obtain ⟨j1, j2⟩ := hx.bits i (by rw [← mask_bit]; exact i1)
        exact ⟨by omega, j2, i1⟩
      by_cases h0 : mask out = 0
      · simp only [h0, decide_true, if_true]
        refine ⟨o2, o3 ▸ hx.pos, o3 ▸ hcap, ?_, by show (0 : Int) ≤ g.top; omega, Int.le_refl _, fun i hi => ?_⟩
        · rcases hx.wd with h | h
          · exact .inl (o3.trans h)
          · exact .inr ⟨o3 ▸ h.1, h0⟩
        · rw [mask_zero.1 h0] at hi; cases hi
      · simp only [h0, decide_false, Bool.false_eq_true, if_false]
        have hs : ∀ i, has out i = true → scanW out g.top (g.top + 1 - (v + 1)) (v + 1) ≤ i := by
          intro i hi
          rw [scanW_mask]
          exact scanTo_below _ _ _ _ i (by rw [mask_bit]; exact hi) (hb i hi).1
        obtain ⟨i, hi⟩ := Nat.exists_testBit_of_ne_zero h0
        rw [mask_bit] at hi
        refine ⟨o2, o3 ▸ hx.pos, o3 ▸ hcap, ?_, by show (0 : Int) ≤ (_ : Nat); omega, ?_, fun i hi => ⟨?_, (hb i hi).2.1⟩⟩
        · rcases hx.wd with h | ⟨h, hz⟩
          · exact .inl (o3.trans h)
          · have := (hb i hi).2.2
            rw [hz, Nat.zero_testBit] at this
            cases this
        · have h1 := hs i hi
          have h2 := (hb i hi).2.1
          show ((scanW out g.top (g.top + 1 - (v + 1)) (v + 1) : Nat) : Int) ≤ g.top
          omega
        · have h1 := hs i hi
          show ((scanW out g.top (g.top + 1 - (v + 1)) (v + 1) : Nat) : Int) ≤ i
          omega

/-- One merge on the words is one merge on the masks. -/
theorem Misp.Ok3.merge {a b : MispW} (ha : g.Ok3 a) (hb : g.Ok3 b) :
    ∃ o, g.smf3W a b = some o ∧ o.map MispW.abs = g.mdl3.smf a.abs b.abs ∧ ∀ y, o = some y → g.Ok3 y := by
  show ∃ o, g.smf3W a b = some o ∧ o.map MispW.abs = (if a.l = b.l then some ⟨mask a.sel ||| mask b.sel, min a.n b.n, min a.l b.l⟩ else none) ∧ _
  unfold Misp.smf3W
  by_cases hl : a.l = b.l
  · rw [if_pos hl, if_pos hl]
    obtain ⟨u, h1, h2, h3, h4⟩ := mask_union ha.cap ha.live hb.live hb.cap
    rw [h1]
    refine ⟨_, rfl, by simp only [Option.map_some, MispW.abs, h4], ?_⟩
    rintro y hy
    cases hy
    have p1 := ha.pos; have p2 := ha.cap; have p3 := hb.cap; have l1 := ha.le; have l2 := hb.le; have z1 := ha.l0; have z2 := hb.l0
    refine ⟨h3, by show 0 < u.mxw; omega, by show u.mxw < _; omega, ?_, by show 0 ≤ min a.l b.l; omega, by show min a.l b.l ≤ _; omega, ?_⟩
    · show u.mxw = g.wds ∨ (u.mxw ≤ g.wds ∧ mask u = 0)
      rcases ha.wd with h | ⟨h, hz⟩
      · rcases hb.wd with h' | ⟨h', _⟩ <;> (left; omega)
      · rcases hb.wd with h' | ⟨h', hz'⟩
        · left; omega
        · right; exact ⟨by omega, by rw [h4, hz, hz']; rfl⟩
    · intro i hi
      rw [← mask_bit, h4, Nat.testBit_or, mask_bit, mask_bit, Bool.or_eq_true] at hi
      show min a.l b.l ≤ (i : Int) ∧ _
      rcases hi with hi | hi
      · have := ha.bits i hi; omega
      · have := hb.bits i hi; omega
  · rw [if_neg hl, if_neg hl]
    exact ⟨none, rfl, rfl, fun y hy => by cases hy⟩

theorem Misp.Ok3.done {x : MispW} (hx : g.Ok3 x) : g.eqs3W x = some (g.mdl3.eqs x.abs) := size_mask hx.cap

theorem Misp.Ok3.cost {x : MispW} (hx : g.Ok3 x) (l : Int) : g.stc3W x l = some (g.mdl3.stc x.abs l) := by
  unfold Misp.stc3W
  rw [if_pos ⟨hx.l0, hx.le⟩]
  rfl

theorem Misp.Fit.bound3 (hg : g.Fit) {x : MispW} (hx : g.Ok3 x) : g.loc3W x = some (g.rest3 x.abs) := by
  unfold Misp.loc3W
  have hb : ∀ q, has x.sel q = true → q < g.top := fun q hq => (hx.bits q hq).2
  rw [iter_mask hx.nul hx.pos hg.top hb, Option.bind_some, if_pos]
  · rw [List.map_map]
    rfl
  · rw [List.all_eq_true]
    intro v hv
    obtain ⟨i, hi, rfl⟩ := List.mem_map.1 hv
    have := List.mem_range.1 (List.mem_filter.1 hi).1
    exact decide_eq_true ⟨by omega, by omega⟩

/-- `std::equal_to` compares what a state stands for. -/
theorem MispW.eqv3_abs (a b : MispW) : a.eqv3 b = true ↔ a.abs = b.abs := by
  unfold MispW.eqv3 MispW.abs
  rw [Bool.and_eq_true, Bool.and_eq_true, decide_eq_true_iff, decide_eq_true_iff, eq_mask, MispS.mk.injEq, and_assoc]

/-- Equal states of one run have equal hashes. -/
theorem Misp.Ok3.hash {a b : MispW} (ha : g.Ok3 a) (hb : g.Ok3 b) (h : a.abs = b.abs) : a.hash3 = b.hash3 := by
  unfold MispW.abs at h
  rw [MispS.mk.injEq] at h
  obtain ⟨h1, h2, h3⟩ := h
  unfold MispW.hash3
  rw [h2, h3, hash_mask h1]
  rcases ha.wd with ha | ha
  · rcases hb.wd with hb | hb
    · exact .inl (by omega)
    · exact .inr (h1.trans hb.2)
  · exact .inr ha.2

theorem Misp.Fit.kept3 (hg : g.Fit) : Kept g.Ok3 g.mdl3W where
  sti := by
    obtain ⟨x, h1, h2, _⟩ := hg.init3
    show g.Ok3 (g.init3W.getD _)
    rw [h1]; exact h2
  stt := g.target3_ok.1
  stf := fun s l t hs h => by
    obtain ⟨o, h1, _, h2⟩ := hg.step3 hs l
    have h : (g.stf3W s l).getD none = some t := h
    rw [h1] at h
    exact h2 t h
  smf := fun a b c ha hb h => by
    obtain ⟨o, h1, _, h2⟩ := ha.merge hb
    have h : (g.smf3W a b).getD none = some c := h
    rw [h1] at h
    exact h2 c h

theorem Misp.Fit.homOn3 (hg : g.Fit) : HomOn g.Ok3 MispW.abs g.mdl3W g.mdl3 where
  sense := rfl
  sti := by
    obtain ⟨x, h1, _, h3⟩ := hg.init3
    show _ = (g.init3W.getD _).abs
    rw [h1, ← h3]; rfl
  stt := g.target3_ok.2.symm
  lgf := fun _ _ => rfl
  stf := fun s l hs => by
    obtain ⟨o, h1, h2, _⟩ := hg.step3 hs l
    show _ = ((g.stf3W s l).getD none).map _
    rw [h1, ← h2]; rfl
  stc := fun s l hs => by
    show _ = (g.stc3W s l).getD 0
    rw [hs.cost]; rfl
  smf := fun a b ha hb => by
    obtain ⟨o, h1, h2, _⟩ := ha.merge hb
    show _ = ((g.smf3W a b).getD none).map _
    rw [h1, ← h2]; rfl
  eqs := fun s hs => by
    show _ = (g.eqs3W s).getD false
    rw [hs.done]; rfl
  loc := ⟨rfl, fun h h' e e' s c hs => by
    cases e; cases e'
    show (g.loc3W s).getD 0 = _
    rw [hg.bound3 hs]; rfl⟩
  sdom := ⟨rfl, fun h h' e => by cases e⟩

/-- The states a run can meet: the root, the sink, and what transitions and merges return. -/
inductive Misp.Met3 (g : Misp) : MispW → Prop
  | init {x} : g.init3W = some x → Met3 g x
  | target : Met3 g g.target3W
  | step {x y l} : Met3 g x → g.stf3W x l = some (some y) → Met3 g y
  | merge {a b c} : Met3 g a → Met3 g b → g.smf3W a b = some (some c) → Met3 g c

theorem Misp.Met3.ok (hg : g.Fit) {x : MispW} (h : g.Met3 x) : g.Ok3 x := by
  induction h with
  | init h =>
    obtain ⟨x, h1, h2, _⟩ := hg.init3
    rw [h1, Option.some.injEq] at h
    exact h ▸ h2
  | target => exact g.target3_ok.1
  | step _ h ih =>
    obtain ⟨o, h1, _, h2⟩ := hg.step3 ih _
    rw [h1, Option.some.injEq] at h
    exact h2 _ h
  | merge _ _ h iha ihb =>
    obtain ⟨o, h1, _, h2⟩ := iha.merge ihb
    rw [h1, Option.some.injEq] at h
    exact h2 _ h

/-- C147.  On a file of at most 32768 vertices the root exists, and on every state a run can meet all functions of the
program are defined: no access outside an array or through a null pointer, no loop without end. -/
theorem misp3_words_defined (hg : g.Fit) : (∃ x, g.init3W = some x) ∧ ∀ x, g.Met3 x →
    (∀ l, ∃ o, g.stf3W x l = some o) ∧ (∀ l, ∃ c, g.stc3W x l = some c) ∧ (∀ y, g.Met3 y → ∃ o, g.smf3W x y = some o) ∧
      (∃ b, g.eqs3W x = some b) ∧ ∃ c, g.loc3W x = some c := by
  refine ⟨?_, fun x hx => ⟨fun l => ?_, fun l => ⟨_, (hx.ok hg).cost l⟩, fun y hy => ?_, ⟨_, (hx.ok hg).done⟩, ⟨_, hg.bound3 (hx.ok hg)⟩⟩⟩
  · obtain ⟨x, h, _⟩ := hg.init3; exact ⟨x, h⟩
  · obtain ⟨o, h, _⟩ := hg.step3 (hx.ok hg) l; exact ⟨o, h⟩
  · obtain ⟨o, h, _⟩ := (hx.ok hg).merge (hy.ok hg); exact ⟨o, h⟩

/-- C147.  The states' own equality and hash agree on what a run can meet: two states are equal for `std::equal_to`
exactly when they stand for the same set, level and next vertex, and then their hashes are equal. -/
theorem misp3_words_equal (hg : g.Fit) {x y : MispW} (hx : g.Met3 x) (hy : g.Met3 y) :
    (x.eqv3 y = true ↔ (∀ q, contains x.sel q = contains y.sel q) ∧ x.n = y.n ∧ x.l = y.l) ∧ (x.eqv3 y = true → x.hash3 = y.hash3) := by
  refine ⟨?_, fun h => (hx.ok hg).hash (hy.ok hg) ((x.eqv3_abs y).1 h)⟩
  unfold MispW.eqv3
  rw [Bool.and_eq_true, Bool.and_eq_true, decide_eq_true_iff, decide_eq_true_iff, eq_iff, and_assoc]
  simp only [contains_eq]

/-- C147.  The search of the program on its stored words, equality and hash is the search of the mask model: the same
answer, the same solutions in the same order, the same end, for every width and time limit. -/
theorem misp3_words_search (hg : g.Fit) (w fu : Nat) (lim : Nat → Bool) (N : Nat) (p0 : Int) :
    (@BB.search _ misp3Same g.mdl3W w fu lim N p0).map (fun s => (s.primal, s.inc, s.sols, s.stopped, s.wrel, s.log, s.pq)) =
      (BB.search g.mdl3 w fu lim N p0).map (fun s => (s.primal, s.inc, s.sols, s.stopped, s.wrel, s.log, s.pq)) :=
  state_equality_on hg.kept3 hg.homOn3 (fun a b _ _ => a.eqv3_abs b) (fun _ _ ha hb h => congrArg _ (ha.hash hb h)) w fu lim N p0

theorem misp3_words_some (hg : g.Fit) {w fu : Nat} {lim : Nat → Bool} {N : Nat} {p0 : Int} {s : BB.BS MispW}
    (h : @BB.search _ misp3Same g.mdl3W w fu lim N p0 = some s) : ∃ s', BB.search g.mdl3 w fu lim N p0 = some s' ∧
      s'.primal = s.primal ∧ s'.inc = s.inc ∧ s'.sols = s.sols ∧ s'.stopped = s.stopped := by
  have e := misp3_words_search hg w fu lim N p0
  rw [h, Option.map_some] at e
  obtain ⟨s', h1, h2⟩ := Option.map_eq_some_iff.1 e.symm
  simp only [Prod.mk.injEq] at h2
  exact ⟨s', h1, h2.1, h2.2.1, h2.2.2.1, h2.2.2.2.1⟩

/-- C147.  Every solution the program reports reads as an independent set and its weight. -/
theorem misp3_words_sound (hg : g.Fit) (hw : ∀ i, 0 ≤ g.w i) (ht : 0 < g.top) {w fu N : Nat} {lim : Nat → Bool} {s : BB.BS MispW}
    (h : @BB.search _ misp3Same g.mdl3W w fu lim N (-2147483647) = some s) :
    ∀ x, x ∈ s.sols → ∃ vs, g.read x.2 (List.range g.top) = some vs ∧ g.IndV vs ∧ x.1 = g.wts vs := by
  obtain ⟨s', h1, _, _, h2, _⟩ := misp3_words_some hg h
  rw [← h2]
  exact misp23_search_sound g hw ht (.inr h1)

/-! ### A width that is always enough -/

theorem Misp.path_open3 {x z : MispS} {ls : List Int} {c : Int} (h : Path g.mdl3 x ls c z) (hx : g.Live3 x) (hz : g.mdl3.eqs z = false) :
    g.Live3 z ∧ z.n = x.n + ls.length := by
  induction h with
  | nil s => exact ⟨hx, rfl⟩
  | @cons x x' z l ls c hs hp ih =>
    obtain ⟨v, cs, hc⟩ := g.decides3.first hx
    obtain ⟨hl, h2⟩ := (g.decides3.step x v cs l x' hx hc).1 hs
    rcases h2 with ⟨_, rfl⟩ | ⟨ho, rfl⟩
    · cases hp with
      | nil => rw [g.decides3.term] at hz; cases hz
      | cons hs' _ => have := hs'.1; rw [g.decides3.term] at this; cases this
    · obtain ⟨h1, h2⟩ := ih (g.decides3.next x v cs l hx hc hl ho) hz
      refine ⟨h1, ?_⟩
      rw [h2, List.length_cons]
      dsimp only
      omega

/-- In misp3.cpp layer `n` has at most 2^n states, one per choice made so far, and at most 2^(top-n), one per set of vertices
left, whose smallest member is the next vertex: a width of 2^(top/2) leaves room for every layer. -/
theorem Misp.room3 (g : Misp) (ht : 0 < g.top) {w : Nat} (h : 2 ^ (g.top / 2) ≤ w) : Room g.mdl3 g.rank g.mdl3.sti w := by
  intro k L hn hL
  have key : ∀ s, s ∈ L → g.Live3 s ∧ s.n = k ∧ s ∈ ahead g.mdl3 k g.mdl3.sti := by
    intro s hs
    obtain ⟨h1, h2, ls, c, hp⟩ := hL s hs
    obtain ⟨h3, h4⟩ := g.path_open3 hp (g.live3 ht) h1
    have h5 : s.n = k := h2
    have h6 : k = ls.length := by rw [← h5, h4]; show 0 + _ = _; omega
    exact ⟨h3, h5, h6 ▸ ahead_path hp⟩
  by_cases hk : k ≤ g.top / 2
  · have h1 := hn.length_le_of_subset (fun s hs => (key s hs).2.2)
    have h2 := ahead_length (m := g.mdl3) (b := 2) (fun s => Nat.le_refl 2) k g.mdl3.sti
    have h3 : 2 ^ k ≤ 2 ^ (g.top / 2) := Nat.pow_le_pow_right (by omega) hk
    omega
  · have lowB : ∀ s, g.Live3 s → s.n = k → ∀ i, i < k → s.sel.testBit i = false := by
      intro s s1 s2 i hi
      cases hb : s.sel.testBit i with
      | false => rfl
      | true => have := s1.bits i hb; have := s1.n; omega
    have hm : (L.map (fun s => s.sel / 2 ^ k)).Nodup := by
      unfold List.Nodup at hn ⊢
      rw [List.pairwise_map]
      refine List.Pairwise.imp_of_mem ?_ hn
      intro a b ha hb hab e
      obtain ⟨a1, a2, _⟩ := key a ha
      obtain ⟨b1, b2, _⟩ := key b hb
      refine hab ?_
      have hsel : a.sel = b.sel := by
        refine Nat.eq_of_testBit_eq (fun i => ?_)
        by_cases hi : i < k
        · rw [lowB a a1 a2 i hi, lowB b b1 b2 i hi]
        · have := congrArg (fun n => n.testBit (i - k)) e
          simp only [Nat.testBit_div_two_pow] at this
          rwa [show i - k + k = i by omega] at this
      have hl : a.l = b.l := by
        have e1 := (a1.bits b.l.toNat (by rw [hsel]; exact b1.here)).1
        have e2 := (b1.bits a.l.toNat (by rw [← hsel]; exact a1.here)).1
        have := a1.l0
        have := b1.l0
        omega
      cases a; cases b
      simp only [MispS.mk.injEq]
      dsimp only at *
      exact ⟨hsel, by omega, hl⟩
    have := nodup_length_le w _ hm (by
      intro x hx
      obtain ⟨s, hs, rfl⟩ := List.mem_map.1 hx
      obtain ⟨s1, s2, _⟩ := key s hs
      have hlt : s.sel < 2 ^ g.top := by
        refine Nat.lt_pow_two_of_testBit _ (fun i hi => ?_)
        cases hb : s.sel.testBit i with
        | false => rfl
        | true => have := s1.bits i hb; omega
      have hkt : k ≤ g.top := s2 ▸ g.decides3.rank s s1
      have h1 : s.sel / 2 ^ k < 2 ^ (g.top - k) := by
        rw [Nat.div_lt_iff_lt_mul (Nat.two_pow_pos k), ← Nat.pow_add, Nat.sub_add_cancel (by omega)]
        exact hlt
      have h2 : 2 ^ (g.top - k) ≤ 2 ^ (g.top / 2) := Nat.pow_le_pow_right (by omega) (by omega)
      omega)
    simpa using this

/-- C147.  With width `2 ^ (top/2)` the program ends with a heaviest independent set. -/
theorem misp3_words_width (hg : g.Fit) (hw : ∀ i, 0 ≤ g.w i) (ht : 0 < g.top) {w fu N : Nat} (hR : 2 ^ (g.top / 2) ≤ w)
    {lim : Nat → Bool} {s : BB.BS MispW} (h : @BB.search _ misp3Same g.mdl3W w fu lim N (-2147483647) = some s) (hns : s.stopped = false) :
    g.Heaviest s.primal ∧ ∃ vs, g.read s.inc (List.range g.top) = some vs ∧ g.wts vs = s.primal := by
  obtain ⟨s', h1, h2, h3, _, h4⟩ := misp3_words_some hg h
  rw [← h2, ← h3]
  exact misp3_search_room g hw ht (g.room3 ht hR) h1 (h4.trans hns)

/-- C147.  The search ends. -/
theorem misp3_words_ends (hg : g.Fit) (hw : ∀ i, 0 ≤ g.w i) (ht : 0 < g.top) (w : Nat) {fu : Nat} (hf : g.top + 2 ≤ fu) (lim : Nat → Bool) :
    ∃ L, ∀ N, L < N → ∃ s, @BB.search _ misp3Same g.mdl3W w fu lim N (-2147483647) = some s ∧ (s.stopped = true ∨ Heap.empty s.pq = true) := by
  obtain ⟨L, hL⟩ := (misp23_search_ends g hw ht w hf lim).2
  refine ⟨L, fun N hN => ?_⟩
  obtain ⟨s, h1, h2⟩ := hL N hN
  have e := misp3_words_search hg w fu lim N (-2147483647)
  rw [h1, Option.map_some] at e
  obtain ⟨s', h3, h4⟩ := Option.map_eq_some_iff.1 e
  simp only [Prod.mk.injEq] at h4
  exact ⟨s', h3, by rw [h4.2.2.2.1, h4.2.2.2.2.2.2]; exact h2⟩

/-- From 32769 vertices on the bound of the root reads `weight[-32768]`: the iterator returns a `short`.  (The program already writes
there when it fills `weight`, examples/misp3.cpp:137.) -/
theorem misp3_words_false (h1 : 2 ^ 15 < g.top) (h2 : g.top ≤ 2 ^ 20) : ∃ x, g.init3W = some x ∧ g.loc3W x = none := by
  obtain ⟨u, u1, u2, u3, _, _, u6⟩ := mask_insertAll (l := List.range g.top) (fun p hp => by rw [List.mem_range] at hp; omega)
  refine ⟨⟨u, 0, 0⟩, by unfold Misp.init3W; rw [u1]; rfl, ?_⟩
  unfold Misp.loc3W
  rw [iter_elems u2 u3, Option.bind_some, if_neg]
  rw [List.all_eq_true]
  intro h
  have h3 : (2 ^ 15 : Nat) ∈ Bits.elems u.t u.mxw := Bits.mem_elems.2 ((u6 _).2 (List.mem_range.2 h1))
  have h4 := of_decide_eq_true (h _ (List.mem_map.2 ⟨_, h3, rfl⟩))
  exact absurd h4.1 (by decide)

/-! ### A case with two words -/

/-- The path on 70 vertices: taking vertex 1 at once leaves 68 vertices in two words, the next one being 3. -/
theorem wpath3_words : ∃ x y z, wpath.Met3 x ∧ wpath.stf3W x 0 = some (some y) ∧ wpath.Met3 y ∧ wpath.stf3W y 1 = some (some z) ∧ z.sel.mxw = 2 ∧ z.l = 3 ∧ z.n = 2 ∧
    contains z.sel 2 = false ∧ contains z.sel 69 = true := by
  have hv : (wpath.init3W.bind fun x => (wpath.stf3W x 0).bind id |>.bind fun y => (wpath.stf3W y 1).bind id).map
      (fun z => (z.sel.mxw, z.l, z.n, contains z.sel 2, contains z.sel 69)) = some (2, 3, 2, false, true) := by decide +kernel
  obtain ⟨z, h1, h2⟩ := Option.map_eq_some_iff.1 hv
  obtain ⟨x, hx, h1⟩ := Option.bind_eq_some_iff.1 h1
  obtain ⟨y, hy, h1⟩ := Option.bind_eq_some_iff.1 h1
  obtain ⟨oy, hy, hy'⟩ := Option.bind_eq_some_iff.1 hy
  obtain ⟨oz, hz, hz'⟩ := Option.bind_eq_some_iff.1 h1
  have hy' : oy = some y := hy'
  have hz' : oz = some z := hz'
  rw [hy'] at hy
  rw [hz'] at hz
  simp only [Prod.mk.injEq] at h2
  exact ⟨x, y, z, .init hx, hy, .step (.init hx) hy, hz, h2.1, h2.2.1, h2.2.2.1, h2.2.2.2.1, h2.2.2.2.2⟩

end Verif.Ex
