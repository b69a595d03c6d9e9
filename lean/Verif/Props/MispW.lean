import Verif.Props.GNMask
import Verif.Props.SameOn
import Verif.Props.Misp5S
import Verif.Props.MispRoom
/-!
# C140: the independent-set program on the words it stores
-/
namespace Verif.Ex
open Verif.DD Verif.GNSet

variable (g : Misp)

/-- Words of the root's set: 1, 2, 4, ... doubled while the vertices are inserted. -/
def Misp.wds : Nat := (List.range g.top).foldl growTo 1

/-- A file the program accepts: array indices in range, and vertex numbers that the iterator can return. -/
structure Misp.Fit : Prop where
  top : g.top ≤ 2 ^ 15
  edges : ∀ e ∈ g.edges, e.1 ≤ g.top ∧ e.2 ≤ g.top

/-- What the stored states satisfy. -/
structure Misp.Ok (x : MispW) : Prop where
  nul : x.sel.nul = false
  pos : 0 < x.sel.mxw
  cap : x.sel.mxw < 2 ^ 15
  wd : x.sel.mxw = g.wds ∨ (x.sel.mxw ≤ g.wds ∧ mask x.sel = 0)
  le : x.n ≤ g.top
  bits : ∀ i, has x.sel i = true → x.n ≤ i ∧ i < g.top

/-- What a stored state stands for. -/
def MispW.abs (x : MispW) : MispS := ⟨mask x.sel, x.n, x.l⟩

variable {g}

theorem Misp.Ok.live {x : MispW} (h : g.Ok x) : GNSet.Live x.sel := fun hn => by rw [h.nul] at hn; cases hn

theorem Misp.wds_pos : 0 < g.wds := foldl_growTo_le _ 1 (by omega)

theorem Misp.Fit.init (hg : g.Fit) : ∃ x, g.initW = some x ∧ g.Ok x ∧ x.abs = g.mdl.sti := by
  have ht := hg.top
  obtain ⟨u, h1, h2, h3, h4, h5, h6⟩ := mask_insertAll (l := List.range g.top) (fun p hp => by rw [List.mem_range] at hp; omega)
  refine ⟨⟨u, 0, -1⟩, by unfold Misp.initW; rw [h1]; rfl, ⟨h2, h3, h5, .inl h4, Nat.zero_le _, fun i hi => ?_⟩, ?_⟩
  · exact ⟨Nat.zero_le _, List.mem_range.1 ((h6 i).1 hi)⟩
  · show (⟨mask u, 0, -1⟩ : MispS) = ⟨2 ^ g.top - 1, 0, -1⟩
    congr 1
    refine Nat.eq_of_testBit_eq fun q => ?_
    rw [mask_bit, Nat.testBit_two_pow_sub_one, Bool.eq_iff_iff, h6, List.mem_range, decide_eq_true_iff]

theorem Misp.target_ok (ht : 1 ≤ g.wds) : g.Ok g.targetW ∧ g.targetW.abs = g.mdl.stt := by
  refine ⟨⟨rfl, by show 0 < 1; omega, by show 1 < _; omega, .inr ⟨ht, mask_new⟩, Nat.le_refl _, fun i hi => ?_⟩, ?_⟩
  · exact absurd hi (fun h => (new64_rep.mem i).1 h)
  · show (⟨mask (GNSet.new 64), g.top, 0⟩ : MispS) = ⟨0, g.top, 0⟩
    rw [mask_new]

theorem Misp.mem_nbL (v j : Nat) : j ∈ g.nbL v ↔ (v, j) ∈ g.edges ∨ (j, v) ∈ g.edges := by
  unfold Misp.nbL
  rw [List.mem_flatMap]
  constructor
  · rintro ⟨⟨a, b⟩, he, h⟩
    rw [List.mem_append] at h
    rcases h with h | h
    · by_cases hc : a = v
      · rw [if_pos hc, List.mem_singleton] at h; exact .inl (by rw [← hc, h]; exact he)
      · rw [if_neg hc] at h; cases h
    · by_cases hc : b = v
      · rw [if_pos hc, List.mem_singleton] at h; exact .inr (by rw [← hc, h]; exact he)
      · rw [if_neg hc] at h; cases h
  · rintro (h | h)
    · exact ⟨_, h, List.mem_append_left _ (by simp)⟩
    · exact ⟨_, h, List.mem_append_right _ (by simp)⟩

theorem Misp.Fit.adj (hg : g.Fit) {v : Nat} (hv : v ≤ g.top) : ∃ a, g.adjW v = some a ∧ a.nul = false ∧ a.mxw < 2 ^ 15 ∧ mask a = g.nb v := by
  have ht := hg.top
  obtain ⟨u, h1, h2, _, _, h5, h6⟩ := mask_insertAll (l := g.nbL v) (fun p hp => by
    rcases (g.mem_nbL v p).1 hp with h | h
    · have := (hg.edges _ h).2; omega
    · have := (hg.edges _ h).1; omega)
  refine ⟨u, by unfold Misp.adjW; rw [if_pos hv]; exact h1, h2, h5, Nat.eq_of_testBit_eq fun q => ?_⟩
  rw [mask_bit, Bool.eq_iff_iff, h6, g.mem_nbL, g.nb_bit]

/-- One step on the words is one step on the masks, and it is defined. -/
theorem Misp.Fit.step (hg : g.Fit) {x : MispW} (hx : g.Ok x) (l : Int) :
    ∃ o, g.stfW x l = some o ∧ o.map MispW.abs = g.mdl.stf x.abs l ∧ ∀ y, o = some y → g.Ok y := by
  show ∃ o, g.stfW x l = some o ∧ o.map MispW.abs = (if (mask x.sel).testBit x.n = false ∧ l ≠ 0 then none
    else some ⟨g.out x.abs l, if g.out x.abs l = 0 then g.top else x.n + 1, if g.out x.abs l = 0 then 0 else x.n⟩) ∧ _
  unfold Misp.stfW
  rw [contains_mask]
  by_cases hc : (mask x.sel).testBit x.n = false ∧ l ≠ 0
  · rw [if_pos hc, if_pos hc]
    exact ⟨none, rfl, rfl, fun y hy => by cases hy⟩
  · rw [if_neg hc, if_neg hc]
    obtain ⟨c, h1, h2, h3, h4⟩ := mask_copy hx.live
    have hcap := hx.cap
    rw [h1, Option.bind_some]
    have key : ∃ out, (if l ≠ 0 then (g.adjW x.n).bind (diffWith (remove c x.n)) else some (remove c x.n)) = some out ∧ out.nul = false ∧
        out.mxw = x.sel.mxw ∧ mask out = g.out x.abs l := by
      unfold Misp.out
      obtain ⟨k1, k2, _⟩ := remove_keep c x.n
      by_cases hl : l ≠ 0
      · rw [if_pos hl, if_pos hl]
        obtain ⟨a, a1, a2, a3, a4⟩ := hg.adj hx.le
        obtain ⟨d, d1, d2, d3, d4⟩ := mask_diff (a := remove c x.n) (b := a) (by rw [k1, h3]; exact hcap) (fun h => by rw [k2, h2] at h; cases h)
          (fun h => by rw [a2] at h; cases h) a3
        refine ⟨d, by rw [a1]; exact d1, by rw [d3, k2, h2], by rw [d2, k1, h3], ?_⟩
        rw [d4, mask_remove, h4, a4]; rfl
      · rw [if_neg hl, if_neg hl]
        exact ⟨_, rfl, by rw [k2, h2], by rw [k1, h3], by rw [mask_remove, h4]; rfl⟩
    obtain ⟨out, o1, o2, o3, o4⟩ := key
    rw [o1, Option.bind_some, empty_mask (by rw [o3]; exact hcap), Option.map_some]
    refine ⟨_, rfl, ?_, ?_⟩
    · simp only [Option.map_some, MispW.abs, o4, decide_eq_true_iff, Option.some.injEq]
      rfl
    · rintro y hy
      cases hy
      have hb : ∀ i, has out i = true → x.n + 1 ≤ i ∧ i < g.top := by
        intro i hi
        rw [← mask_bit, o4, g.out_bit] at hi
        obtain ⟨i1, i2, _⟩ := hi
        obtain ⟨j1, j2⟩ := hx.bits i (by rw [← mask_bit]; exact i1)
        have i2 : i ≠ x.n := i2
        omega
      by_cases h0 : mask out = 0
      · simp only [h0, decide_true, if_true]
        refine ⟨o2, o3 ▸ hx.pos, o3 ▸ hcap, ?_, Nat.le_refl _, fun i hi => ?_⟩
        · rcases hx.wd with h | h
          · exact .inl (o3.trans h)
          · exact .inr ⟨o3 ▸ h.1, h0⟩
        · rw [mask_zero.1 h0] at hi; cases hi
      · simp only [h0, decide_false, Bool.false_eq_true, if_false]
        refine ⟨o2, o3 ▸ hx.pos, o3 ▸ hcap, ?_, ?_, hb⟩
        · rcases hx.wd with h | ⟨h, hz⟩
          · exact .inl (o3.trans h)
          · refine absurd ?_ h0
            refine mask_zero.2 fun q => ?_
            cases hq : has out q with
            | false => rfl
            | true =>
              rw [← mask_bit, o4, g.out_bit] at hq
              have := hq.1
              rw [show x.abs.sel = 0 from hz, Nat.zero_testBit] at this
              cases this
        · obtain ⟨i, hi⟩ := Nat.exists_testBit_of_ne_zero h0
          rw [mask_bit] at hi
          have := hb i hi
          show x.n + 1 ≤ g.top
          omega

/-- One merge on the words is one merge on the masks. -/
theorem Misp.Ok.merge {a b : MispW} (ha : g.Ok a) (hb : g.Ok b) :
    ∃ o, g.smfW a b = some o ∧ o.map MispW.abs = g.mdl.smf a.abs b.abs ∧ ∀ y, o = some y → g.Ok y := by
  show ∃ o, g.smfW a b = some o ∧ o.map MispW.abs = (if a.l = b.l then some ⟨mask a.sel ||| mask b.sel, min a.n b.n, a.l⟩ else none) ∧ _
  unfold Misp.smfW
  by_cases hl : a.l = b.l
  · rw [if_pos hl, if_pos hl]
    obtain ⟨u, h1, h2, h3, h4⟩ := mask_union ha.cap ha.live hb.live hb.cap
    rw [h1]
    refine ⟨_, rfl, by simp only [Option.map_some, MispW.abs, h4], ?_⟩
    rintro y hy
    cases hy
    have p1 := ha.pos; have p2 := ha.cap; have p3 := hb.cap; have l1 := ha.le; have l2 := hb.le
    refine ⟨h3, by show 0 < u.mxw; omega, by show u.mxw < _; omega, ?_, by show min a.n b.n ≤ _; omega, ?_⟩
    · show u.mxw = g.wds ∨ (u.mxw ≤ g.wds ∧ mask u = 0)
      rcases ha.wd with h | ⟨h, hz⟩
      · rcases hb.wd with h' | ⟨h', _⟩ <;> (left; omega)
      · rcases hb.wd with h' | ⟨h', hz'⟩
        · left; omega
        · right; exact ⟨by omega, by rw [h4, hz, hz']; rfl⟩
    · intro i hi
      rw [← mask_bit, h4, Nat.testBit_or, mask_bit, mask_bit, Bool.or_eq_true] at hi
      show min a.n b.n ≤ i ∧ _
      rcases hi with hi | hi
      · have := ha.bits i hi; omega
      · have := hb.bits i hi; omega
  · rw [if_neg hl, if_neg hl]
    exact ⟨none, rfl, rfl, fun y hy => by cases hy⟩

theorem Misp.Ok.done {x : MispW} (hx : g.Ok x) : g.eqsW x = some (g.mdl.eqs x.abs) := size_mask hx.cap

theorem Misp.Fit.bound (hg : g.Fit) {x : MispW} (hx : g.Ok x) : g.locW x = some (g.sum x.abs.sel) := by
  unfold Misp.locW
  have hb : ∀ q, has x.sel q = true → q < g.top := fun q hq => (hx.bits q hq).2
  rw [iter_mask hx.nul hx.pos hg.top hb, Option.bind_some, if_pos, sum_mask hx.nul hx.pos hg.top hb]
  · rfl
  · rw [List.all_eq_true]
    intro v hv
    obtain ⟨i, hi, rfl⟩ := List.mem_map.1 hv
    have := List.mem_range.1 (List.mem_filter.1 hi).1
    exact decide_eq_true ⟨by omega, by omega⟩

/-- `std::equal_to` compares what a state stands for. -/
theorem MispW.eqv_abs (a b : MispW) : a.eqv b = true ↔ a.abs = b.abs := by
  unfold MispW.eqv MispW.abs
  rw [Bool.and_eq_true, Bool.and_eq_true, decide_eq_true_iff, decide_eq_true_iff, eq_mask, MispS.mk.injEq]
  constructor
  · rintro ⟨⟨h1, h2⟩, h3⟩; exact ⟨h2, h1, h3⟩
  · rintro ⟨h1, h2, h3⟩; exact ⟨⟨h2, h1⟩, h3⟩

/-- Equal states of one run have equal hashes. -/
theorem Misp.Ok.hash {a b : MispW} (ha : g.Ok a) (hb : g.Ok b) (h : a.abs = b.abs) : a.hash = b.hash := by
  unfold MispW.abs at h
  rw [MispS.mk.injEq] at h
  obtain ⟨h1, h2, h3⟩ := h
  unfold MispW.hash
  rw [h2, h3, hash_mask h1]
  rcases ha.wd with ha | ha
  · rcases hb.wd with hb | hb
    · exact .inl (by omega)
    · exact .inr (h1.trans hb.2)
  · exact .inr ha.2

theorem Misp.Fit.kept (hg : g.Fit) : Kept g.Ok g.mdlW where
  sti := by
    obtain ⟨x, h1, h2, _⟩ := hg.init
    show g.Ok (g.initW.getD _)
    rw [h1]; exact h2
  stt := (g.target_ok g.wds_pos).1
  stf := fun s l t hs h => by
    obtain ⟨o, h1, _, h2⟩ := hg.step hs l
    have h : (g.stfW s l).getD none = some t := h
    rw [h1] at h
    exact h2 t h
  smf := fun a b c ha hb h => by
    obtain ⟨o, h1, _, h2⟩ := ha.merge hb
    have h : (g.smfW a b).getD none = some c := h
    rw [h1] at h
    exact h2 c h

theorem Misp.Fit.homOn (hg : g.Fit) : HomOn g.Ok MispW.abs g.mdlW g.mdl where
  sense := rfl
  sti := by
    obtain ⟨x, h1, _, h3⟩ := hg.init
    show _ = (g.initW.getD _).abs
    rw [h1, ← h3]; rfl
  stt := (g.target_ok g.wds_pos).2.symm
  lgf := fun _ _ => rfl
  stf := fun s l hs => by
    obtain ⟨o, h1, h2, _⟩ := hg.step hs l
    show _ = ((g.stfW s l).getD none).map _
    rw [h1, ← h2]; rfl
  stc := fun s l hs => by
    show _ = (g.stcW s l).getD 0
    unfold Misp.stcW
    rw [if_pos hs.le]; rfl
  smf := fun a b ha hb => by
    obtain ⟨o, h1, h2, _⟩ := ha.merge hb
    show _ = ((g.smfW a b).getD none).map _
    rw [h1, ← h2]; rfl
  eqs := fun s hs => by
    show _ = (g.eqsW s).getD false
    rw [hs.done]; rfl
  loc := ⟨rfl, fun h h' e e' s c hs => by
    cases e; cases e'
    show (g.locW s).getD 0 = _
    rw [hg.bound hs]; rfl⟩
  sdom := ⟨rfl, fun h h' e => by cases e⟩

/-- The states a run can meet: the root, the sink, and what transitions and merges return. -/
inductive Misp.Met (g : Misp) : MispW → Prop
  | init {x} : g.initW = some x → Met g x
  | target : Met g g.targetW
  | step {x y l} : Met g x → g.stfW x l = some (some y) → Met g y
  | merge {a b c} : Met g a → Met g b → g.smfW a b = some (some c) → Met g c

theorem Misp.Met.ok (hg : g.Fit) {x : MispW} (h : g.Met x) : g.Ok x := by
  induction h with
  | init h =>
    obtain ⟨x, h1, h2, _⟩ := hg.init
    rw [h1, Option.some.injEq] at h
    exact h ▸ h2
  | target => exact (g.target_ok g.wds_pos).1
  | step _ h ih =>
    obtain ⟨o, h1, _, h2⟩ := hg.step ih _
    rw [h1, Option.some.injEq] at h
    exact h2 _ h
  | merge _ _ h iha ihb =>
    obtain ⟨o, h1, _, h2⟩ := iha.merge ihb
    rw [h1, Option.some.injEq] at h
    exact h2 _ h

/-- C140.  On a file of at most 32768 vertices the root exists, and on every state a run can meet all functions of the
program are defined: no access outside an array or through a null pointer, no loop without end. -/
theorem misp_words_defined (hg : g.Fit) : (∃ x, g.initW = some x) ∧ ∀ x, g.Met x →
    (∀ l, ∃ o, g.stfW x l = some o) ∧ (∀ l, ∃ c, g.stcW x l = some c) ∧ (∀ y, g.Met y → ∃ o, g.smfW x y = some o) ∧
      (∃ b, g.eqsW x = some b) ∧ ∃ c, g.locW x = some c := by
  refine ⟨?_, fun x hx => ⟨fun l => ?_, fun l => ?_, fun y hy => ?_, ⟨_, (hx.ok hg).done⟩, ⟨_, hg.bound (hx.ok hg)⟩⟩⟩
  · obtain ⟨x, h, _⟩ := hg.init; exact ⟨x, h⟩
  · obtain ⟨o, h, _⟩ := hg.step (hx.ok hg) l; exact ⟨o, h⟩
  · exact ⟨_, by unfold Misp.stcW; rw [if_pos (hx.ok hg).le]⟩
  · obtain ⟨o, h, _⟩ := (hx.ok hg).merge (hy.ok hg); exact ⟨o, h⟩

/-- C140.  The states' own equality and hash agree on what a run can meet: two states are equal for `std::equal_to`
exactly when they stand for the same set, level and last vertex, and then their hashes are equal. -/
theorem misp_words_equal (hg : g.Fit) {x y : MispW} (hx : g.Met x) (hy : g.Met y) :
    (x.eqv y = true ↔ (∀ q, contains x.sel q = contains y.sel q) ∧ x.n = y.n ∧ x.l = y.l) ∧ (x.eqv y = true → x.hash = y.hash) := by
  refine ⟨?_, fun h => (hx.ok hg).hash (hy.ok hg) ((x.eqv_abs y).1 h)⟩
  unfold MispW.eqv
  rw [Bool.and_eq_true, Bool.and_eq_true, decide_eq_true_iff, decide_eq_true_iff, eq_iff]
  simp only [contains_eq]
  constructor
  · rintro ⟨⟨h1, h2⟩, h3⟩; exact ⟨h2, h1, h3⟩
  · rintro ⟨h1, h2, h3⟩; exact ⟨⟨h2, h1⟩, h3⟩

/-- C140.  The search of the program on its stored words, equality and hash is the search of the mask model: the same
answer, the same solutions in the same order, the same end, for every width and time limit. -/
theorem misp_words_search (hg : g.Fit) (w fu : Nat) (lim : Nat → Bool) (N : Nat) (p0 : Int) :
    (@BB.search _ mispSame g.mdlW w fu lim N p0).map (fun s => (s.primal, s.inc, s.sols, s.stopped, s.wrel, s.log, s.pq)) =
      (BB.search g.mdl w fu lim N p0).map (fun s => (s.primal, s.inc, s.sols, s.stopped, s.wrel, s.log, s.pq)) :=
  state_equality_on hg.kept hg.homOn (fun a b _ _ => a.eqv_abs b) (fun _ _ ha hb h => congrArg _ (ha.hash hb h)) w fu lim N p0

theorem misp_words_some (hg : g.Fit) {w fu : Nat} {lim : Nat → Bool} {N : Nat} {p0 : Int} {s : BB.BS MispW}
    (h : @BB.search _ mispSame g.mdlW w fu lim N p0 = some s) : ∃ s', BB.search g.mdl w fu lim N p0 = some s' ∧
      s'.primal = s.primal ∧ s'.inc = s.inc ∧ s'.sols = s.sols ∧ s'.stopped = s.stopped := by
  have e := misp_words_search hg w fu lim N p0
  rw [h, Option.map_some] at e
  obtain ⟨s', h1, h2⟩ := Option.map_eq_some_iff.1 e.symm
  simp only [Prod.mk.injEq] at h2
  exact ⟨s', h1, h2.1, h2.2.1, h2.2.2.1, h2.2.2.2.1⟩

/-- C140.  Every solution the program reports is an independent set and its weight. -/
theorem misp_words_sound (hg : g.Fit) (hw : ∀ i, 0 ≤ g.w i) (ht : 0 < g.top) {w fu N : Nat} {lim : Nat → Bool} {s : BB.BS MispW}
    (h : @BB.search _ mispSame g.mdlW w fu lim N (-2147483647) = some s) : ∀ x, x ∈ s.sols → g.Ind x.2 ∧ x.1 = g.wt 0 x.2 := by
  obtain ⟨s', h1, _, _, h2, _⟩ := misp_words_some hg h
  rw [← h2]
  exact misp_search_sound g hw ht h1

/-- C140.  With width `2 ^ (top/2)` the program ends with a heaviest independent set. -/
theorem misp_words_width (hg : g.Fit) (hw : ∀ i, 0 ≤ g.w i) (ht : 0 < g.top) {w fu N : Nat} (hR : 2 ^ (g.top / 2) ≤ w)
    {lim : Nat → Bool} {s : BB.BS MispW} (h : @BB.search _ mispSame g.mdlW w fu lim N (-2147483647) = some s) (hns : s.stopped = false) :
    g.Heaviest01 s.primal ∧ g.Ind s.inc ∧ g.wt 0 s.inc = s.primal := by
  obtain ⟨s', h1, h2, h3, _, h4⟩ := misp_words_some hg h
  rw [← h2, ← h3]
  exact misp_search_width g hw ht hR h1 (h4.trans hns)

/-- C140.  The search ends. -/
theorem misp_words_ends (hg : g.Fit) (hw : ∀ i, 0 ≤ g.w i) (ht : 0 < g.top) (w : Nat) {fu : Nat} (hf : g.top + 2 ≤ fu) (lim : Nat → Bool) :
    ∃ L, ∀ N, L < N → ∃ s, @BB.search _ mispSame g.mdlW w fu lim N (-2147483647) = some s ∧ (s.stopped = true ∨ Heap.empty s.pq = true) := by
  obtain ⟨L, hL⟩ := misp_search_ends g hw ht w hf lim
  refine ⟨L, fun N hN => ?_⟩
  obtain ⟨s, h1, h2⟩ := hL N hN
  have e := misp_words_search hg w fu lim N (-2147483647)
  rw [h1, Option.map_some] at e
  obtain ⟨s', h3, h4⟩ := Option.map_eq_some_iff.1 e
  simp only [Prod.mk.injEq] at h4
  exact ⟨s', h3, by rw [h4.2.2.2.1, h4.2.2.2.2.2.2]; exact h2⟩

/-- From 32769 vertices on the bound of the root reads `weight[-32768]`: the iterator returns a `short`. -/
theorem misp_words_false (h1 : 2 ^ 15 < g.top) (h2 : g.top ≤ 2 ^ 20) : ∃ x, g.initW = some x ∧ g.locW x = none := by
  obtain ⟨u, u1, u2, u3, _, _, u6⟩ := mask_insertAll (l := List.range g.top) (fun p hp => by rw [List.mem_range] at hp; omega)
  refine ⟨⟨u, 0, -1⟩, by unfold Misp.initW; rw [u1]; rfl, ?_⟩
  unfold Misp.locW
  rw [iter_elems u2 u3, Option.bind_some, if_neg]
  rw [List.all_eq_true]
  intro h
  have h3 : (2 ^ 15 : Nat) ∈ Bits.elems u.t u.mxw := Bits.mem_elems.2 ((u6 _).2 (List.mem_range.2 h1))
  have h4 := of_decide_eq_true (h _ (List.mem_map.2 ⟨_, h3, rfl⟩))
  exact absurd h4.1 (by decide)

/-! ### A case with two words -/

/-- A path on 70 vertices with unit weights. -/
def wpath : Misp := ⟨70, (List.range 69).map fun i => (i, i + 1), fun _ => 1⟩

theorem wpath_fit : wpath.Fit where
  top := by decide
  edges := by decide

/-- The root of the path has two words; the sink has one, and equals, with the same hash, the two-word state where
the last vertex is decided. -/
theorem wpath_words : wpath.wds = 2 ∧ ∃ x y, wpath.Met x ∧ wpath.Met y ∧ x.sel.mxw = 2 ∧ y.sel.mxw = 1 ∧ x.eqv y = true := by
  refine ⟨by decide +kernel, ?_⟩
  let go : Option MispW := (List.range 70).foldl (fun o _ => o.bind fun x => ((wpath.stfW x 0).bind id)) wpath.initW
  have hv : go.map (fun x => (x.sel.mxw, x.eqv wpath.targetW)) = some (2, true) := by decide +kernel
  have hm : ∀ (k : List Nat) (o : Option MispW), (∀ x, o = some x → wpath.Met x) →
      ∀ x, k.foldl (fun o _ => o.bind fun x => ((wpath.stfW x 0).bind id)) o = some x → wpath.Met x := by
    intro k
    induction k with
    | nil => intro o h; exact h
    | cons i k ih =>
      intro o h
      refine ih _ (fun y hy => ?_)
      obtain ⟨x, h1, h2⟩ := Option.bind_eq_some_iff.1 hy
      obtain ⟨p, h3, h4⟩ := Option.bind_eq_some_iff.1 h2
      exact .step (l := 0) (h x h1) (by rw [h3]; exact congrArg some h4)
  obtain ⟨x, h1, h2⟩ := Option.map_eq_some_iff.1 hv
  simp only [Prod.mk.injEq] at h2
  exact ⟨x, wpath.targetW, hm _ _ (fun x hx => .init hx) x h1, .target, h2.1, rfl, h2.2⟩

end Verif.Ex
