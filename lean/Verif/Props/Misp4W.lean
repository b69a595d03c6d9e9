import Verif.Misp4W
import Verif.Props.MispW
import Verif.Props.Misp4
/-!
# C144: the independent-set program without the last vertex, on the words it stores
-/
namespace Verif.Ex
open Verif.DD Verif.GNSet

variable {g : Misp}

/-- What a stored state stands for. -/
def Misp4W.abs (x : Misp4W) : Misp4S := ⟨mask x.sel, x.n⟩

/-- The same set and level with a last vertex. -/
def Misp4W.up (x : Misp4W) : MispW := ⟨x.sel, x.n, 0⟩

def MispW.dn (x : MispW) : Misp4W := ⟨x.sel, x.n⟩

/-- What the stored states satisfy. -/
def Misp.Ok4 (g : Misp) (x : Misp4W) : Prop := g.Ok x.up

theorem Misp.Ok.dn {x : MispW} (h : g.Ok x) : g.Ok4 x.dn := ⟨h.nul, h.pos, h.cap, h.wd, h.le, h.bits⟩

theorem stf4W_eq (x : Misp4W) (l : Int) (hn : ¬ g.top ≤ x.n) : g.stf4W x l = (g.stfW x.up l).map (·.map MispW.dn) := by
  unfold Misp.stf4W Misp.stfW
  rw [if_neg hn]
  show (if contains x.sel x.n = false ∧ l ≠ 0 then _ else _) = Option.map _ (if contains x.sel x.n = false ∧ l ≠ 0 then _ else _)
  by_cases hc : contains x.sel x.n = false ∧ l ≠ 0
  · rw [if_pos hc, if_pos hc]; rfl
  · rw [if_neg hc, if_neg hc]
    show (copy x.sel).bind _ = ((copy x.sel).bind _).map _
    cases copy x.sel with
    | none => rfl
    | some c =>
      rw [Option.bind_some, Option.bind_some]
      show Option.bind (if l ≠ 0 then (g.adjW x.n).bind (diffWith (remove c x.n)) else some (remove c x.n)) _ =
        (Option.bind (if l ≠ 0 then (g.adjW x.n).bind (diffWith (remove c x.n)) else some (remove c x.n)) _).map _
      generalize (if l ≠ 0 then (g.adjW x.n).bind (diffWith (remove c x.n)) else some (remove c x.n)) = o
      cases o with
      | none => rfl
      | some o =>
        rw [Option.bind_some, Option.bind_some]
        cases empty o with
        | none => rfl
        | some b => rfl

theorem smf4W_eq (a b : Misp4W) : g.smf4W a b = (g.smfW a.up b.up).map (·.map MispW.dn) := by
  unfold Misp.smf4W Misp.smfW
  rw [if_pos (show a.up.l = b.up.l from rfl)]
  show (GNSet.union a.sel b.sel).map _ = ((GNSet.union a.sel b.sel).map _).map _
  cases GNSet.union a.sel b.sel <;> rfl

theorem init4W_eq : g.init4W = g.initW.map MispW.dn := by
  unfold Misp.init4W Misp.initW
  cases insertAll (List.range g.top) (GNSet.new 64) <;> rfl

theorem Misp.Fit.init4 (hg : g.Fit) : ∃ x, g.init4W = some x ∧ g.Ok4 x ∧ x.abs = g.m0.sti := by
  obtain ⟨x, h1, h2, h3⟩ := hg.init
  exact ⟨x.dn, by rw [init4W_eq, h1]; rfl, h2.dn, congrArg MispS.to4 h3⟩

theorem Misp.target4_ok : g.Ok4 g.target4W ∧ g.target4W.abs = g.m0.stt := by
  obtain ⟨h1, h2⟩ := g.target_ok g.wds_pos
  exact ⟨h1.dn, congrArg MispS.to4 h2⟩

/-- One step on the words is one step on the masks, and it is defined. -/
theorem Misp.Fit.step4 (hg : g.Fit) {x : Misp4W} (hx : g.Ok4 x) (l : Int) :
    ∃ o, g.stf4W x l = some o ∧ o.map Misp4W.abs = g.m0.stf x.abs l ∧ ∀ y, o = some y → g.Ok4 y := by
  by_cases hn : g.top ≤ x.n
  · have h0 : mask x.sel = 0 := mask_zero.2 fun q => by
      cases hq : has x.sel q with
      | false => rfl
      | true => have := hx.bits q hq; have h : x.n ≤ q := this.1; omega
    refine ⟨some g.target4W, ?_, ?_, fun y hy => by cases hy; exact Misp.target4_ok.1⟩
    · unfold Misp.stf4W
      rw [if_pos hn, empty_mask (g := x.sel) (Misp.Ok.cap hx), Option.map_some, h0]
      rfl
    · show some g.target4W.abs = if g.top ≤ x.n then (if mask x.sel = 0 then some (⟨0, g.top⟩ : Misp4S) else none) else _
      rw [if_pos hn, if_pos h0, Misp.target4_ok.2]
      rfl
  · obtain ⟨o, h1, h2, h3⟩ := hg.step hx l
    refine ⟨o.map MispW.dn, by rw [stf4W_eq x l hn, h1]; rfl, ?_, fun y hy => ?_⟩
    · have h2 : o.map MispW.abs = if (mask x.sel).testBit x.n = false ∧ l ≠ 0 then none
        else some ⟨g.out x.up.abs l, if g.out x.up.abs l = 0 then g.top else x.n + 1, if g.out x.up.abs l = 0 then 0 else (x.n : Int)⟩ := h2
      show _ = if g.top ≤ x.n then _ else if (mask x.sel).testBit x.n = false ∧ l ≠ 0 then none else
        some (⟨g.out4 x.abs l, if g.out4 x.abs l = 0 then g.top else x.n + 1⟩ : Misp4S)
      rw [if_neg hn]
      have e : (o.map MispW.dn).map Misp4W.abs = (o.map MispW.abs).map MispS.to4 := by cases o <;> rfl
      rw [e, h2]
      by_cases hc : (mask x.sel).testBit x.n = false ∧ l ≠ 0
      · rw [if_pos hc, if_pos hc]; rfl
      · rw [if_neg hc, if_neg hc]; rfl
    · obtain ⟨z, rfl, rfl⟩ := Option.map_eq_some_iff.1 hy
      exact (h3 z rfl).dn

/-- One merge on the words is one merge on the masks. -/
theorem Misp.Ok4.merge {a b : Misp4W} (ha : g.Ok4 a) (hb : g.Ok4 b) :
    ∃ o, g.smf4W a b = some o ∧ o.map Misp4W.abs = g.m0.smf a.abs b.abs ∧ ∀ y, o = some y → g.Ok4 y := by
  obtain ⟨o, h1, h2, h3⟩ := Misp.Ok.merge ha hb
  refine ⟨o.map MispW.dn, by rw [smf4W_eq, h1]; rfl, ?_, fun y hy => ?_⟩
  · have e : (o.map MispW.dn).map Misp4W.abs = (o.map MispW.abs).map MispS.to4 := by cases o <;> rfl
    rw [e, h2]
    rfl
  · obtain ⟨z, rfl, rfl⟩ := Option.map_eq_some_iff.1 hy
    exact (h3 z rfl).dn

theorem Misp.Ok4.done {x : Misp4W} (hx : g.Ok4 x) : g.eqs4W x = some (g.m0.eqs x.abs) := size_mask hx.cap

theorem Misp.Fit.bound4 (hg : g.Fit) {x : Misp4W} (hx : g.Ok4 x) : g.loc4W x = some (g.sum x.abs.sel) := hg.bound hx

/-- `std::equal_to` compares what a state stands for. -/
theorem Misp4W.eqv_abs (a b : Misp4W) : a.eqv b = true ↔ a.abs = b.abs := by
  unfold Misp4W.eqv Misp4W.abs
  rw [Bool.and_eq_true, decide_eq_true_iff, eq_mask, Misp4S.mk.injEq]
  exact And.comm

/-- Equal states of one run have equal hashes. -/
theorem Misp.Ok4.hash {a b : Misp4W} (ha : g.Ok4 a) (hb : g.Ok4 b) (h : a.abs = b.abs) : a.hash = b.hash := by
  unfold Misp4W.abs at h
  rw [Misp4S.mk.injEq] at h
  obtain ⟨h1, h2⟩ := h
  unfold Misp4W.hash
  rw [h2, hash_mask h1]
  have hwa : a.sel.mxw = g.wds ∨ (a.sel.mxw ≤ g.wds ∧ mask a.sel = 0) := ha.wd
  have hwb : b.sel.mxw = g.wds ∨ (b.sel.mxw ≤ g.wds ∧ mask b.sel = 0) := hb.wd
  rcases hwa with ha | ha
  · rcases hwb with hb | hb
    · exact .inl (by omega)
    · exact .inr (h1.trans hb.2)
  · exact .inr ha.2

theorem Misp.Fit.kept4 (hg : g.Fit) : Kept g.Ok4 g.mdl4W where
  sti := by
    obtain ⟨x, h1, h2, _⟩ := hg.init4
    show g.Ok4 (g.init4W.getD _)
    rw [h1]; exact h2
  stt := Misp.target4_ok.1
  stf := fun s l t hs h => by
    obtain ⟨o, h1, _, h2⟩ := hg.step4 hs l
    have h : (g.stf4W s l).getD none = some t := h
    rw [h1] at h
    exact h2 t h
  smf := fun a b c ha hb h => by
    obtain ⟨o, h1, _, h2⟩ := ha.merge hb
    have h : (g.smf4W a b).getD none = some c := h
    rw [h1] at h
    exact h2 c h

theorem Misp.Fit.homOn4 (hg : g.Fit) : HomOn g.Ok4 Misp4W.abs g.mdl4W g.m0 where
  sense := rfl
  sti := by
    obtain ⟨x, h1, _, h3⟩ := hg.init4
    show _ = (g.init4W.getD _).abs
    rw [h1, ← h3]; rfl
  stt := Misp.target4_ok.2.symm
  lgf := fun _ _ => rfl
  stf := fun s l hs => by
    obtain ⟨o, h1, h2, _⟩ := hg.step4 hs l
    show _ = ((g.stf4W s l).getD none).map _
    rw [h1, ← h2]; rfl
  stc := fun s l hs => by
    show _ = (g.stc4W s l).getD 0
    unfold Misp.stc4W
    rw [if_pos (show s.n ≤ g.top from Misp.Ok.le hs)]; rfl
  smf := fun a b ha hb => by
    obtain ⟨o, h1, h2, _⟩ := ha.merge hb
    show _ = ((g.smf4W a b).getD none).map _
    rw [h1, ← h2]; rfl
  eqs := fun s hs => by
    show _ = (g.eqs4W s).getD false
    rw [hs.done]; rfl
  loc := ⟨rfl, fun h h' e e' s c hs => by
    cases e; cases e'
    show (g.loc4W s).getD 0 = _
    rw [hg.bound4 hs]; rfl⟩
  sdom := ⟨rfl, fun h h' e => by cases e⟩

/-- The states a run can meet: the root, the sink, and what transitions and merges return. -/
inductive Misp.Met4 (g : Misp) : Misp4W → Prop
  | init {x} : g.init4W = some x → Met4 g x
  | target : Met4 g g.target4W
  | step {x y l} : Met4 g x → g.stf4W x l = some (some y) → Met4 g y
  | merge {a b c} : Met4 g a → Met4 g b → g.smf4W a b = some (some c) → Met4 g c

theorem Misp.Met4.ok (hg : g.Fit) {x : Misp4W} (h : g.Met4 x) : g.Ok4 x := by
  induction h with
  | init h =>
    obtain ⟨x, h1, h2, _⟩ := hg.init4
    rw [h1, Option.some.injEq] at h
    exact h ▸ h2
  | target => exact Misp.target4_ok.1
  | step _ h ih =>
    obtain ⟨o, h1, _, h2⟩ := hg.step4 ih _
    rw [h1, Option.some.injEq] at h
    exact h2 _ h
  | merge _ _ h iha ihb =>
    obtain ⟨o, h1, _, h2⟩ := iha.merge ihb
    rw [h1, Option.some.injEq] at h
    exact h2 _ h

/-- C144.  On a file of at most 32768 vertices the root exists, and on every state a run can meet all functions of the
program are defined: no access outside an array or through a null pointer, no loop without end. -/
theorem misp4_words_defined (hg : g.Fit) : (∃ x, g.init4W = some x) ∧ ∀ x, g.Met4 x →
    (∀ l, ∃ o, g.stf4W x l = some o) ∧ (∀ l, ∃ c, g.stc4W x l = some c) ∧ (∀ y, g.Met4 y → ∃ o, g.smf4W x y = some o) ∧
      (∃ b, g.eqs4W x = some b) ∧ ∃ c, g.loc4W x = some c := by
  refine ⟨?_, fun x hx => ⟨fun l => ?_, fun l => ?_, fun y hy => ?_, ⟨_, (hx.ok hg).done⟩, ⟨_, hg.bound4 (hx.ok hg)⟩⟩⟩
  · obtain ⟨x, h, _⟩ := hg.init4; exact ⟨x, h⟩
  · obtain ⟨o, h, _⟩ := hg.step4 (hx.ok hg) l; exact ⟨o, h⟩
  · exact ⟨_, by unfold Misp.stc4W; rw [if_pos (show x.n ≤ g.top from Misp.Ok.le (hx.ok hg))]⟩
  · obtain ⟨o, h, _⟩ := (hx.ok hg).merge (hy.ok hg); exact ⟨o, h⟩

/-- C144.  Two states of a run are equal for `std::equal_to` exactly when they stand for the same set and level, and
then their hashes are equal. -/
theorem misp4_words_equal (hg : g.Fit) {x y : Misp4W} (hx : g.Met4 x) (hy : g.Met4 y) :
    (x.eqv y = true ↔ (∀ q, contains x.sel q = contains y.sel q) ∧ x.n = y.n) ∧ (x.eqv y = true → x.hash = y.hash) := by
  refine ⟨?_, fun h => (hx.ok hg).hash (hy.ok hg) ((x.eqv_abs y).1 h)⟩
  unfold Misp4W.eqv
  rw [Bool.and_eq_true, decide_eq_true_iff, eq_iff]
  simp only [contains_eq]
  exact And.comm

/-- C144.  The search of the program on its stored words, equality and hash is the search of the mask model. -/
theorem misp4_words_search (hg : g.Fit) (w fu : Nat) (lim : Nat → Bool) (N : Nat) (p0 : Int) :
    (@BB.search _ misp4Same g.mdl4W w fu lim N p0).map (fun s => (s.primal, s.inc, s.sols, s.stopped, s.wrel, s.log, s.pq)) =
      (BB.search g.m0 w fu lim N p0).map (fun s => (s.primal, s.inc, s.sols, s.stopped, s.wrel, s.log, s.pq)) :=
  state_equality_on hg.kept4 hg.homOn4 (fun a b _ _ => a.eqv_abs b) (fun _ _ ha hb h => congrArg _ (ha.hash hb h)) w fu lim N p0

theorem misp4_words_some (hg : g.Fit) {w fu : Nat} {lim : Nat → Bool} {N : Nat} {s : BB.BS Misp4W}
    (h : @BB.search _ misp4Same g.mdl4W w fu lim N (-2147483647) = some s) : ∃ s', g.search4 0 w fu lim N = some s' ∧
      s'.primal = s.primal ∧ s'.inc = s.inc ∧ s'.sols = s.sols ∧ s'.stopped = s.stopped := by
  have e := misp4_words_search hg w fu lim N (-2147483647)
  rw [h, Option.map_some] at e
  obtain ⟨s', h1, h2⟩ := Option.map_eq_some_iff.1 e.symm
  simp only [Prod.mk.injEq] at h2
  exact ⟨s', h1, h2.1, h2.2.1, h2.2.2.1, h2.2.2.2.1⟩

/-- C144.  Every solution the program reports is an independent set and its weight. -/
theorem misp4_words_sound (hg : g.Fit) (hw : ∀ i, 0 ≤ g.w i) (ht : 0 < g.top) {w fu N : Nat} {lim : Nat → Bool} {s : BB.BS Misp4W}
    (h : @BB.search _ misp4Same g.mdl4W w fu lim N (-2147483647) = some s) : ∀ x, x ∈ s.sols → g.Ind x.2 ∧ x.1 = g.wt 0 x.2 := by
  obtain ⟨s', h1, _, _, h2, _⟩ := misp4_words_some hg h
  rw [← h2]
  exact misp4_search_sound hw ht h1

/-- The misp5 state of an open misp4 state. -/
def Misp4S.to5 (x : Misp4S) : MispS := ⟨x.sel, x.n, (x.n : Int) - 1⟩

/-- A width of 2^(top/2) leaves room for every layer of misp4.cpp. -/
theorem Misp.room4 (ht : 0 < g.top) {w : Nat} (h : 2 ^ (g.top / 2) ≤ w) : Room g.m0 g.rank4 g.m0.sti w := by
  intro k L hn hL
  have hm : (L.map Misp4S.to5).Nodup := by
    unfold List.Nodup at hn ⊢
    rw [List.pairwise_map]
    refine hn.imp fun {a b} hab e => hab ?_
    exact congrArg MispS.to4 e
  have := g.room ht h k _ hm (fun y hy => by
    obtain ⟨x, hx, rfl⟩ := List.mem_map.1 hy
    obtain ⟨h1, h2, ls, c, hp⟩ := hL x hx
    obtain ⟨y, rfl, h3, h4⟩ := path4_to hp g.mdl.sti rfl (.inl (g.live0 ht))
    have h5 := Misp.live_of h3 h1
    have e : y.to4.to5 = y := by
      have := h5.l
      cases y
      exact congrArg (MispS.mk _ _) this.symm
    rw [e]
    exact ⟨h1, h2, ls, c, h4⟩)
  rwa [List.length_map] at this

/-- C90: with a width of at least 2^(n/2) for n vertices, the searches of misp4.cpp and misp4_lag.cpp end with a heaviest
independent set. -/
theorem misp4_search_width (hw : ∀ i, 0 ≤ g.w i) (ht : 0 < g.top) {opt w dfuel fuel : Nat} (hR : 2 ^ (g.top / 2) ≤ w)
    {lim : Nat → Bool} {s : BB.BS Misp4S} (h : g.search4 opt w dfuel lim fuel = some s) (hns : s.stopped = false) :
    g.Heaviest01 s.primal ∧ g.Ind s.inc ∧ g.wt 0 s.inc = s.primal :=
  misp4_search_room hw ht (Misp.room4 ht hR) h hns

/-- C144.  With width `2 ^ (top/2)` the program ends with a heaviest independent set. -/
theorem misp4_words_width (hg : g.Fit) (hw : ∀ i, 0 ≤ g.w i) (ht : 0 < g.top) {w fu N : Nat} (hR : 2 ^ (g.top / 2) ≤ w)
    {lim : Nat → Bool} {s : BB.BS Misp4W} (h : @BB.search _ misp4Same g.mdl4W w fu lim N (-2147483647) = some s) (hns : s.stopped = false) :
    g.Heaviest01 s.primal ∧ g.Ind s.inc ∧ g.wt 0 s.inc = s.primal := by
  obtain ⟨s', h1, h2, h3, _, h4⟩ := misp4_words_some hg h
  rw [← h2, ← h3]
  exact misp4_search_width hw ht hR h1 (h4.trans hns)

/-- C144.  The search ends. -/
theorem misp4_words_ends (hg : g.Fit) (hw : ∀ i, 0 ≤ g.w i) (ht : 0 < g.top) (w : Nat) {fu : Nat} (hf : g.top + 2 ≤ fu) (lim : Nat → Bool) :
    ∃ L, ∀ N, L < N → ∃ s, @BB.search _ misp4Same g.mdl4W w fu lim N (-2147483647) = some s ∧ (s.stopped = true ∨ Heap.empty s.pq = true) := by
  obtain ⟨L, hL⟩ := misp4_search_ends hw ht 0 w hf lim
  refine ⟨L, fun N hN => ?_⟩
  obtain ⟨s, h1, h2⟩ := hL N hN
  have e := misp4_words_search hg w fu lim N (-2147483647)
  rw [show BB.search g.m0 w fu lim N (-2147483647) = some s from h1, Option.map_some] at e
  obtain ⟨s', h3, h4⟩ := Option.map_eq_some_iff.1 e
  simp only [Prod.mk.injEq] at h4
  exact ⟨s', h3, by rw [h4.2.2.2.1, h4.2.2.2.2.2.2]; exact h2⟩

/-! ### A case with two words -/

/-- On the path of 70 vertices: two stored states with different word counts that are one state. -/
theorem wpath4_words : ∃ x y, wpath.Met4 x ∧ wpath.Met4 y ∧ x.sel.mxw = 2 ∧ y.sel.mxw = 1 ∧ x.eqv y = true ∧ x.hash = y.hash := by
  let go : Option Misp4W := (List.range 70).foldl (fun o _ => o.bind fun x => ((wpath.stf4W x 0).bind id)) wpath.init4W
  have hv : go.map (fun x => (x.sel.mxw, x.eqv wpath.target4W)) = some (2, true) := by decide +kernel
  have hm : ∀ (k : List Nat) (o : Option Misp4W), (∀ x, o = some x → wpath.Met4 x) →
      ∀ x, k.foldl (fun o _ => o.bind fun x => ((wpath.stf4W x 0).bind id)) o = some x → wpath.Met4 x := by
    intro k
    induction k with
    | nil => intro o h; exact h
    | cons i k ih =>
      intro o h
      refine ih _ (fun y hy => ?_)
      obtain ⟨x, h1, h2⟩ := Option.bind_eq_some_iff.1 hy
      obtain ⟨p, h3, h4⟩ := Option.bind_eq_some_iff.1 h2
      exact .step (l := 0) (h x h1) (by rw [h3]; exact congrArg some h4)
  obtain ⟨x, h1, h2⟩ := Option.map_eq_some_iff.1 hv
  simp only [Prod.mk.injEq] at h2
  have hx := hm _ _ (fun x hx => .init hx) x h1
  exact ⟨x, wpath.target4W, hx, .target, h2.1, rfl, h2.2, (misp4_words_equal wpath_fit hx .target).2 h2.2⟩

end Verif.Ex
