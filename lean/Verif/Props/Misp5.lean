import Verif.Misp5
import Verif.Props.DD
/-!
# C61: the independent-set example
-/
namespace Verif.Ex
open Verif.DD

variable (g : Misp)

/-! ### Masks -/

theorem mdiff_bit (a b i : Nat) : (mdiff a b).testBit i = (a.testBit i && !b.testBit i) := by
  unfold mdiff
  rw [Nat.testBit_xor, Nat.testBit_and]
  cases a.testBit i <;> cases b.testBit i <;> rfl

theorem Misp.nb_bit (v j : Nat) : (g.nb v).testBit j = true ↔ (v, j) ∈ g.edges ∨ (j, v) ∈ g.edges := by
  have key : ∀ (es : List (Nat × Nat)) (m : Nat), (es.foldl (fun m e =>
      let m1 := if e.1 = v then m ||| 2 ^ e.2 else m
      if e.2 = v then m1 ||| 2 ^ e.1 else m1) m).testBit j = true ↔ m.testBit j = true ∨ (v, j) ∈ es ∨ (j, v) ∈ es := by
    intro es
    induction es with
    | nil => intro m; simp
    | cons e es ih =>
      intro m
      obtain ⟨a, b⟩ := e
      rw [List.foldl_cons, ih]
      dsimp only
      rw [List.mem_cons, List.mem_cons, Prod.mk.injEq, Prod.mk.injEq]
      by_cases h1 : a = v <;> by_cases h2 : b = v
      all_goals simp only [h1, h2, if_true, if_false, Nat.testBit_or, Nat.testBit_two_pow, Bool.or_eq_true, decide_eq_true_iff, true_and, and_true]
      all_goals grind
  unfold Misp.nb
  rw [key]
  simp

theorem Misp.nb_symm (i j : Nat) : (g.nb i).testBit j = (g.nb j).testBit i := by
  rw [Bool.eq_iff_iff, g.nb_bit, g.nb_bit, Or.comm]

theorem Misp.out_bit (x : MispS) (l : Int) (i : Nat) : (g.out x l).testBit i = true ↔
    x.sel.testBit i = true ∧ i ≠ x.n ∧ (l ≠ 0 → (g.nb x.n).testBit i = false) := by
  unfold Misp.out
  by_cases hl : l = 0
  · simp only [hl, ne_eq, not_true, if_false, mdiff_bit, Nat.testBit_two_pow, Bool.and_eq_true, Bool.not_eq_true', decide_eq_false_iff_not]
    grind
  · simp only [ne_eq, hl, not_false_eq_true, if_true, mdiff_bit, Nat.testBit_two_pow, Bool.and_eq_true, Bool.not_eq_true', decide_eq_false_iff_not]
    grind

/-- A non-terminal state of the model: undecided vertices only, at least one selectable. -/
structure Misp.Live (g : Misp) (x : MispS) : Prop where
  ne : x.sel ≠ 0
  l : x.l = x.n - 1
  bits : ∀ i, x.sel.testBit i = true → x.n ≤ i ∧ i < g.top

theorem Misp.Live.lt {g : Misp} {x : MispS} (h : g.Live x) : x.n < g.top := by
  obtain ⟨i, hi⟩ := Nat.exists_testBit_of_ne_zero h.ne
  have := h.bits i hi
  omega

theorem Misp.step_iff {x x' : MispS} {l : Int} (hx : g.Live x) :
    Step g.mdl x l x' ↔ (l = 0 ∨ l = 1 ∧ x.sel.testBit x.n = true) ∧
      (g.out x l = 0 ∧ x' = g.mdl.stt ∨ g.out x l ≠ 0 ∧ x' = ⟨g.out x l, x.n + 1, x.n⟩) := by
  have h1 : g.mdl.eqs x = false := by simp [Misp.mdl, hx.ne]
  unfold Step
  rw [h1]
  have hl : l ∈ g.mdl.lgf x ↔ l = 0 ∨ l = 1 := by simp [Misp.mdl]
  rw [hl]
  have hs : g.mdl.stf x l = if x.sel.testBit x.n = false ∧ l ≠ 0 then none else
      some ⟨g.out x l, if g.out x l = 0 then g.top else x.n + 1, if g.out x l = 0 then 0 else (x.n : Int)⟩ := rfl
  rw [hs]
  have ht : g.mdl.stt = ⟨0, g.top, 0⟩ := rfl
  rw [ht]
  constructor
  · rintro ⟨_, h2, h3⟩
    split at h3
    · simp at h3
    · rename_i hc
      refine ⟨?_, ?_⟩
      · rcases h2 with h | h
        · exact .inl h
        · refine .inr ⟨h, ?_⟩
          cases hb : x.sel.testBit x.n with
          | true => rfl
          | false => exact absurd ⟨hb, by omega⟩ hc
      · by_cases ho : g.out x l = 0
        · rw [if_pos ho, if_pos ho, ho] at h3
          exact .inl ⟨ho, (Option.some.inj h3).symm⟩
        · rw [if_neg ho, if_neg ho] at h3
          exact .inr ⟨ho, (Option.some.inj h3).symm⟩
  · rintro ⟨h2, h3⟩
    refine ⟨rfl, by rcases h2 with h | h <;> simp [h], ?_⟩
    rw [if_neg (by rintro ⟨a, b⟩; rcases h2 with h | h; exact b h; rw [h.2] at a; simp at a)]
    rcases h3 with ⟨ho, h4⟩ | ⟨ho, h4⟩
    · rw [if_pos ho, if_pos ho, ho, h4]
    · rw [if_neg ho, if_neg ho, h4]

theorem Misp.Live.next {g : Misp} {x : MispS} (hx : g.Live x) {l : Int} (ho : g.out x l ≠ 0) : g.Live ⟨g.out x l, x.n + 1, x.n⟩ where
  ne := ho
  l := by simp
  bits := fun i hi => by
    have := (g.out_bit x l i).1 hi
    have := hx.bits i this.1
    dsimp only
    omega

theorem Misp.eqs_stt : g.mdl.eqs g.mdl.stt = true := by simp [Misp.mdl]

/-- Deciding against every remaining vertex completes any state at cost 0. -/
theorem Misp.zeros {x : MispS} (hx : g.Live x) : ∃ j, Path g.mdl x (List.replicate j 0) 0 g.mdl.stt := by
  generalize hk : g.top - x.n = k
  induction k generalizing x with
  | zero => have := hx.lt; omega
  | succ k ih =>
    have hc : g.mdl.stc x 0 = 0 := by simp [Misp.mdl]
    by_cases ho : g.out x 0 = 0
    · have := Path.cons ((g.step_iff hx (l := 0)).2 ⟨.inl rfl, .inl ⟨ho, rfl⟩⟩) (Path.nil _)
      rw [hc] at this
      exact ⟨1, this⟩
    · obtain ⟨j, hj⟩ := ih (hx.next ho) (by dsimp only; omega)
      have := Path.cons ((g.step_iff hx (l := 0)).2 ⟨.inl rfl, .inr ⟨ho, rfl⟩⟩) hj
      rw [hc] at this
      exact ⟨j + 1, this⟩

/-- More selectable vertices allow the same completions, extended by zeros. -/
theorem Misp.mono : ∀ {x z : MispS} {ls : List Int} {c : Int}, Path g.mdl x ls c z → z = g.mdl.stt → g.Live x → ∀ y, g.Live y → y.n = x.n →
    (∀ i, x.sel.testBit i = true → y.sel.testBit i = true) → ∃ j, Path g.mdl y (ls ++ List.replicate j 0) c g.mdl.stt := by
  intro x z ls c h
  induction h with
  | nil s => intro hz hx; exact absurd (by rw [hz]; rfl) hx.ne
  | @cons x x' z l ls c hst hp ih =>
    intro hz hx y hy hn hs
    obtain ⟨h1, h2⟩ := (g.step_iff hx).1 hst
    have hc : g.mdl.stc x l = g.mdl.stc y l := by simp [Misp.mdl, hn]
    have h1' : l = 0 ∨ l = 1 ∧ y.sel.testBit y.n = true := h1.imp id (fun ⟨a, b⟩ => ⟨a, by rw [hn]; exact hs _ b⟩)
    have hsub : ∀ i, (g.out x l).testBit i = true → (g.out y l).testBit i = true := by
      intro i hi
      rw [g.out_bit] at hi ⊢
      rw [hn]
      exact ⟨hs i hi.1, hi.2⟩
    rw [hc]
    rcases h2 with ⟨ho, rfl⟩ | ⟨ho, rfl⟩
    · obtain ⟨e1, e2, _⟩ := hp.of_terminal g.eqs_stt
      subst e1; subst e2
      by_cases ho' : g.out y l = 0
      · exact ⟨0, Path.cons ((g.step_iff hy).2 ⟨h1', .inl ⟨ho', rfl⟩⟩) (Path.nil _)⟩
      · obtain ⟨j, hj⟩ := g.zeros (hy.next ho')
        exact ⟨j, Path.cons ((g.step_iff hy).2 ⟨h1', .inr ⟨ho', rfl⟩⟩) hj⟩
    · have ho' : g.out y l ≠ 0 := by
        obtain ⟨i, hi⟩ := Nat.exists_testBit_of_ne_zero ho
        intro hh
        have := hsub i hi
        rw [hh] at this; simp at this
      obtain ⟨j, hj⟩ := ih hz (hx.next ho) ⟨g.out y l, y.n + 1, y.n⟩ (hy.next ho') (by dsimp only; omega) hsub
      exact ⟨j, Path.cons ((g.step_iff hy).2 ⟨h1', .inr ⟨ho', rfl⟩⟩) hj⟩

theorem Misp.merge_eq {a b c : MispS} (hm : g.mdl.smf a b = some c) : a.l = b.l ∧ c = ⟨a.sel ||| b.sel, min a.n b.n, a.l⟩ := by
  have hs : g.mdl.smf a b = if a.l = b.l then some ⟨a.sel ||| b.sel, min a.n b.n, a.l⟩ else none := rfl
  rw [hs] at hm
  split at hm
  · rename_i h; exact ⟨h, (Option.some.inj hm).symm⟩
  · simp at hm

theorem Misp.Live.merge {g : Misp} {a b c : MispS} (ha : g.Live a) (hb : g.Live b) (hm : g.mdl.smf a b = some c) : g.Live c ∧ c.n = a.n ∧ c.n = b.n := by
  obtain ⟨h1, rfl⟩ := g.merge_eq hm
  have := ha.l
  have := hb.l
  have hn : a.n = b.n := by omega
  refine ⟨⟨?_, ?_, ?_⟩, ?_, ?_⟩
  · intro hh
    obtain ⟨i, hi⟩ := Nat.exists_testBit_of_ne_zero ha.ne
    have : (a.sel ||| b.sel).testBit i = true := by rw [Nat.testBit_or, hi]; rfl
    dsimp only at hh
    rw [hh] at this
    simp at this
  · dsimp only; omega
  · intro i hi
    dsimp only at hi ⊢
    rw [Nat.testBit_or, Bool.or_eq_true] at hi
    rcases hi with hi | hi
    · have := ha.bits i hi; omega
    · have := hb.bits i hi; omega
  · dsimp only; omega
  · dsimp only; omega

/-- C61: the union merge is a valid relaxation: a merged state keeps every completion of both states at
the same weight, up to trailing zeros. -/
theorem misp_merge_valid {a b c : MispS} (ha : g.Live a) (hb : g.Live b) (hm : g.mdl.smf a b = some c) {ls : List Int} {v : Int}
    (h : Path g.mdl a ls v g.mdl.stt ∨ Path g.mdl b ls v g.mdl.stt) : ∃ j, Path g.mdl c (ls ++ List.replicate j 0) v g.mdl.stt := by
  obtain ⟨h1, h2, h3⟩ := ha.merge hb hm
  obtain ⟨_, hc⟩ := g.merge_eq hm
  rcases h with h | h
  · exact g.mono h rfl ha c h1 h2 (fun i hi => by rw [hc]; dsimp only; rw [Nat.testBit_or, hi]; rfl)
  · exact g.mono h rfl hb c h1 h3 (fun i hi => by rw [hc]; dsimp only; rw [Nat.testBit_or, hi]; simp)

/-! ### The local bound -/

/-- Sum of the weights of the members of a mask below `k`. -/
def Misp.sumB (g : Misp) (s : Nat) : Nat → Int
  | 0 => 0
  | k + 1 => g.sumB s k + if s.testBit k then g.w k else 0

theorem Misp.sum_eq (s : Nat) : g.sum s = g.sumB s g.top := by
  have : ∀ k, (((List.range k).filter (fun i => s.testBit i)).map g.w).sum = g.sumB s k := by
    intro k
    induction k with
    | zero => rfl
    | succ k ih =>
      rw [List.range_succ, List.filter_append, List.map_append, List.sum_append, ih, Misp.sumB]
      cases h : s.testBit k <;> simp [h]
  exact this g.top

theorem Misp.sumB_mono (hw : ∀ i, 0 ≤ g.w i) {s s' : Nat} (h : ∀ i, s.testBit i = true → s'.testBit i = true) (k : Nat) : g.sumB s k ≤ g.sumB s' k := by
  induction k with
  | zero => exact Int.le_refl _
  | succ k ih =>
    simp only [Misp.sumB]
    have := hw k
    cases h1 : s.testBit k with
    | true => rw [h k h1]; simp; omega
    | false => cases s'.testBit k <;> simp <;> omega

theorem Misp.sumB_remove (hw : ∀ i, 0 ≤ g.w i) {s s' n : Nat} (h : ∀ i, s.testBit i = true → s'.testBit i = true ∧ i ≠ n) (hn : s'.testBit n = true) :
    ∀ k, n < k → g.sumB s k + g.w n ≤ g.sumB s' k := by
  intro k hk
  induction k with
  | zero => omega
  | succ k ih =>
    simp only [Misp.sumB]
    have := hw k
    by_cases hnk : n = k
    · subst hnk
      have h1 : s.testBit n = false := by
        cases h1 : s.testBit n with
        | false => rfl
        | true => exact absurd rfl (h n h1).2
      have := g.sumB_mono hw (fun i hi => (h i hi).1) n
      rw [h1, hn]; simp; omega
    · have := ih (by omega)
      cases h1 : s.testBit k with
      | true => rw [(h k h1).1]; simp; omega
      | false => cases s'.testBit k <;> simp <;> omega

/-- C61: the local bound (sum of the weights of the selectable vertices) is at least the weight of every
completion. -/
theorem misp_local (hw : ∀ i, 0 ≤ g.w i) {x z : MispS} {ls : List Int} {c : Int} (h : Path g.mdl x ls c z) : z = g.mdl.stt → (g.Live x ∨ x = g.mdl.stt) →
    c ≤ g.sum x.sel := by
  induction h with
  | nil s =>
    intro hz _
    rw [g.sum_eq, hz]
    have : ∀ k, g.sumB 0 k = 0 := by
      intro k
      induction k with
      | zero => rfl
      | succ k ih => simp [Misp.sumB, ih]
    have := this g.top
    simp only [Misp.mdl]; omega
  | @cons x x' z l ls c hst hp ih =>
    intro hz hx
    have hx : g.Live x := hx.resolve_right (fun h => by have := hst.1; rw [h, g.eqs_stt] at this; simp at this)
    obtain ⟨h1, h2⟩ := (g.step_iff hx).1 hst
    have hi : c ≤ g.sum (g.out x l) := by
      rcases h2 with ⟨ho, rfl⟩ | ⟨ho, rfl⟩
      · have := ih hz (.inr rfl); rw [ho]; exact this
      · exact ih hz (.inl (hx.next ho))
    rw [g.sum_eq] at hi ⊢
    have hc : g.mdl.stc x l = l * g.w x.n := rfl
    rw [hc]
    rcases h1 with rfl | ⟨rfl, hb⟩
    · have := g.sumB_mono hw (s := g.out x 0) (s' := x.sel) (fun i hi => ((g.out_bit x 0 i).1 hi).1) g.top
      omega
    · have := g.sumB_remove hw (s := g.out x 1) (s' := x.sel) (n := x.n)
        (fun i hi => ⟨((g.out_bit x 1 i).1 hi).1, ((g.out_bit x 1 i).1 hi).2.1⟩) hb g.top hx.lt
      omega

/-! ### Engine hypotheses -/

theorem Misp.relx (hw : ∀ i, 0 ≤ g.w i) {s0 x : MispS} {v0 v : Int} (h0 : g.Live s0) (h : Relx g.mdl g.rank s0 v0 x v) :
    (g.Live x ∨ x = g.mdl.stt) ∧ v0 ≤ v := by
  have live : ∀ {x : MispS}, (g.Live x ∨ x = g.mdl.stt) → g.mdl.eqs x = false → g.Live x := by
    intro x hx hh
    exact hx.resolve_right (fun h => by rw [h, g.eqs_stt] at hh; simp at hh)
  induction h with
  | swap _ _ hsw _ ihsw => obtain rfl := (same_iff _ _).1 hsw; exact ihsw
  | root => exact ⟨.inl h0, Int.le_refl _⟩
  | @step x x' l v _ hst ih =>
    have hx := live ih.1 hst.1
    obtain ⟨h1, h2⟩ := (g.step_iff hx).1 hst
    refine ⟨?_, ?_⟩
    · rcases h2 with ⟨ho, rfl⟩ | ⟨ho, rfl⟩
      · exact .inr rfl
      · exact .inl (hx.next ho)
    · have hc : g.mdl.stc x l = l * g.w x.n := rfl
      rw [hc]
      have := hw x.n
      have := ih.2
      rcases h1 with rfl | ⟨rfl, _⟩ <;> omega
  | mergeL _ _ ha hb hr hm ih1 ih2 => exact ⟨.inl ((live ih1.1 ha).merge (live ih2.1 hb) hm).1, ih1.2⟩
  | mergeR _ _ ha hb hr hm ih1 ih2 => exact ⟨.inl ((live ih1.1 ha).merge (live ih2.1 hb) hm).1, ih2.2⟩

/-- C61: the model meets the engine's hypotheses, from every live state. -/
theorem Misp.layered (hw : ∀ i, 0 ≤ g.w i) {s0 : MispS} {v0 : Int} (h0 : g.Live s0) (hv0 : -2147483647 < v0) : Layered g.mdl g.rank s0 v0 where
  sink := g.eqs_stt
  src := by simp [Misp.mdl, h0.ne]
  range := fun x v h => by
    have := (g.relx hw h0 h).2
    simp [Misp.mdl, Sense.better, Sense.best0]; omega
  step := fun x v l x' h hst => by
    have hx := (g.relx hw h0 h).1.resolve_right (fun h => by have := hst.1; rw [h, g.eqs_stt] at this; simp at this)
    rcases ((g.step_iff hx).1 hst).2 with ⟨ho, rfl⟩ | ⟨ho, rfl⟩
    · exact .inl g.eqs_stt
    · exact .inr rfl
  merge := fun a b c va vb ra rb ha hb hr hm => by
    have la := (g.relx hw h0 ra).1.resolve_right (fun h => by rw [h, g.eqs_stt] at ha; simp at ha)
    have lb := (g.relx hw h0 rb).1.resolve_right (fun h => by rw [h, g.eqs_stt] at hb; simp at hb)
    obtain ⟨h1, h2, h3⟩ := la.merge lb hm
    refine ⟨by simp [Misp.mdl, h1.ne], h2, ?_, ?_⟩
    · rintro v ⟨ls, hp⟩
      obtain ⟨j, hj⟩ := misp_merge_valid g la lb hm (.inl hp)
      exact ⟨v, ⟨_, hj⟩, by rw [Sense.betterEQ_iff]; omega⟩
    · rintro v ⟨ls, hp⟩
      obtain ⟨j, hj⟩ := misp_merge_valid g la lb hm (.inr hp)
      exact ⟨v, ⟨_, hj⟩, by rw [Sense.betterEQ_iff]; omega⟩
  local_ := fun f hf x v ctx c hr hv => by
    obtain ⟨ls, hp⟩ := hv
    have := misp_local g hw hp rfl (g.relx hw h0 hr).1
    simp [Misp.mdl] at hf
    subst hf
    simp [Misp.mdl, Sense.betterEQ]
    exact this
  dom := fun f hf => by simp [Misp.mdl] at hf

theorem Misp.live0 (ht : 0 < g.top) : g.Live g.mdl.sti where
  ne := by
    show 2 ^ g.top - 1 ≠ 0
    have := Nat.one_lt_two_pow (n := g.top) (by omega)
    omega
  l := rfl
  bits := fun i hi => by
    have hi' : (2 ^ g.top - 1).testBit i = true := hi
    rw [Nat.testBit_two_pow_sub_one] at hi'
    exact ⟨Nat.zero_le _, by simpa using hi'⟩

/-! ### What the solutions are -/

/-- Weight of the vertices chosen by labels from vertex `n` on. -/
def Misp.wt (g : Misp) : Nat → List Int → Int
  | _, [] => 0
  | n, l :: ls => l * g.w n + g.wt (n + 1) ls

/-- Labels are 0 or 1, one per vertex at most, and no two different chosen vertices are joined by an edge. -/
def Misp.Ind (g : Misp) (ls : List Int) : Prop :=
  ls.length ≤ g.top ∧ (∀ l, l ∈ ls → l = 0 ∨ l = 1) ∧
    ∀ i j, i ≠ j → ls.getD i 0 = 1 → ls.getD j 0 = 1 → (i, j) ∉ g.edges

theorem Misp.path_ind : ∀ {x z : MispS} {ls : List Int} {c : Int}, Path g.mdl x ls c z → z = g.mdl.stt → g.Live x →
    x.n + ls.length ≤ g.top ∧ (∀ l, l ∈ ls → l = 0 ∨ l = 1) ∧ (∀ i, ls.getD i 0 = 1 → x.sel.testBit (x.n + i) = true) ∧
    (∀ i j, i ≠ j → ls.getD i 0 = 1 → ls.getD j 0 = 1 → (g.nb (x.n + i)).testBit (x.n + j) = false) ∧ c = g.wt x.n ls := by
  intro x z ls c h
  induction h with
  | nil s => intro hz hx; exact absurd (by rw [hz]; rfl) hx.ne
  | @cons x x' z l ls c hst hp ih =>
    intro hz hx
    obtain ⟨h1, h2⟩ := (g.step_iff hx).1 hst
    have hlt := hx.lt
    have hc : g.mdl.stc x l = l * g.w x.n := rfl
    rw [hc]
    have key : x.n + 1 + ls.length ≤ g.top ∧ (∀ l, l ∈ ls → l = 0 ∨ l = 1) ∧ (∀ i, ls.getD i 0 = 1 → (g.out x l).testBit (x.n + 1 + i) = true) ∧
        (∀ i j, i ≠ j → ls.getD i 0 = 1 → ls.getD j 0 = 1 → (g.nb (x.n + 1 + i)).testBit (x.n + 1 + j) = false) ∧ c = g.wt (x.n + 1) ls := by
      rcases h2 with ⟨ho, rfl⟩ | ⟨ho, rfl⟩
      · obtain ⟨e1, e2, _⟩ := hp.of_terminal g.eqs_stt
        subst e1; subst e2
        exact ⟨by simp; omega, by simp, by simp, by simp, rfl⟩
      · exact ih hz (hx.next ho)
    obtain ⟨k1, k2, k3, k4, k5⟩ := key
    have hl1 : l = 1 → ∀ i, ls.getD i 0 = 1 → (g.nb x.n).testBit (x.n + 1 + i) = false := fun hl i hi =>
      ((g.out_bit x l _).1 (k3 i hi)).2.2 (by omega)
    refine ⟨by simp; omega, ?_, ?_, ?_, by rw [k5]; rfl⟩
    · intro l' hl'
      rcases List.mem_cons.1 hl' with rfl | hl'
      · exact h1.imp id And.left
      · exact k2 l' hl'
    · intro i hi
      cases i with
      | zero =>
        simp at hi
        rcases h1 with h | ⟨_, h⟩
        · omega
        · exact h
      | succ i =>
        simp only [List.getD_cons_succ] at hi
        have := ((g.out_bit x l _).1 (k3 i hi)).1
        rwa [Nat.add_assoc, Nat.add_comm 1] at this
    · intro i j hij hi hj
      cases i with
      | zero =>
        cases j with
        | zero => exact absurd rfl hij
        | succ j =>
          simp only [List.getD_cons_succ, List.getD_cons_zero] at hi hj
          have := hl1 hi j hj
          rwa [Nat.add_assoc, Nat.add_comm 1] at this
      | succ i =>
        cases j with
        | zero =>
          simp only [List.getD_cons_succ, List.getD_cons_zero] at hi hj
          have := hl1 hj i hi
          rw [Nat.add_assoc, Nat.add_comm 1] at this
          rw [g.nb_symm]; exact this
        | succ j =>
          simp only [List.getD_cons_succ] at hi hj
          have := k4 i j (by omega) hi hj
          rwa [Nat.add_assoc, Nat.add_comm 1, Nat.add_assoc, Nat.add_comm 1] at this

theorem Misp.ind_path : ∀ (ls : List Int) (x : MispS), g.Live x → x.n + ls.length = g.top → (∀ l, l ∈ ls → l = 0 ∨ l = 1) →
    (∀ i, ls.getD i 0 = 1 → x.sel.testBit (x.n + i) = true) →
    (∀ i j, i ≠ j → ls.getD i 0 = 1 → ls.getD j 0 = 1 → (g.nb (x.n + i)).testBit (x.n + j) = false) →
    ∃ k, Path g.mdl x (ls.take k) (g.wt x.n ls) g.mdl.stt ∧ ∀ l, l ∈ ls.drop k → l = 0 := by
  intro ls
  induction ls with
  | nil => intro x hx hl; have := hx.lt; simp at hl; omega
  | cons l ls ih =>
    intro x hx hlen h01 hsel hadj
    have h1 : l = 0 ∨ l = 1 ∧ x.sel.testBit x.n = true := by
      rcases h01 l List.mem_cons_self with h | h
      · exact .inl h
      · exact .inr ⟨h, hsel 0 (by simpa using h)⟩
    have hout : ∀ i, ls.getD i 0 = 1 → (g.out x l).testBit (x.n + 1 + i) = true := by
      intro i hi
      rw [g.out_bit]
      have e : x.n + 1 + i = x.n + (i + 1) := by omega
      refine ⟨by rw [e]; exact hsel (i + 1) (by simpa using hi), by omega, fun hl => ?_⟩
      rw [e]
      rcases h1 with h | ⟨h, _⟩
      · exact absurd h hl
      · exact hadj 0 (i + 1) (by omega) (by simpa using h) (by simpa using hi)
    by_cases ho : g.out x l = 0
    · have hz : ∀ l', l' ∈ ls → l' = 0 := by
        intro l' hl'
        rcases h01 l' (List.mem_cons_of_mem _ hl') with h | h
        · exact h
        · obtain ⟨i, hi, he⟩ := List.getElem_of_mem hl'
          have := hout i (by rw [List.getD_eq_getElem?_getD, List.getElem?_eq_getElem hi]; simp [he, h])
          rw [ho] at this; simp at this
      have hw0 : ∀ (ls : List Int) n, (∀ l', l' ∈ ls → l' = 0) → g.wt n ls = 0 := by
        intro ls
        induction ls with
        | nil => intro n _; rfl
        | cons a ls ih =>
          intro n h
          simp only [Misp.wt]
          rw [ih (n + 1) (fun l' hl' => h l' (List.mem_cons_of_mem _ hl')), h a List.mem_cons_self]; simp
      refine ⟨1, ?_, by simpa using hz⟩
      have := Path.cons ((g.step_iff hx).2 ⟨h1, .inl ⟨ho, rfl⟩⟩) (Path.nil _)
      simp only [Misp.wt, hw0 ls _ hz, List.take_succ_cons, List.take_zero]
      exact this
    · obtain ⟨k, hk, hk'⟩ := ih ⟨g.out x l, x.n + 1, x.n⟩ (hx.next ho) (by simp at hlen; dsimp only; omega)
        (fun l' hl' => h01 l' (List.mem_cons_of_mem _ hl')) hout (fun i j hij hi hj => by
          have := hadj (i + 1) (j + 1) (by omega) (by simpa using hi) (by simpa using hj)
          dsimp only
          rwa [Nat.add_assoc, Nat.add_comm 1, Nat.add_assoc, Nat.add_comm 1])
      refine ⟨k + 1, ?_, by simpa using hk'⟩
      have := Path.cons ((g.step_iff hx).2 ⟨h1, .inr ⟨ho, rfl⟩⟩) hk
      simp only [List.take_succ_cons, Misp.wt]
      exact this

/-- Every solution of the model is an independent set with its weight. -/
theorem Misp.sol_ind (ht : 0 < g.top) {ls : List Int} {c : Int} (h : Sol g.mdl ls c) : g.Ind ls ∧ c = g.wt 0 ls := by
  obtain ⟨h1, h2, _, h4, h5⟩ := g.path_ind h rfl (g.live0 ht)
  have hn : g.mdl.sti.n = 0 := rfl
  rw [hn] at h1 h4 h5
  refine ⟨⟨by omega, h2, fun i j hij hi hj he => ?_⟩, h5⟩
  have := h4 i j hij hi hj
  rw [Nat.zero_add, Nat.zero_add] at this
  rw [(g.nb_bit i j).2 (.inl he)] at this
  simp at this

/-- Every independent set is a solution of the model, up to trailing zeros. -/
theorem Misp.ind_sol (ht : 0 < g.top) {ls : List Int} (hl : ls.length = g.top) (h : g.Ind ls) :
    ∃ k, Sol g.mdl (ls.take k) (g.wt 0 ls) ∧ ∀ l, l ∈ ls.drop k → l = 0 := by
  have hn : g.mdl.sti.n = 0 := rfl
  have := g.ind_path ls g.mdl.sti (g.live0 ht) (by rw [hn]; omega) h.2.1 (fun i hi => by
    rw [hn, Nat.zero_add]
    show (2 ^ g.top - 1).testBit i = true
    rw [Nat.testBit_two_pow_sub_one, decide_eq_true_iff, ← hl]
    by_cases hlt : i < ls.length
    · exact hlt
    · rw [List.getD_eq_getElem?_getD, List.getElem?_eq_none (by omega)] at hi; simp at hi) (fun i j hij hi hj => by
    rw [hn, Nat.zero_add, Nat.zero_add]
    cases hb : (g.nb i).testBit j with
    | false => rfl
    | true =>
      rcases (g.nb_bit i j).1 hb with he | he
      · exact absurd he (h.2.2 i j hij hi hj)
      · exact absurd he (h.2.2 j i (Ne.symm hij) hj hi))
  rwa [hn] at this

/-- C61 with the engine: whatever the width, the relaxed diagram is at least the weight of every independent
set (heavier than the primal bound). -/
theorem misp_dual (hw : ∀ i, 0 ≤ g.w i) (ht : 0 < g.top) {prim : Int} {w f : Nat} {d : G MispS} (h : relaxed g.mdl prim w f g.mdl.src0 = some d)
    {ls : List Int} (hl : ls.length = g.top) (hi : g.Ind ls) (hp : prim < g.wt 0 ls) : g.wt 0 ls ≤ d.bound d.trg := by
  obtain ⟨k, hk, _⟩ := g.ind_sol ht hl hi
  have := relaxed_dual (g.layered hw (g.live0 ht) (v0 := 0) (by omega)) h hk (by simp [Mdl.src0, Misp.mdl, Sense.better]; omega)
  simp [Mdl.src0, Misp.mdl, Sense.betterEQ] at this
  omega

/-- The 5-cycle with weights. -/
def c5 : Misp := ⟨5, [(0, 1), (1, 2), (2, 3), (3, 4), (4, 0)], fun i => [3, 4, 2, 2, 7].getD i 0⟩

theorem c5_w : ∀ i, 0 ≤ c5.w i := by
  intro i
  match i with
  | 0 | 1 | 2 | 3 | 4 => decide
  | i + 5 => simp [c5]

/-- A relaxed diagram that merges: 12 is above the heaviest independent set, vertices 1 and 4. -/
example : ∃ d, relaxed c5.mdl (-2147483647) 2 10 c5.mdl.src0 = some d ∧ d.exact = false ∧ d.bound d.trg = 12 ∧
    c5.Ind [0, 1, 0, 0, 1] ∧ c5.wt 0 [0, 1, 0, 0, 1] = 11 ∧ c5.wt 0 [0, 1, 0, 0, 1] ≤ d.bound d.trg := by
  have hv : (relaxed c5.mdl (-2147483647) 2 10 c5.mdl.src0).map (fun g => (g.exact, g.bound g.trg)) = some (false, 12) := by
    decide +kernel
  simp only [Option.map_eq_some_iff] at hv
  obtain ⟨g, h1, h2⟩ := hv
  simp at h2
  have hi : c5.Ind [0, 1, 0, 0, 1] := by
    refine ⟨by decide, by decide, fun i j hij hi hj => ?_⟩
    have hb : ∀ i, ([0, 1, 0, 0, 1] : List Int).getD i 0 = 1 → i = 1 ∨ i = 4 := by
      intro i hi
      match i with
      | 0 | 2 | 3 => simp at hi
      | 1 => exact .inl rfl
      | 4 => exact .inr rfl
      | i + 5 => simp at hi
    rcases hb i hi with rfl | rfl <;> rcases hb j hj with rfl | rfl <;> first | exact absurd rfl hij | decide
  exact ⟨g, h1, h2.1, h2.2, hi, by decide, misp_dual c5 c5_w (by decide) h1 (by decide) hi (by decide)⟩

/-- The local bound at the root of the cycle, and a merge. -/
example : c5.sum c5.mdl.sti.sel = 18 ∧ c5.mdl.smf ⟨12, 1, 0⟩ ⟨30, 1, 0⟩ = some ⟨30, 1, 0⟩ ∧ c5.Live ⟨12, 1, 0⟩ := by
  refine ⟨by decide, by decide, ⟨by decide, by decide, fun i hi => ?_⟩⟩
  match i with
  | 0 => simp at hi
  | 1 | 2 | 3 | 4 => exact ⟨by decide, by decide⟩
  | i + 5 =>
    rw [Nat.testBit_lt_two_pow (show 12 < 2 ^ (i + 5) by
      have := Nat.pow_le_pow_right (n := 2) (by decide) (show 5 ≤ i + 5 by omega); omega)] at hi
    simp at hi

/-! ### C73: the checker of the example -/

theorem Misp.chkSum_some {inc : List Int} : ∀ {k : Nat}, k ≤ inc.length → ∃ t, g.chkSum inc k = some t ∧ t + g.wt k (inc.drop k) = g.wt 0 inc := by
  intro k
  induction k with
  | zero => intro _; exact ⟨0, rfl, by simp⟩
  | succ k ih =>
    intro hk
    obtain ⟨t, h1, h2⟩ := ih (by omega)
    refine ⟨t + inc[k] * g.w k, by simp [Misp.chkSum, h1, List.getElem?_eq_getElem (show k < inc.length by omega)], ?_⟩
    rw [List.drop_eq_getElem_cons (show k < inc.length by omega)] at h2
    simp only [Misp.wt] at h2
    omega

/-- C73, what holds: on a solution with a label for every vertex the checker's total is its weight. -/
theorem checker_partial (ht : 0 < g.top) {inc : List Int} {c : Int} (h : Sol g.mdl inc c) (hl : inc.length = g.top) : g.chkSum inc g.top = some c := by
  obtain ⟨t, h1, h2⟩ := g.chkSum_some (k := g.top) (inc := inc) (by omega)
  rw [h1, (g.sol_ind ht h).2, ← h2, ← hl, List.drop_length]
  simp [Misp.wt]

/-- It reads past the end of every shorter solution. -/
theorem checker_oob {inc : List Int} (h : inc.length < g.top) : g.chkSum inc g.top = none := by
  have key : ∀ k, inc.length < k → g.chkSum inc k = none := by
    intro k
    induction k with
    | zero => intro h; omega
    | succ k ih =>
      intro h
      by_cases hk : inc.length < k
      · simp [Misp.chkSum, ih hk]
      · simp only [Misp.chkSum, List.getElem?_eq_none (show inc.length ≤ k by omega)]
        cases g.chkSum inc k <;> rfl
  exact key g.top h

/-- Two joined vertices. -/
def k2 : Misp := ⟨2, [(0, 1)], fun _ => 1⟩

/-- C73 is false: on one edge the restricted diagram hands the checker the labels [1]; the checker reads
a second. -/
theorem checker_false : ∃ d, restricted k2.mdl (-2147483647) 64 10 k2.mdl.src0 = some d ∧ d.exact = true ∧ d.lab d.trg = [1] ∧
    Sol k2.mdl [1] 1 ∧ k2.chkSum (d.lab d.trg) k2.top = none := by
  have hv : (restricted k2.mdl (-2147483647) 64 10 k2.mdl.src0).map (fun g => (g.exact, g.lab g.trg)) = some (true, [1]) := by
    decide +kernel
  simp only [Option.map_eq_some_iff] at hv
  obtain ⟨g, h1, h2⟩ := hv
  simp at h2
  refine ⟨g, h1, h2.1, h2.2, ?_, by rw [h2.2]; decide⟩
  have hs : Step k2.mdl k2.mdl.sti 1 k2.mdl.stt := ⟨by decide, by decide, by decide⟩
  exact Path.cons hs (Path.nil _)

example : Sol k2.mdl [0, 1] 1 ∧ k2.chkSum [0, 1] 2 = some 1 := by
  have h1 : Step k2.mdl k2.mdl.sti 0 ⟨2, 1, 0⟩ := ⟨by decide, by decide, by decide⟩
  have h2 : Step k2.mdl ⟨2, 1, 0⟩ 1 k2.mdl.stt := ⟨by decide, by decide, by decide⟩
  have h : Sol k2.mdl [0, 1] 1 := Path.cons h1 (Path.cons h2 (Path.nil _))
  exact ⟨h, checker_partial k2 (by decide) h (by decide)⟩

end Verif.Ex
