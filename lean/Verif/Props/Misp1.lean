import Verif.Misp1
import Verif.Props.Misp5
import Verif.Props.BB
import Verif.Props.Wide
/-!
# C83, C84: the first independent-set example
-/
namespace Verif.Ex
open Verif.DD

variable (g : Misp)

theorem below_bit (s k i : Nat) : (below s k).testBit i = true ↔ s.testBit i = true ∧ k ≤ i := by
  unfold below
  rw [mdiff_bit, Nat.testBit_two_pow_sub_one]
  simp

theorem Misp.closed_bit (v i : Nat) : (g.closed v).testBit i = true ↔ i = v ∨ (v, i) ∈ g.edges ∨ (i, v) ∈ g.edges := by
  unfold Misp.closed
  rw [Nat.testBit_or, Bool.or_eq_true, g.nb_bit, Nat.testBit_two_pow, decide_eq_true_iff, Or.comm, eq_comm]

theorem Misp.outV_bit (s v i : Nat) : (g.outV s v).testBit i = true ↔
    s.testBit i = true ∧ v < i ∧ (v, i) ∉ g.edges ∧ (i, v) ∉ g.edges := by
  unfold Misp.outV
  rw [below_bit, mdiff_bit, Bool.and_eq_true, Bool.not_eq_true', ← Bool.not_eq_true, g.closed_bit]
  constructor
  · rintro ⟨⟨h1, h2⟩, h3⟩
    exact ⟨h1, by omega, fun h => h2 (.inr (.inl h)), fun h => h2 (.inr (.inr h))⟩
  · rintro ⟨h1, h2, h3, h4⟩
    exact ⟨⟨h1, fun h => h.elim (fun h => by omega) (fun h => h.elim h3 h4)⟩, by omega⟩

/-- A non-terminal state: the selectable vertices come after the last one taken, at least one is left. -/
structure Misp.Live1 (g : Misp) (x : MispS) : Prop where
  ne : x.sel ≠ 0
  l : -1 ≤ x.l
  n : (x.n : Int) ≤ x.l + 1
  bits : ∀ i : Nat, x.sel.testBit i = true → x.l < i ∧ i < g.top

theorem Misp.eqs_stt1 : g.mdl1.eqs g.mdl1.stt = true := by simp [Misp.mdl1]

theorem Misp.step1_iff {x x' : MispS} {l : Int} (hx : g.Live1 x) : Step g.mdl1 x l x' ↔
    ∃ v : Nat, l = v ∧ v < g.top ∧ x.sel.testBit v = true ∧
      (g.outV x.sel v = 0 ∧ x' = g.mdl1.stt ∨ g.outV x.sel v ≠ 0 ∧ x' = ⟨g.outV x.sel v, x.n + 1, v⟩) := by
  have h1 : g.mdl1.eqs x = false := by simp [Misp.mdl1, hx.ne]
  have hrv : ∀ i, (below x.sel (x.l + 1).toNat).testBit i = x.sel.testBit i := by
    intro i
    rw [Bool.eq_iff_iff, below_bit]
    exact ⟨And.left, fun h => ⟨h, by have := (hx.bits i h).1; have := hx.l; omega⟩⟩
  have hne : below x.sel (x.l + 1).toNat ≠ 0 := by
    obtain ⟨i, hi⟩ := Nat.exists_testBit_of_ne_zero hx.ne
    intro h
    rw [← hrv, h] at hi
    simp at hi
  have hl : ∀ l, l ∈ g.mdl1.lgf x ↔ ∃ v : Nat, l = v ∧ v < g.top ∧ x.sel.testBit v = true := by
    intro l
    simp only [Misp.mdl1, if_neg hne, hrv, List.mem_map, List.mem_filter, List.mem_range]
    constructor
    · rintro ⟨v, ⟨h1, h2⟩, rfl⟩; exact ⟨v, rfl, h1, h2⟩
    · rintro ⟨v, rfl, h1, h2⟩; exact ⟨v, ⟨h1, h2⟩, rfl⟩
  have hs : ∀ v : Nat, v < g.top → g.mdl1.stf x v = some ⟨g.outV x.sel v, if g.outV x.sel v = 0 then 0 else x.n + 1,
      if g.outV x.sel v = 0 then 0 else (v : Int)⟩ := by
    intro v hv
    simp only [Misp.mdl1]
    rw [if_neg (by omega), if_neg (by omega), Int.toNat_natCast]
  have ht : g.mdl1.stt = ⟨0, 0, 0⟩ := rfl
  unfold Step
  rw [h1, hl, ht]
  constructor
  · rintro ⟨_, ⟨v, rfl, hv, hb⟩, h3⟩
    refine ⟨v, rfl, hv, hb, ?_⟩
    rw [hs v hv] at h3
    by_cases ho : g.outV x.sel v = 0
    · rw [if_pos ho, if_pos ho, ho] at h3
      exact .inl ⟨ho, (Option.some.inj h3).symm⟩
    · rw [if_neg ho, if_neg ho] at h3
      exact .inr ⟨ho, (Option.some.inj h3).symm⟩
  · rintro ⟨v, rfl, hv, hb, h3⟩
    refine ⟨rfl, ⟨v, rfl, hv, hb⟩, ?_⟩
    rw [hs v hv]
    rcases h3 with ⟨ho, h4⟩ | ⟨ho, h4⟩
    · rw [if_pos ho, if_pos ho, ho, h4]
    · rw [if_neg ho, if_neg ho, h4]

theorem Misp.Live1.next {g : Misp} {x : MispS} (hx : g.Live1 x) {v : Nat} (hb : x.sel.testBit v = true) (ho : g.outV x.sel v ≠ 0) : g.Live1 ⟨g.outV x.sel v, x.n + 1, v⟩ where
  ne := ho
  l := by dsimp only; omega
  n := by
    have := (hx.bits v hb).1
    have := hx.n
    dsimp only
    omega
  bits := fun i hi => by
    have := (g.outV_bit x.sel v i).1 hi
    have := hx.bits i this.1
    dsimp only
    omega

theorem Misp.cost1 (x : MispS) {v : Nat} (hv : v < g.top) : g.mdl1.stc x v = g.w v := by
  simp only [Misp.mdl1]
  rw [if_neg (by omega), Int.toNat_natCast]

/-! ### What the solutions are -/

/-- Total weight of a list of vertices. -/
def Misp.wts (g : Misp) (vs : List Nat) : Int := (vs.map g.w).sum

/-- Distinct vertices in increasing order, no two of them joined by an edge. -/
def Misp.IndV (g : Misp) (vs : List Nat) : Prop :=
  (∀ v, v ∈ vs → v < g.top) ∧ vs.Pairwise fun a b => a < b ∧ (a, b) ∉ g.edges ∧ (b, a) ∉ g.edges

/-- No later vertex can be added. -/
def Misp.Ended (g : Misp) (vs : List Nat) : Prop :=
  ∀ u, u < g.top → (∀ v, v ∈ vs → v < u ∧ (v, u) ∉ g.edges ∧ (u, v) ∉ g.edges) → False

theorem Misp.path1_iff : ∀ (ls : List Int) (x : MispS) (c : Int), g.Live1 x → (Path g.mdl1 x ls c g.mdl1.stt ↔
    ∃ vs : List Nat, ls = vs.map (fun v : Nat => (v : Int)) ∧ vs ≠ [] ∧ (∀ v, v ∈ vs → x.sel.testBit v = true) ∧ g.IndV vs ∧
      (∀ u, x.sel.testBit u = true → (∀ v, v ∈ vs → v < u ∧ (v, u) ∉ g.edges ∧ (u, v) ∉ g.edges) → False) ∧ c = g.wts vs) := by
  intro ls
  induction ls with
  | nil =>
    intro x c hx
    constructor
    · intro h
      cases h
      exact absurd rfl hx.ne
    · rintro ⟨vs, h1, h2, _⟩
      cases vs with
      | nil => exact absurd rfl h2
      | cons => simp at h1
  | cons l ls ih =>
    intro x c hx
    constructor
    · intro h
      cases h with
      | @cons _ x' _ _ _ c hst hp =>
        obtain ⟨v, rfl, hv, hb, h2⟩ := (g.step1_iff hx).1 hst
        rw [g.cost1 x hv]
        have ends : ∀ vs : List Nat, (∀ u, (g.outV x.sel v).testBit u = true → (∀ v, v ∈ vs → v < u ∧ (v, u) ∉ g.edges ∧ (u, v) ∉ g.edges) → False) →
            ∀ u, x.sel.testBit u = true → (∀ w, w ∈ v :: vs → w < u ∧ (w, u) ∉ g.edges ∧ (u, w) ∉ g.edges) → False := by
          intro vs h u hu hw
          exact h u ((g.outV_bit _ _ _).2 ⟨hu, hw v List.mem_cons_self⟩) (fun w hm => hw w (List.mem_cons_of_mem _ hm))
        rcases h2 with ⟨ho, rfl⟩ | ⟨ho, rfl⟩
        · obtain ⟨e1, e2, _⟩ := hp.of_terminal g.eqs_stt1
          subst e1; subst e2
          exact ⟨[v], rfl, by simp, by simpa using hb, ⟨by simpa using hv, by simp⟩,
            ends [] (fun u hu => by rw [ho] at hu; simp at hu), by simp [Misp.wts]⟩
        · obtain ⟨vs, h1, h2, h3, h4, h5, h6⟩ := (ih _ _ (hx.next hb ho)).1 hp
          dsimp only at h3 h5
          refine ⟨v :: vs, by rw [h1]; rfl, by simp, ?_, ⟨?_, ?_⟩, ends vs h5, by rw [h6]; simp [Misp.wts]⟩
          · intro u hu
            rcases List.mem_cons.1 hu with rfl | hu
            · exact hb
            · exact ((g.outV_bit _ _ _).1 (h3 u hu)).1
          · intro u hu
            rcases List.mem_cons.1 hu with rfl | hu
            · exact hv
            · exact h4.1 u hu
          · exact List.pairwise_cons.2 ⟨fun u hu => ((g.outV_bit _ _ _).1 (h3 u hu)).2, h4.2⟩
    · rintro ⟨vs, h1, h2, h3, h4, h5, h6⟩
      cases vs with
      | nil => exact absurd rfl h2
      | cons v vs =>
        simp only [List.map_cons, List.cons.injEq] at h1
        obtain ⟨rfl, rfl⟩ := h1
        have hv := h4.1 v List.mem_cons_self
        have hb := h3 v List.mem_cons_self
        have hpw := List.pairwise_cons.1 h4.2
        have hc : c = g.mdl1.stc x v + g.wts vs := by rw [g.cost1 x hv, h6]; simp [Misp.wts]
        rw [hc]
        have hm : ∀ u, u ∈ vs → (g.outV x.sel v).testBit u = true := fun u hu =>
          (g.outV_bit _ _ _).2 ⟨h3 u (List.mem_cons_of_mem _ hu), hpw.1 u hu⟩
        by_cases ho : g.outV x.sel v = 0
        · have : vs = [] := by
            cases vs with
            | nil => rfl
            | cons u vs => have := hm u List.mem_cons_self; rw [ho] at this; simp at this
          subst this
          exact Path.cons ((g.step1_iff hx).2 ⟨v, rfl, hv, hb, .inl ⟨ho, rfl⟩⟩) (Path.nil _)
        · refine Path.cons ((g.step1_iff hx).2 ⟨v, rfl, hv, hb, .inr ⟨ho, rfl⟩⟩) ((ih _ _ (hx.next hb ho)).2 ⟨vs, rfl, ?_, hm, ?_, ?_, rfl⟩)
          · rintro rfl
            obtain ⟨i, hi⟩ := Nat.exists_testBit_of_ne_zero ho
            have := (g.outV_bit _ _ _).1 hi
            exact h5 i this.1 (fun w hw => by simp at hw; subst hw; exact this.2)
          · exact ⟨fun u hu => h4.1 u (List.mem_cons_of_mem _ hu), hpw.2⟩
          · intro u hu hw
            have := (g.outV_bit _ _ _).1 hu
            exact h5 u this.1 (fun w hm => by
              rcases List.mem_cons.1 hm with rfl | hm
              · exact this.2
              · exact hw w hm)

theorem Misp.live1 (ht : 0 < g.top) : g.Live1 g.mdl1.sti where
  ne := by
    show 2 ^ g.top - 1 ≠ 0
    have := Nat.one_lt_two_pow (n := g.top) (by omega)
    omega
  l := by simp [Misp.mdl1]
  n := by simp [Misp.mdl1]
  bits := fun i hi => by
    have hi' : (2 ^ g.top - 1).testBit i = true := hi
    rw [Nat.testBit_two_pow_sub_one] at hi'
    exact ⟨by show (-1 : Int) < i; omega, by simpa using hi'⟩

theorem Misp.all_bit (i : Nat) : g.mdl1.sti.sel.testBit i = true ↔ i < g.top := by
  show (2 ^ g.top - 1).testBit i = true ↔ _
  rw [Nat.testBit_two_pow_sub_one, decide_eq_true_iff]

/-- C83: the solutions are the independent sets, listed in increasing order, that no later vertex can join,
and the cost is their weight. -/
theorem misp1_sol (ht : 0 < g.top) (ls : List Int) (c : Int) : Sol g.mdl1 ls c ↔
    ∃ vs : List Nat, ls = vs.map (fun v : Nat => (v : Int)) ∧ g.IndV vs ∧ g.Ended vs ∧ c = g.wts vs := by
  unfold Sol
  rw [g.path1_iff ls _ c (g.live1 ht)]
  constructor
  · rintro ⟨vs, h1, _, _, h4, h5, h6⟩
    exact ⟨vs, h1, h4, fun u hu h => h5 u ((g.all_bit u).2 hu) h, h6⟩
  · rintro ⟨vs, h1, h4, h5, h6⟩
    refine ⟨vs, h1, ?_, fun v hv => (g.all_bit v).2 (h4.1 v hv), h4, fun u hu h => h5 u ((g.all_bit u).1 hu) h, h6⟩
    rintro rfl
    exact h5 0 ht (by simp)

/-- Any state has a completion of non-negative weight. -/
theorem Misp.ends1 (hw : ∀ i, 0 ≤ g.w i) : ∀ (k : Nat) (x : MispS), g.Live1 x → g.top - (x.l + 1).toNat ≤ k → ∃ ls c, Path g.mdl1 x ls c g.mdl1.stt ∧ 0 ≤ c := by
  intro k
  induction k with
  | zero =>
    intro x hx hk
    obtain ⟨i, hi⟩ := Nat.exists_testBit_of_ne_zero hx.ne
    have := hx.bits i hi
    omega
  | succ k ih =>
    intro x hx hk
    obtain ⟨i, hi⟩ := Nat.exists_testBit_of_ne_zero hx.ne
    have hb := hx.bits i hi
    have := hw i
    by_cases ho : g.outV x.sel i = 0
    · have := Path.cons ((g.step1_iff hx).2 ⟨i, rfl, hb.2, hi, .inl ⟨ho, rfl⟩⟩) (Path.nil _)
      rw [g.cost1 x hb.2] at this
      exact ⟨_, _, this, by omega⟩
    · obtain ⟨ls, c, hp, hc⟩ := ih ⟨g.outV x.sel i, x.n + 1, i⟩ (hx.next hi ho) (by dsimp only; have := hx.l; omega)
      have := Path.cons ((g.step1_iff hx).2 ⟨i, rfl, hb.2, hi, .inr ⟨ho, rfl⟩⟩) hp
      rw [g.cost1 x hb.2] at this
      exact ⟨_, _, this, by omega⟩

/-- A choice of compatible selectable vertices can be completed without losing weight. -/
theorem Misp.extend1 (hw : ∀ i, 0 ≤ g.w i) : ∀ (vs : List Nat) (x : MispS), g.Live1 x → g.IndV vs → (∀ v, v ∈ vs → x.sel.testBit v = true) →
    ∃ ls c, Path g.mdl1 x ls c g.mdl1.stt ∧ g.wts vs ≤ c := by
  intro vs
  induction vs with
  | nil =>
    intro x hx _ _
    obtain ⟨ls, c, h, hc⟩ := g.ends1 hw _ x hx (Nat.le_refl _)
    exact ⟨ls, c, h, by simpa [Misp.wts] using hc⟩
  | cons v vs ih =>
    intro x hx hi hs
    have hv := hi.1 v List.mem_cons_self
    have hb := hs v List.mem_cons_self
    have hpw := List.pairwise_cons.1 hi.2
    have hwt : g.wts (v :: vs) = g.w v + g.wts vs := by simp [Misp.wts]
    have hm : ∀ u, u ∈ vs → (g.outV x.sel v).testBit u = true := fun u hu =>
      (g.outV_bit _ _ _).2 ⟨hs u (List.mem_cons_of_mem _ hu), hpw.1 u hu⟩
    by_cases ho : g.outV x.sel v = 0
    · have : vs = [] := by
        cases vs with
        | nil => rfl
        | cons u vs => have := hm u List.mem_cons_self; rw [ho] at this; simp at this
      subst this
      have := Path.cons ((g.step1_iff hx).2 ⟨v, rfl, hv, hb, .inl ⟨ho, rfl⟩⟩) (Path.nil _)
      rw [g.cost1 x hv] at this
      exact ⟨_, _, this, by rw [hwt]; simp [Misp.wts]⟩
    · obtain ⟨ls, c, hp, hc⟩ := ih ⟨g.outV x.sel v, x.n + 1, v⟩ (hx.next hb ho) ⟨fun u hu => hi.1 u (List.mem_cons_of_mem _ hu), hpw.2⟩ hm
      have := Path.cons ((g.step1_iff hx).2 ⟨v, rfl, hv, hb, .inr ⟨ho, rfl⟩⟩) hp
      rw [g.cost1 x hv] at this
      exact ⟨_, _, this, by rw [hwt]; omega⟩

/-- C83: every independent set is contained in a solution that weighs at least as much. -/
theorem misp1_covers (ht : 0 < g.top) (hw : ∀ i, 0 ≤ g.w i) {vs : List Nat} (h : g.IndV vs) : ∃ ls c, Sol g.mdl1 ls c ∧ g.wts vs ≤ c :=
  g.extend1 hw vs _ (g.live1 ht) h (fun v hv => (g.all_bit v).2 (h.1 v hv))

/-! ### Merging -/

theorem Misp.merge1_eq {a b c : MispS} (hm : g.mdl1.smf a b = some c) : a.l = b.l ∧ c = ⟨a.sel ||| b.sel, min a.n b.n, a.l⟩ := by
  have hs : g.mdl1.smf a b = if a.l = b.l then some ⟨a.sel ||| b.sel, min a.n b.n, min a.l b.l⟩ else none := rfl
  rw [hs] at hm
  by_cases h : a.l = b.l
  · rw [if_pos h, ← h] at hm
    refine ⟨h, ?_⟩
    rw [← Option.some.inj hm, Int.min_self]
  · rw [if_neg h] at hm; simp at hm

theorem Misp.Live1.merge {g : Misp} {a b c : MispS} (ha : g.Live1 a) (hb : g.Live1 b) (hm : g.mdl1.smf a b = some c) :
    g.Live1 c ∧ (∀ i, a.sel.testBit i = true → c.sel.testBit i = true) ∧ (∀ i, b.sel.testBit i = true → c.sel.testBit i = true) := by
  obtain ⟨h1, rfl⟩ := g.merge1_eq hm
  refine ⟨⟨?_, ha.l, ?_, ?_⟩, ?_, ?_⟩
  · intro hh
    obtain ⟨i, hi⟩ := Nat.exists_testBit_of_ne_zero ha.ne
    have : (a.sel ||| b.sel).testBit i = true := by rw [Nat.testBit_or, hi]; rfl
    dsimp only at hh
    rw [hh] at this
    simp at this
  · have := ha.n
    dsimp only
    omega
  · intro i hi
    dsimp only at hi ⊢
    rw [Nat.testBit_or, Bool.or_eq_true] at hi
    rcases hi with hi | hi
    · exact ha.bits i hi
    · rw [h1]; exact hb.bits i hi
  · intro i hi
    dsimp only
    rw [Nat.testBit_or, hi]; rfl
  · intro i hi
    dsimp only
    rw [Nat.testBit_or, hi]; simp

/-- C83: the union merge is a valid relaxation: a merged state has a completion at least as heavy as each
completion of the two states. -/
theorem misp1_merge_valid (hw : ∀ i, 0 ≤ g.w i) {a b c : MispS} (ha : g.Live1 a) (hb : g.Live1 b) (hm : g.mdl1.smf a b = some c) {v : Int}
    (h : Val g.mdl1 a v ∨ Val g.mdl1 b v) : ∃ v', Val g.mdl1 c v' ∧ v ≤ v' := by
  obtain ⟨h1, h2, h3⟩ := ha.merge hb hm
  rcases h with ⟨ls, h⟩ | ⟨ls, h⟩
  · obtain ⟨vs, _, _, k3, k4, _, rfl⟩ := (g.path1_iff ls a v ha).1 h
    obtain ⟨ls', c', hp, hc⟩ := g.extend1 hw vs c h1 k4 (fun v hv => h2 v (k3 v hv))
    exact ⟨c', ⟨ls', hp⟩, hc⟩
  · obtain ⟨vs, _, _, k3, k4, _, rfl⟩ := (g.path1_iff ls b v hb).1 h
    obtain ⟨ls', c', hp, hc⟩ := g.extend1 hw vs c h1 k4 (fun v hv => h3 v (k3 v hv))
    exact ⟨c', ⟨ls', hp⟩, hc⟩

theorem Misp.relx1 (hw : ∀ i, 0 ≤ g.w i) {s0 x : MispS} {v0 v : Int} (h0 : g.Live1 s0) (h : Relx g.mdl1 g.rank s0 v0 x v) :
    (g.Live1 x ∨ x = g.mdl1.stt) ∧ v0 ≤ v := by
  have live : ∀ {x : MispS}, (g.Live1 x ∨ x = g.mdl1.stt) → g.mdl1.eqs x = false → g.Live1 x := by
    intro x hx hh
    exact hx.resolve_right (fun h => by rw [h, g.eqs_stt1] at hh; simp at hh)
  induction h with
  | swap _ _ hsw _ ihsw => obtain rfl := (same_iff _ _).1 hsw; exact ihsw
  | root => exact ⟨.inl h0, Int.le_refl _⟩
  | @step x x' l v _ hst ih =>
    have hx := live ih.1 hst.1
    obtain ⟨u, rfl, hu, hb, h2⟩ := (g.step1_iff hx).1 hst
    refine ⟨?_, ?_⟩
    · rcases h2 with ⟨ho, rfl⟩ | ⟨ho, rfl⟩
      · exact .inr rfl
      · exact .inl (hx.next hb ho)
    · rw [g.cost1 x hu]
      have := hw u
      have := ih.2
      omega
  | mergeL _ _ ha hb hr hm ih1 ih2 => exact ⟨.inl ((live ih1.1 ha).merge (live ih2.1 hb) hm).1, ih1.2⟩
  | mergeR _ _ ha hb hr hm ih1 ih2 => exact ⟨.inl ((live ih1.1 ha).merge (live ih2.1 hb) hm).1, ih2.2⟩

/-- C83: the model meets the engine's hypotheses, from every live state. -/
theorem Misp.layered1 (hw : ∀ i, 0 ≤ g.w i) {s0 : MispS} {v0 : Int} (h0 : g.Live1 s0) (hv0 : -2147483647 < v0) : Layered g.mdl1 g.rank s0 v0 where
  sink := g.eqs_stt1
  src := by simp [Misp.mdl1, h0.ne]
  range := fun x v h => by
    have := (g.relx1 hw h0 h).2
    simp [Misp.mdl1, Sense.better, Sense.best0]; omega
  step := fun x v l x' h hst => by
    have hx := (g.relx1 hw h0 h).1.resolve_right (fun h => by have := hst.1; rw [h, g.eqs_stt1] at this; simp at this)
    obtain ⟨u, rfl, hu, hb, h2⟩ := (g.step1_iff hx).1 hst
    rcases h2 with ⟨ho, rfl⟩ | ⟨ho, rfl⟩
    · exact .inl g.eqs_stt1
    · exact .inr rfl
  merge := fun a b c va vb ra rb ha hb hr hm => by
    have la := (g.relx1 hw h0 ra).1.resolve_right (fun h => by rw [h, g.eqs_stt1] at ha; simp at ha)
    have lb := (g.relx1 hw h0 rb).1.resolve_right (fun h => by rw [h, g.eqs_stt1] at hb; simp at hb)
    obtain ⟨h1, _⟩ := la.merge lb hm
    refine ⟨by simp [Misp.mdl1, h1.ne], ?_, ?_, ?_⟩
    · obtain ⟨_, rfl⟩ := g.merge1_eq hm
      have hr' : a.n = b.n := hr
      show min a.n b.n = a.n
      omega
    · intro v hv
      obtain ⟨v', h1, h2⟩ := misp1_merge_valid g hw la lb hm (.inl hv)
      exact ⟨v', h1, by simp [Misp.mdl1, Sense.betterEQ]; omega⟩
    · intro v hv
      obtain ⟨v', h1, h2⟩ := misp1_merge_valid g hw la lb hm (.inr hv)
      exact ⟨v', h1, by simp [Misp.mdl1, Sense.betterEQ]; omega⟩
  local_ := fun f hf => by simp [Misp.mdl1] at hf
  dom := fun f hf => by simp [Misp.mdl1] at hf

/-- C83 with the engine: whatever the width, the relaxed diagram is at least the weight of every independent
set (heavier than the primal bound). -/
theorem misp1_dual (hw : ∀ i, 0 ≤ g.w i) (ht : 0 < g.top) {prim : Int} {w f : Nat} {d : G MispS} (h : relaxed g.mdl1 prim w f g.mdl1.src0 = some d)
    {vs : List Nat} (hi : g.IndV vs) (hp : prim < g.wts vs) : g.wts vs ≤ d.bound d.trg := by
  obtain ⟨ls, c, hs, hc⟩ := misp1_covers g ht hw hi
  have := relaxed_dual (g.layered1 hw (g.live1 ht) (v0 := 0) (by omega)) h hs (by simp [Mdl.src0, Misp.mdl1, Sense.better]; omega)
  simp [Mdl.src0, Misp.mdl1, Sense.betterEQ] at this
  omega


/-! ### The search -/

/-- Distinct vertices no two of which are joined, of largest weight. -/
def Misp.Heaviest (g : Misp) (c : Int) : Prop := (∃ vs, g.IndV vs ∧ g.wts vs = c) ∧ ∀ vs, g.IndV vs → g.wts vs ≤ c

theorem Misp.wts_nonneg (hw : ∀ i, 0 ≤ g.w i) (vs : List Nat) : 0 ≤ g.wts vs := by
  induction vs with
  | nil => exact Int.le_refl _
  | cons v vs ih =>
    have : g.wts (v :: vs) = g.w v + g.wts vs := by simp [Misp.wts]
    have := hw v
    omega

theorem Misp.wts_le (hw : ∀ i, 0 ≤ g.w i) : ∀ (n : Nat) (vs : List Nat), (∀ v, v ∈ vs → v < n) → vs.Pairwise (· < ·) → g.wts vs ≤ g.wts (List.range n) := by
  intro n
  induction n with
  | zero =>
    intro vs h _
    cases vs with
    | nil => exact Int.le_refl _
    | cons v vs => have := h v List.mem_cons_self; omega
  | succ n ih =>
    intro vs h hp
    have hr : g.wts (List.range (n + 1)) = g.wts (List.range n) + g.w n := by simp [Misp.wts, List.range_succ]
    have hn := hw n
    rcases List.eq_nil_or_concat vs with rfl | ⟨ys, z, rfl⟩
    · exact g.wts_nonneg hw _
    · rw [List.concat_eq_append] at h hp ⊢
      have hz := h z (by simp)
      rw [List.pairwise_append] at hp
      by_cases e : z = n
      · subst e
        have := ih ys (fun v hv => hp.2.2 v hv z (by simp)) hp.1
        have : g.wts (ys ++ [z]) = g.wts ys + g.w z := by simp [Misp.wts]
        omega
      · have := ih (ys ++ [z]) (fun v hv => by
          rcases List.mem_append.1 hv with hv | hv
          · have := hp.2.2 v hv z (by simp); omega
          · simp at hv; omega) (List.pairwise_append.2 hp)
        omega

/-- C84: everything the search reports is an independent set with its weight. -/
theorem misp1_search_sound (hw : ∀ i, 0 ≤ g.w i) (ht : 0 < g.top) {w dfuel fuel : Nat} {lim : Nat → Bool} {s : BB.BS MispS}
    (h : BB.search g.mdl1 w dfuel lim fuel (-2147483647) = some s) :
    ∀ x, x ∈ s.sols → ∃ vs : List Nat, x.2 = vs.map (fun i : Nat => (i : Int)) ∧ g.IndV vs ∧ x.1 = g.wts vs := by
  intro x hx
  obtain ⟨vs, h1, h2, _, h4⟩ := (misp1_sol g ht _ _).1 ((BB.search_sound (g.layered1 hw (g.live1 ht) (by omega)) rfl h).1 x hx)
  exact ⟨vs, h1, h2, h4⟩

theorem Misp.rankBound1 (hw : ∀ i, 0 ≤ g.w i) (ht : 0 < g.top) : RankBound g.mdl1 g.rank g.mdl1.sti 0 g.top := by
  intro x v h _
  rcases (g.relx1 hw (g.live1 ht) h).1 with hx | rfl
  · obtain ⟨i, hi⟩ := Nat.exists_testBit_of_ne_zero hx.ne
    have := hx.bits i hi
    have := hx.n
    show x.n ≤ g.top
    omega
  · exact Nat.zero_le _

/-- C84: the search ends. -/
theorem misp1_search_ends (hw : ∀ i, 0 ≤ g.w i) (ht : 0 < g.top) (w : Nat) {dfuel : Nat} (hf : g.top + 2 ≤ dfuel) (lim : Nat → Bool) :
    ∃ N, ∀ fuel, N < fuel → ∃ s, BB.search g.mdl1 w dfuel lim fuel (-2147483647) = some s ∧ (s.stopped = true ∨ Heap.empty s.pq = true) :=
  BB.search_ends (g.layered1 hw (g.live1 ht) (by omega)) rfl (g.rankBound1 hw ht) w hf lim

theorem Misp.answer1 (hw : ∀ i, 0 ≤ g.w i) (ht : 0 < g.top) {p : Int} {inc : List Int}
    (h1 : ∀ ls c, Sol g.mdl1 ls c → g.mdl1.sense.betterEQ p c = true)
    (h2 : Sol g.mdl1 inc p ∨ (p = -2147483647 ∧ ∀ ls c, Sol g.mdl1 ls c → g.mdl1.sense.better c (-2147483647) = false)) :
    g.Heaviest p ∧ ∃ vs : List Nat, inc = vs.map (fun i : Nat => (i : Int)) ∧ g.IndV vs ∧ g.wts vs = p := by
  have hle : ∀ vs, g.IndV vs → g.wts vs ≤ p := by
    intro vs hv
    obtain ⟨ls, c, hs, hc⟩ := misp1_covers g ht hw hv
    have := h1 ls c hs
    simp [Misp.mdl1, Sense.betterEQ] at this
    omega
  rcases h2 with h2 | ⟨h2, _⟩
  · obtain ⟨vs, a1, a2, _, a4⟩ := (misp1_sol g ht _ _).1 h2
    exact ⟨⟨⟨vs, a2, a4.symm⟩, hle⟩, vs, a1, a2, a4.symm⟩
  · have := hle [] ⟨by simp, List.Pairwise.nil⟩
    rw [h2] at this
    simp [Misp.wts] at this

/-- C84: with a width no layer exceeds, the search ends with a heaviest independent set. -/
theorem misp1_search_room (hw : ∀ i, 0 ≤ g.w i) (ht : 0 < g.top) (hB : g.wts (List.range g.top) ≤ 2147483647) {w dfuel fuel : Nat} (hR : Room g.mdl1 g.rank g.mdl1.sti w)
    {lim : Nat → Bool} {s : BB.BS MispS} (h : BB.search g.mdl1 w dfuel lim fuel (-2147483647) = some s) (hns : s.stopped = false) :
    g.Heaviest s.primal ∧ ∃ vs : List Nat, s.inc = vs.map (fun i : Nat => (i : Int)) ∧ g.IndV vs ∧ g.wts vs = s.primal := by
  obtain ⟨h1, h2⟩ := BB.search_room (g.layered1 hw (g.live1 ht) (by omega)) rfl (fun _ ls c hs => by
    obtain ⟨vs, _, hi, _, rfl⟩ := (misp1_sol g ht _ _).1 hs
    have := g.wts_le hw _ vs hi.1 (hi.2.imp And.left)
    simp [Misp.mdl1, Sense.betterEQ, Sense.worst0]; omega) hR h hns
  exact g.answer1 hw ht h1 h2

/-- C84, for any width: if along the run nothing was dropped for a bad reason (`okLoop`), the search ends
with a heaviest independent set. -/
theorem misp1_search_partial (hw : ∀ i, 0 ≤ g.w i) (ht : 0 < g.top) (hB : g.wts (List.range g.top) ≤ 2147483647) {w dfuel fuel : Nat} {lim : Nat → Bool} {s : BB.BS MispS}
    (h : BB.search g.mdl1 w dfuel lim fuel (-2147483647) = some s)
    (hok : BB.okLoop g.mdl1 w dfuel lim fuel 0 (BB.init g.mdl1 w (-2147483647)) = true) (hns : s.stopped = false) :
    g.Heaviest s.primal ∧ ∃ vs : List Nat, s.inc = vs.map (fun i : Nat => (i : Int)) ∧ g.IndV vs ∧ g.wts vs = s.primal := by
  obtain ⟨h1, h2⟩ := BB.search_answer_partial (g.layered1 hw (g.live1 ht) (by omega)) (by intro sd hsd; simp [Misp.mdl1] at hsd)
    rfl (fun _ ls c hs => by
    obtain ⟨vs, _, hi, _, rfl⟩ := (misp1_sol g ht _ _).1 hs
    have := g.wts_le hw _ vs hi.1 (hi.2.imp And.left)
    simp [Misp.mdl1, Sense.betterEQ, Sense.worst0]; omega) h hok hns
  exact g.answer1 hw ht h1 h2

/-- Six vertices, four edges, all weights 1. -/
def g6 : Misp := ⟨6, [(1, 3), (0, 4), (1, 4), (0, 5)], fun _ => 1⟩

theorem g6_ind : g6.IndV [2, 3, 4, 5] := by
  refine ⟨by decide, ?_⟩
  decide

/-- C84 is false for small widths: on `g6` with width 2 the program ends with an answer of 3, although four
of the vertices are independent. -/
theorem misp1_search_false : ∃ s, BB.search g6.mdl1 2 20 (fun _ => false) 50 (-2147483647) = some s ∧
    s.stopped = false ∧ Heap.empty s.pq = true ∧ s.primal = 3 ∧ s.inc = [0, 1, 2] ∧ g6.IndV [2, 3, 4, 5] ∧ g6.wts [2, 3, 4, 5] = 4 := by
  have hv : (BB.search g6.mdl1 2 20 (fun _ => false) 50 (-2147483647)).map (fun s => (s.stopped, Heap.empty s.pq, s.primal, s.inc)) =
      some (false, true, 3, [0, 1, 2]) := by decide +kernel
  simp only [Option.map_eq_some_iff] at hv
  obtain ⟨s, h1, h2⟩ := hv
  simp at h2
  exact ⟨s, h1, h2.1, h2.2.1, h2.2.2.1, h2.2.2.2, g6_ind, by decide⟩

/-- The weighted 5-cycle, width 2: the search is right there. -/
example : ∃ s, BB.search c5.mdl1 3 20 (fun _ => false) 50 (-2147483647) = some s ∧ s.primal = 11 ∧ s.inc = [1, 4] ∧ c5.Heaviest 11 := by
  have hv : (BB.search c5.mdl1 3 20 (fun _ => false) 50 (-2147483647)).map (fun s => (s.stopped, s.primal, s.inc)) =
      some (false, 11, [1, 4]) := by decide +kernel
  simp only [Option.map_eq_some_iff] at hv
  obtain ⟨s, h1, h2⟩ := hv
  simp at h2
  obtain ⟨a, _⟩ := misp1_search_partial c5 c5_w (by decide) (by decide) h1 (by decide +kernel) h2.1
  rw [h2.2.1] at a
  exact ⟨s, h1, h2.2.1, h2.2.2, a⟩

end Verif.Ex
