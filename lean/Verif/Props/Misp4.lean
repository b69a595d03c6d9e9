import Verif.Props.LagBound
import Verif.Props.Misp5S
import Verif.Props.BBState
/-!
# C90: the search of examples/misp4.cpp and examples/misp4_lag.cpp
-/
namespace Verif.Ex
open Verif.DD

variable (g : Misp) (lb : Nat → Ctx → Int)

/-- Forgetting the last decided vertex of a misp5 state. -/
def MispS.to4 (y : MispS) : Misp4S := ⟨y.sel, y.n⟩

variable {g lb}

theorem mdl4_eqs (y : MispS) : (g.mdl4 lb).eqs y.to4 = g.mdl.eqs y := rfl

theorem stf4_eq {y : MispS} (hy : g.Live y) (l : Int) : (g.mdl4 lb).stf y.to4 l = (g.mdl.stf y l).map MispS.to4 := by
  have hlt := hy.lt
  show (if g.top ≤ y.n then _ else if y.sel.testBit y.n = false ∧ l ≠ 0 then none else
    some (⟨g.out4 y.to4 l, if g.out4 y.to4 l = 0 then g.top else y.n + 1⟩ : Misp4S)) = (if y.sel.testBit y.n = false ∧ l ≠ 0 then none else
      some (⟨g.out y l, if g.out y l = 0 then g.top else y.n + 1, if g.out y l = 0 then 0 else (y.n : Int)⟩ : MispS)).map MispS.to4
  rw [if_neg (by omega)]
  by_cases h : y.sel.testBit y.n = false ∧ l ≠ 0
  · rw [if_pos h, if_pos h]; rfl
  · rw [if_neg h, if_neg h]; rfl

theorem step4 {y : MispS} (hy : g.Live y) {l : Int} {x' : Misp4S} :
    Step (g.mdl4 lb) y.to4 l x' ↔ ∃ y', y'.to4 = x' ∧ Step g.mdl y l y' := by
  unfold Step
  rw [stf4_eq hy, mdl4_eqs, Option.map_eq_some_iff]
  constructor
  · rintro ⟨a, b, y', c, d⟩; exact ⟨y', d, a, b, c⟩
  · rintro ⟨y', d, a, b, c⟩; exact ⟨a, b, y', c, d⟩

theorem Misp.step_live {y y' : MispS} {l : Int} (hy : g.Live y) (h : Step g.mdl y l y') : g.Live y' ∨ y' = g.mdl.stt := by
  rcases ((g.step_iff hy).1 h).2 with ⟨_, e⟩ | ⟨ho, e⟩
  · exact .inr e
  · rw [e]; exact .inl (hy.next ho)

theorem Misp.live_of {y : MispS} (h : g.Live y ∨ y = g.mdl.stt) (he : g.mdl.eqs y = false) : g.Live y :=
  h.resolve_right (fun h => by rw [h, g.eqs_stt] at he; simp at he)

theorem path4_of {y z : MispS} {ls : List Int} {c : Int} (h : Path g.mdl y ls c z) : (g.Live y ∨ y = g.mdl.stt) → Path (g.mdl4 lb) y.to4 ls c z.to4 := by
  induction h with
  | nil y => intro _; exact Path.nil _
  | @cons x x' z l ls c hs hp ih =>
    intro hy
    have hl := Misp.live_of hy hs.1
    have : (g.mdl4 lb).stc x.to4 l = g.mdl.stc x l := rfl
    rw [← this]
    exact Path.cons ((step4 hl).2 ⟨x', rfl, hs⟩) (ih (Misp.step_live hl hs))

theorem path4_to {x z : Misp4S} {ls : List Int} {c : Int} (h : Path (g.mdl4 lb) x ls c z) : ∀ y : MispS, y.to4 = x → (g.Live y ∨ y = g.mdl.stt) →
    ∃ y', y'.to4 = z ∧ (g.Live y' ∨ y' = g.mdl.stt) ∧ Path g.mdl y ls c y' := by
  induction h with
  | nil x => intro y hy hl; exact ⟨y, hy, hl, Path.nil _⟩
  | @cons x x' z l ls c hs hp ih =>
    rintro y rfl hl
    have hl' := Misp.live_of hl hs.1
    obtain ⟨y1, e, hs'⟩ := (step4 hl').1 hs
    obtain ⟨y2, a, b, d⟩ := ih y1 e (Misp.step_live hl' hs')
    exact ⟨y2, a, b, Path.cons hs' d⟩

theorem Misp.stt_of {y : MispS} (h : g.Live y ∨ y = g.mdl.stt) (e : y.to4 = (g.mdl4 lb).stt) : y = g.mdl.stt :=
  h.resolve_left (fun h => h.ne (congrArg Misp4S.sel e))

theorem val4 {y : MispS} (hy : g.Live y ∨ y = g.mdl.stt) {ls : List Int} {c : Int} :
    Path (g.mdl4 lb) y.to4 ls c (g.mdl4 lb).stt ↔ Path g.mdl y ls c g.mdl.stt := by
  constructor
  · intro h
    obtain ⟨y', a, b, d⟩ := path4_to h y rfl hy
    rwa [Misp.stt_of b a] at d
  · intro h; exact path4_of h hy

theorem smf4 {a b : MispS} (ha : g.Live a) (hb : g.Live b) (hn : a.n = b.n) : (g.mdl4 lb).smf a.to4 b.to4 = (g.mdl.smf a b).map MispS.to4 := by
  have : a.l = b.l := by rw [ha.l, hb.l, hn]
  show some (⟨a.sel ||| b.sel, min a.n b.n⟩ : Misp4S) = (if a.l = b.l then some (⟨a.sel ||| b.sel, min a.n b.n, a.l⟩ : MispS) else none).map MispS.to4
  rw [if_pos this]; rfl

theorem relx4 (hw : ∀ i, 0 ≤ g.w i) {y0 : MispS} (h0 : g.Live y0) {x : Misp4S} {v0 v : Int} (h : Relx (g.mdl4 lb) g.rank4 y0.to4 v0 x v) :
    ∃ y, y.to4 = x ∧ (g.Live y ∨ y = g.mdl.stt) ∧ Relx g.mdl g.rank y0 v0 y v := by
  have live : ∀ {y : MispS}, Relx g.mdl g.rank y0 v0 y v → (g.Live y ∨ y = g.mdl.stt) := fun h => (g.relx hw h0 h).1
  induction h with
  | swap _ _ hsw _ ihsw => obtain rfl := (same_iff _ _).1 hsw; exact ihsw live
  | root => exact ⟨y0, rfl, .inl h0, Relx.root⟩
  | @step x x' l v _ hs ih =>
    obtain ⟨y, rfl, hl, hr⟩ := ih (fun h => (g.relx hw h0 h).1)
    have hl' := Misp.live_of hl hs.1
    obtain ⟨y', e, hs'⟩ := (step4 hl').1 hs
    exact ⟨y', e, Misp.step_live hl' hs', hr.step hs'⟩
  | mergeL _ _ ha hb hk hm ih1 ih2 =>
    obtain ⟨a, rfl, la, ra⟩ := ih1 (fun h => (g.relx hw h0 h).1)
    obtain ⟨b, rfl, lb', rb⟩ := ih2 (fun h => (g.relx hw h0 h).1)
    have la' := Misp.live_of la ha
    have lb' := Misp.live_of lb' hb
    rw [smf4 la' lb' hk, Option.map_eq_some_iff] at hm
    obtain ⟨c, hc, rfl⟩ := hm
    exact ⟨c, rfl, .inl (la'.merge lb' hc).1, ra.mergeL rb ha hb hk hc⟩
  | mergeR _ _ ha hb hk hm ih1 ih2 =>
    obtain ⟨a, rfl, la, ra⟩ := ih1 (fun h => (g.relx hw h0 h).1)
    obtain ⟨b, rfl, lb', rb⟩ := ih2 (fun h => (g.relx hw h0 h).1)
    have la' := Misp.live_of la ha
    have lb' := Misp.live_of lb' hb
    rw [smf4 la' lb' hk, Option.map_eq_some_iff] at hm
    obtain ⟨c, hc, rfl⟩ := hm
    exact ⟨c, rfl, .inl (la'.merge lb' hc).1, ra.mergeR rb ha hb hk hc⟩

/-! ### Completions as vertex lists -/

/-- Vertices labelled 1, from vertex `n` on. -/
def ones : Nat → List Int → List Nat
  | _, [] => []
  | n, l :: ls => if l = 1 then n :: ones (n + 1) ls else ones (n + 1) ls

theorem mem_ones {v : Nat} : ∀ (ls : List Int) (n : Nat), v ∈ ones n ls → ∃ i, v = n + i ∧ i < ls.length ∧ ls.getD i 0 = 1 := by
  intro ls
  induction ls with
  | nil => intro n h; simp [ones] at h
  | cons l ls ih =>
    intro n h
    have tl : v ∈ ones (n + 1) ls → ∃ i, v = n + i ∧ i < (l :: ls).length ∧ (l :: ls).getD i 0 = 1 := fun h => by
      obtain ⟨i, a, b, c⟩ := ih (n + 1) h
      exact ⟨i + 1, by omega, by simp; omega, by simpa using c⟩
    unfold ones at h
    split at h
    · rename_i hl
      rcases List.mem_cons.1 h with e | h
      · exact ⟨0, by omega, by simp, by simpa using hl⟩
      · exact tl h
    · exact tl h

theorem ones_wts : ∀ (ls : List Int) (n : Nat), (∀ l, l ∈ ls → l = 0 ∨ l = 1) → g.wts (ones n ls) = g.wt n ls := by
  intro ls
  induction ls with
  | nil => intro n _; rfl
  | cons l ls ih =>
    intro n h
    have := ih (n + 1) (fun l hl => h l (List.mem_cons_of_mem _ hl))
    unfold Misp.wts at this ⊢
    rcases h l List.mem_cons_self with e | e
    · subst e
      simp only [ones, Misp.wt]
      rw [if_neg (by omega), this]; omega
    · subst e
      simp only [ones, Misp.wt, if_pos, List.map_cons, List.sum_cons, this]; omega

theorem ones_sorted : ∀ (ls : List Int) (n : Nat), (∀ i j, i ≠ j → ls.getD i 0 = 1 → ls.getD j 0 = 1 → (g.nb (n + i)).testBit (n + j) = false) →
    (ones n ls).Pairwise fun a b => a < b ∧ (a, b) ∉ g.edges ∧ (b, a) ∉ g.edges := by
  intro ls
  induction ls with
  | nil => intro n _; simp [ones]
  | cons l ls ih =>
    intro n h
    have tl := ih (n + 1) (fun i j hij hi hj => by
      have := h (i + 1) (j + 1) (by omega) (by simpa using hi) (by simpa using hj)
      rwa [Nat.add_assoc, Nat.add_comm 1, Nat.add_assoc, Nat.add_comm 1])
    unfold ones
    split
    · rename_i hl
      rw [List.pairwise_cons]
      refine ⟨fun b hb => ?_, tl⟩
      obtain ⟨i, e, hi, h1⟩ := mem_ones ls (n + 1) hb
      have := h 0 (i + 1) (by omega) (by simpa using hl) (by simpa using h1)
      rw [Nat.add_zero, show n + (i + 1) = b by omega] at this
      refine ⟨by omega, fun he => ?_, fun he => ?_⟩
      · rw [(g.nb_bit n b).2 (.inl he)] at this; simp at this
      · rw [(g.nb_bit n b).2 (.inr he)] at this; simp at this
    · exact tl

/-- Every completion is an independent set of selectable vertices of that weight. -/
theorem Misp.val_ind {y : MispS} (hy : g.Live y ∨ y = g.mdl.stt) {c : Int} (h : Val g.mdl y c) :
    ∃ vs, g.IndV vs ∧ (∀ v, v ∈ vs → y.sel.testBit v = true) ∧ g.wts vs = c := by
  obtain ⟨ls, hp⟩ := h
  rcases hy with hy | rfl
  · obtain ⟨h1, h2, h3, h4, h5⟩ := g.path_ind hp rfl hy
    refine ⟨ones y.n ls, ⟨fun v hv => ?_, ones_sorted ls y.n h4⟩, fun v hv => ?_, by rw [ones_wts ls y.n h2, h5]⟩
    · obtain ⟨i, e, hi, _⟩ := mem_ones ls y.n hv; omega
    · obtain ⟨i, e, hi, h⟩ := mem_ones ls y.n hv; rw [e]; exact h3 i h
  · obtain ⟨_, e2, _⟩ := hp.of_terminal g.eqs_stt
    exact ⟨[], ⟨by simp, by simp⟩, by simp, by rw [e2]; rfl⟩

/-- A set bound that no independent set of selectable vertices exceeds. -/
def Misp.BoundOK (g : Misp) (lb : Nat → Ctx → Int) : Prop :=
  ∀ s x vs, g.IndV vs → (∀ v, v ∈ vs → s.testBit v = true) → g.wts vs ≤ lb s x

/-- C90: the model meets the engine's hypotheses with any valid set bound. -/
theorem layered4 (hw : ∀ i, 0 ≤ g.w i) (hb : g.BoundOK lb) {y0 : MispS} {v0 : Int} (h0 : g.Live y0) (hv0 : -2147483647 < v0) :
    Layered (g.mdl4 lb) g.rank4 y0.to4 v0 := by
  have H := g.layered hw h0 hv0
  have cov : ∀ {a b : MispS}, (g.Live a ∨ a = g.mdl.stt) → (g.Live b ∨ b = g.mdl.stt) → Cover g.mdl a b → Cover (g.mdl4 lb) a.to4 b.to4 := by
    intro a b la lb' h c ⟨ls, hp⟩
    obtain ⟨c', ⟨ls', hp'⟩, hc⟩ := h c ⟨ls, (val4 lb').1 hp⟩
    exact ⟨c', ⟨ls', (val4 la).2 hp'⟩, hc⟩
  refine ⟨rfl, val_closed _, H.src, fun x v h => ?_, fun x v l x' h hs => ?_, fun a b c va vb ra rb ha hb' hk hm => ?_, fun f hf x v ctx c hr hv => ?_, fun f hf => ?_, Fair.ofEq⟩
  · obtain ⟨y, rfl, _, hr⟩ := relx4 hw h0 h
    exact H.range y v hr
  · obtain ⟨y, rfl, hl, hr⟩ := relx4 hw h0 h
    obtain ⟨y', rfl, hs'⟩ := (step4 (Misp.live_of hl hs.1)).1 hs
    exact H.step y v l y' hr hs'
  · obtain ⟨a, rfl, la, ra⟩ := relx4 hw h0 ra
    obtain ⟨b, rfl, lb', rb⟩ := relx4 hw h0 rb
    have la' := Misp.live_of la ha
    have lb'' := Misp.live_of lb' hb'
    rw [smf4 la' lb'' hk, Option.map_eq_some_iff] at hm
    obtain ⟨c, hc, rfl⟩ := hm
    obtain ⟨a1, a2, a3, a4⟩ := H.merge a b c va vb ra rb ha hb' hk hc
    have lc := (la'.merge lb'' hc).1
    exact ⟨a1, a2, cov (.inl lc) la a3, cov (.inl lc) lb' a4⟩
  · obtain ⟨y, rfl, hl, _⟩ := relx4 hw h0 hr
    obtain ⟨ls, hp⟩ := hv
    obtain ⟨vs, h1, h2, h3⟩ := Misp.val_ind hl ⟨ls, (val4 hl).1 hp⟩
    obtain rfl : (fun x c => lb x.sel c) = f := Option.some.inj hf
    show decide (lb y.sel ctx ≥ c) = true
    have := hb y.sel ctx vs h1 h2
    simp; omega
  · cases hf

/-! ### The three bounds are valid -/

theorem Misp.wts_sum (hw : ∀ i, 0 ≤ g.w i) (s : Nat) {vs : List Nat} (hi : g.IndV vs) (hs : ∀ v, v ∈ vs → s.testBit v = true) : g.wts vs ≤ g.sum s := by
  rw [g.sum_eq]
  obtain ⟨h1, h2⟩ := hi
  have key : ∀ (k : Nat) (vs : List Nat), (∀ v, v ∈ vs → v < k) → vs.Pairwise (fun a b => a < b) → (∀ v, v ∈ vs → s.testBit v = true) →
      g.wts vs ≤ g.sumB s k := by
    intro k
    induction k with
    | zero =>
      intro vs h _ _
      cases vs with
      | nil => exact Int.le_refl _
      | cons v _ => have := h v List.mem_cons_self; omega
    | succ k ih =>
      intro vs h hp hs
      simp only [Misp.sumB]
      have hwk := hw k
      by_cases hk : k ∈ vs
      · have hnd : vs.Nodup := hp.imp fun h => by omega
        have e : g.wts vs = g.wts (vs.erase k) + g.w k := by
          clear h hp hs hnd
          unfold Misp.wts
          induction vs with
          | nil => cases hk
          | cons a vs ihv =>
            by_cases e : a = k
            · subst e; simp; omega
            · rw [List.erase_cons_tail (by simpa using e)]
              have := ihv ((List.mem_cons.1 hk).resolve_left (Ne.symm e))
              simp only [List.map_cons, List.sum_cons] at this ⊢
              omega
        have := ih (vs.erase k) (fun v hv => by
          have h1 := h v (List.mem_of_mem_erase hv)
          have h2 : v ≠ k := fun e => by subst e; exact (List.Nodup.not_mem_erase hnd) hv
          omega) (hp.sublist List.erase_sublist) (fun v hv => hs v (List.mem_of_mem_erase hv))
        rw [if_pos (hs k hk)]; omega
      · have := ih vs (fun v hv => by
          have h1 := h v hv
          have h2 : v ≠ k := fun e => hk (e ▸ hv)
          omega) hp hs
        split <;> omega
  exact key g.top vs h1 (h2.imp fun h => h.1) hs

/-- C90: the sum of the weights, with non-negative weights. -/
theorem bound0_ok (hw : ∀ i, 0 ≤ g.w i) : g.BoundOK g.bound0 := fun s _ _ hi hs => g.wts_sum hw s hi hs

/-- C90: the clique bound. -/
theorem bound1_ok {cs : List (List Nat)} (H : g.Partition cs) : g.BoundOK (g.bound1 cs) := fun s _ vs hi hs => by
  have := cliqueBound_valid g H s vs hi hs
  exact Rat.le_floor_iff.2 this

/-- The engine's base model. -/
abbrev Misp.m0 (g : Misp) : Mdl Misp4S := g.mdl4 g.bound0

/-- C90: the Lagrangian bound with its changing multipliers. -/
theorem lagLoc_ok (hw : ∀ i, 0 ≤ g.w i) (ht : 0 < g.top) {cs : List (List Nat)} (H : g.Partition cs) : BB.LocOK g.m0 g.rank4 (g.lagLoc cs) g.LamOK where
  keep := fun m x hm => (lagDual_valid g H hm 50 1 true x.sel).1
  rd := fun m x v c hm hr hv => by
    obtain ⟨y, rfl, hl, _⟩ := relx4 hw (g.live0 ht) hr
    obtain ⟨ls, hp⟩ := hv
    obtain ⟨vs, h1, h2, h3⟩ := Misp.val_ind hl ⟨ls, (val4 hl).1 hp⟩
    have := lagBound_valid g H hm y.sel h1 h2
    show decide (g.lagBound cs m y.sel ≥ c) = true
    simp; omega
  call := fun m x v c hm hr hv => by
    obtain ⟨y, rfl, hl, _⟩ := relx4 hw (g.live0 ht) hr
    obtain ⟨ls, hp⟩ := hv
    obtain ⟨vs, h1, h2, h3⟩ := Misp.val_ind hl ⟨ls, (val4 hl).1 hp⟩
    obtain ⟨_, k1, k2⟩ := lagDual_valid g H hm 50 1 true y.sel
    obtain ⟨b, hb⟩ := Option.isSome_iff_exists.1 (k1 (by omega))
    have := k2 b hb vs h1 h2
    show decide (((g.lagDual cs 50 1 m true y.sel).2).getD 0 ≥ c) = true
    rw [hb]
    simp; omega

theorem lam0_ok {cs : List (List Nat)} (H : g.Partition cs) : g.LamOK (g.lam0 cs) :=
  (lagDual_valid g H (m := []) (fun e he => by cases he) (min (50 * g.top) 100000) 1 false (2 ^ g.top - 1)).1

/-! ### The search -/

theorem sol4 (ht : 0 < g.top) (ls : List Int) (c : Int) : Sol (g.mdl4 lb) ls c ↔ Sol g.mdl ls c := val4 (.inl (g.live0 ht))

theorem layered40 (hw : ∀ i, 0 ≤ g.w i) (ht : 0 < g.top) (hb : g.BoundOK lb) : Layered (g.mdl4 lb) g.rank4 (g.mdl4 lb).sti 0 :=
  layered4 hw hb (g.live0 ht) (by omega)

theorem rankBound4 (hw : ∀ i, 0 ≤ g.w i) (ht : 0 < g.top) : RankBound (g.mdl4 lb) g.rank4 (g.mdl4 lb).sti 0 g.top := by
  intro x v h _
  obtain ⟨y, rfl, hl, _⟩ := relx4 hw (g.live0 ht) h
  rcases hl with hl | rfl
  · exact Nat.le_of_lt hl.lt
  · exact Nat.le_refl _

theorem Misp.answer4 (ht : 0 < g.top) {p : Int} {inc : List Int} (h1 : ∀ ls c, Sol (g.mdl4 lb) ls c → (g.mdl4 lb).sense.betterEQ p c = true)
    (h2 : Sol (g.mdl4 lb) inc p ∨ (p = -2147483647 ∧ ∀ ls c, Sol (g.mdl4 lb) ls c → (g.mdl4 lb).sense.better c (-2147483647) = false)) :
    g.Heaviest01 p ∧ g.Ind inc ∧ g.wt 0 inc = p :=
  g.answer ht (fun ls c h => h1 ls c ((sol4 ht ls c).2 h)) (h2.imp (sol4 ht _ _).1 fun h => ⟨h.1, fun ls c hs => h.2 ls c ((sol4 ht ls c).2 hs)⟩)

/-- The three programs, unfolded: with the partition `cs`. -/
theorem search4_cases {opt w dfuel fuel : Nat} {lim : Nat → Bool} {s : BB.BS Misp4S} (h : g.search4 opt w dfuel lim fuel = some s) :
    (opt = 0 ∧ BB.search (g.mdl4 g.bound0) w dfuel lim fuel (-2147483647) = some s) ∨
    ∃ cs, g.cliques = some cs ∧ g.Partition cs ∧
      ((opt = 1 ∧ BB.search (g.mdl4 (g.bound1 cs)) w dfuel lim fuel (-2147483647) = some s) ∨
      (1 < opt ∧ ∃ m, BB.searchS g.m0 (g.lagLoc cs) (g.lam0 cs) w dfuel lim fuel (-2147483647) = some (s, m))) := by
  obtain ⟨cs, hc, H⟩ := clique_partition g
  match opt, h with
  | 0, h => exact .inl ⟨rfl, h⟩
  | 1, h =>
    have h : (g.cliques.bind fun cs => BB.search (g.mdl4 (g.bound1 cs)) w dfuel lim fuel (-2147483647)) = some s := h
    rw [hc] at h
    exact .inr ⟨cs, hc, H, .inl ⟨rfl, h⟩⟩
  | k + 2, h =>
    have h : (g.cliques.bind fun cs => (BB.searchS g.m0 (g.lagLoc cs) (g.lam0 cs) w dfuel lim fuel (-2147483647)).map Prod.fst) = some s := h
    rw [hc, Option.bind_some, Option.map_eq_some_iff] at h
    obtain ⟨⟨s', m⟩, h1, rfl⟩ := h
    exact .inr ⟨cs, hc, H, .inr ⟨by omega, m, h1⟩⟩

/-- C90: whichever bound is chosen, everything the search reports is an independent set with its weight. -/
theorem misp4_search_sound (hw : ∀ i, 0 ≤ g.w i) (ht : 0 < g.top) {opt w dfuel fuel : Nat} {lim : Nat → Bool} {s : BB.BS Misp4S}
    (h : g.search4 opt w dfuel lim fuel = some s) : ∀ x, x ∈ s.sols → g.Ind x.2 ∧ x.1 = g.wt 0 x.2 := by
  intro x hx
  rcases search4_cases h with ⟨_, h⟩ | ⟨cs, _, H, ⟨_, h⟩ | ⟨_, m, h⟩⟩
  · exact g.sol_ind ht ((sol4 ht _ _).1 ((BB.search_sound (layered40 hw ht (bound0_ok hw)) rfl h).1 x hx))
  · exact g.sol_ind ht ((sol4 ht _ _).1 ((BB.search_sound (layered40 hw ht (bound1_ok H)) rfl h).1 x hx))
  · exact g.sol_ind ht ((sol4 ht _ _).1 ((BB.searchS_sound (lagLoc_ok hw ht H) (layered40 hw ht (bound0_ok hw)) (lam0_ok H) rfl h).1 x hx))

/-- C90: the search ends. -/
theorem misp4_search_ends (hw : ∀ i, 0 ≤ g.w i) (ht : 0 < g.top) (opt w : Nat) {dfuel : Nat} (hf : g.top + 2 ≤ dfuel) (lim : Nat → Bool) :
    ∃ N, ∀ fuel, N < fuel → ∃ s, g.search4 opt w dfuel lim fuel = some s ∧ (s.stopped = true ∨ Heap.empty s.pq = true) := by
  obtain ⟨cs, hc, H⟩ := clique_partition g
  match opt with
  | 0 => exact BB.search_ends (layered40 hw ht (bound0_ok hw)) rfl (rankBound4 hw ht) w hf lim
  | 1 =>
    obtain ⟨N, hN⟩ := BB.search_ends (p0 := -2147483647) (layered40 hw ht (bound1_ok H)) rfl (rankBound4 hw ht) w hf lim
    refine ⟨N, fun fuel hf => ?_⟩
    obtain ⟨s, h1, h2⟩ := hN fuel hf
    exact ⟨s, by show (g.cliques.bind _) = _; rw [hc]; exact h1, h2⟩
  | k + 2 =>
    obtain ⟨N, hN⟩ := BB.searchS_ends (p0 := -2147483647) (lagLoc_ok hw ht H) (layered40 hw ht (bound0_ok hw)) (lam0_ok H) rfl (rankBound4 hw ht) w hf lim
    refine ⟨N, fun fuel hf => ?_⟩
    obtain ⟨a, h1, h2⟩ := hN fuel hf
    exact ⟨a.1, by show (g.cliques.bind _) = _; rw [hc, Option.bind_some, h1]; rfl, h2⟩

/-- C90: with a width no layer exceeds, the search ends with a heaviest independent set. -/
theorem misp4_search_room (hw : ∀ i, 0 ≤ g.w i) (ht : 0 < g.top) {opt w dfuel fuel : Nat} (hR : Room g.m0 g.rank4 g.m0.sti w)
    {lim : Nat → Bool} {s : BB.BS Misp4S} (h : g.search4 opt w dfuel lim fuel = some s) (hns : s.stopped = false) :
    g.Heaviest01 s.primal ∧ g.Ind s.inc ∧ g.wt 0 s.inc = s.primal := by
  rcases search4_cases h with ⟨_, h⟩ | ⟨cs, _, H, ⟨_, h⟩ | ⟨_, m, h⟩⟩
  · obtain ⟨h1, h2⟩ := BB.search_room (layered40 hw ht (bound0_ok hw)) rfl (fun hl => by cases hl) hR h hns
    exact g.answer4 ht h1 h2
  · have hR1 : Room (g.mdl4 (g.bound1 cs)) g.rank4 (g.mdl4 (g.bound1 cs)).sti w := fun k M hn hM => hR k M hn fun x hx => by
      obtain ⟨q1, q2, ls, c, q3⟩ := hM x hx
      exact ⟨q1, q2, ls, c, q3.of_loc (m := g.m0)⟩
    obtain ⟨h1, h2⟩ := BB.search_room (layered40 hw ht (bound1_ok H)) rfl (fun hl => by cases hl) hR1 h hns
    exact g.answer4 ht h1 h2
  · obtain ⟨h1, h2⟩ := BB.searchS_room (lagLoc_ok hw ht H) (layered40 hw ht (bound0_ok hw)) (lam0_ok H) rfl hR h hns
    exact g.answer4 ht h1 h2

/-- The run of program `opt` drops nothing for a bad reason. -/
def Misp.ok4 (g : Misp) (opt w dfuel : Nat) (lim : Nat → Bool) (fuel : Nat) : Bool :=
  match opt with
  | 0 => BB.okLoop (g.mdl4 g.bound0) w dfuel lim fuel 0 (BB.init (g.mdl4 g.bound0) w (-2147483647))
  | 1 => (g.cliques.map fun cs => BB.okLoop (g.mdl4 (g.bound1 cs)) w dfuel lim fuel 0 (BB.init (g.mdl4 (g.bound1 cs)) w (-2147483647))).getD true
  | _ => (g.cliques.map fun cs => BB.okLoopS g.m0 (g.lagLoc cs) w dfuel lim fuel 0
      (BB.init (g.m0.withLoc ((g.lagLoc cs).at (g.lam0 cs))) w (-2147483647), ((g.lagLoc cs).call (g.lam0 cs) g.m0.sti).2)).getD true

/-- C90, for any width: if along the run nothing was dropped for a bad reason, the search ends with a heaviest
independent set.  Missing: the other runs, for which it is false (`misp4_search_false`). -/
theorem misp4_search_partial (hw : ∀ i, 0 ≤ g.w i) (ht : 0 < g.top) {opt w dfuel fuel : Nat} {lim : Nat → Bool} {s : BB.BS Misp4S}
    (hs : g.search4 opt w dfuel lim fuel = some s) (hok : g.ok4 opt w dfuel lim fuel = true) (hns : s.stopped = false) :
    g.Heaviest01 s.primal ∧ g.Ind s.inc ∧ g.wt 0 s.inc = s.primal := by
  have hD : ∀ lb, BB.DomRank (g.mdl4 lb) g.rank4 := fun lb sd hsd => by cases hsd
  rcases search4_cases hs with ⟨e, h⟩ | ⟨cs, hc, H, ⟨e, h⟩ | ⟨e, m, h⟩⟩
  · subst e
    obtain ⟨h1, h2⟩ := BB.search_answer_partial (layered40 hw ht (bound0_ok hw)) (hD _) rfl (fun hl => by cases hl) h hok hns
    exact g.answer4 ht h1 h2
  · subst e
    have hok : (g.cliques.map fun cs => BB.okLoop (g.mdl4 (g.bound1 cs)) w dfuel lim fuel 0 (BB.init (g.mdl4 (g.bound1 cs)) w (-2147483647))).getD true = true := hok
    rw [hc] at hok
    obtain ⟨h1, h2⟩ := BB.search_answer_partial (layered40 hw ht (bound1_ok H)) (hD _) rfl (fun hl => by cases hl) h hok hns
    exact g.answer4 ht h1 h2
  · clear hs
    match opt, e, hok with
    | k + 2, _, hok =>
      have hok : (g.cliques.map fun cs => BB.okLoopS g.m0 (g.lagLoc cs) w dfuel lim fuel 0
        (BB.init (g.m0.withLoc ((g.lagLoc cs).at (g.lam0 cs))) w (-2147483647), ((g.lagLoc cs).call (g.lam0 cs) g.m0.sti).2)).getD true = true := hok
      rw [hc] at hok
      obtain ⟨h1, h2⟩ := BB.searchS_answer_partial (lagLoc_ok hw ht H) (layered40 hw ht (bound0_ok hw)) (hD _) (lam0_ok H) rfl h hok hns
      exact g.answer4 ht h1 h2

/-- Thirteen vertices, eleven edges, all weights 1. -/
def g13 : Misp := ⟨13, [(2, 12), (7, 11), (5, 11), (6, 10), (5, 10), (2, 10), (2, 9), (4, 8), (0, 8), (6, 7), (1, 2)], fun _ => 1⟩

/-- C90 is false at width 1, whichever bound is used: three vertices, one edge, the answer is 1 and two
vertices are independent.  At width 2 the program with the sum bound gets 6 instead of 7 on a forest, and
with the clique bound 7 instead of 8 on `g13`. -/
theorem misp4_search_false : (∀ opt, opt < 3 → ∃ s, (⟨3, [(0, 1)], fun _ => 1⟩ : Misp).search4 opt 1 10 (fun _ => false) 20 = some s ∧
      s.stopped = false ∧ Heap.empty s.pq = true ∧ s.primal = 1) ∧ (⟨3, [(0, 1)], fun _ => 1⟩ : Misp).IndV [0, 2] ∧
    (⟨3, [(0, 1)], fun _ => 1⟩ : Misp).wts [0, 2] = 2 ∧
    (∃ s, g12.search4 0 2 30 (fun _ => false) 200 = some s ∧ s.stopped = false ∧ Heap.empty s.pq = true ∧ s.primal = 6) ∧
    (∃ s, g13.search4 1 2 30 (fun _ => false) 200 = some s ∧ s.stopped = false ∧ Heap.empty s.pq = true ∧ s.primal = 7) ∧
    g13.IndV [0, 1, 3, 4, 5, 6, 9, 12] ∧ g13.wts [0, 1, 3, 4, 5, 6, 9, 12] = 8 := by
  refine ⟨fun opt ho => ?_, ⟨by decide, by decide⟩, by decide, ?_, ?_, ⟨by decide, by decide⟩, by decide⟩
  · have hv : ∀ o, o < 3 → ((⟨3, [(0, 1)], fun _ => 1⟩ : Misp).search4 o 1 10 (fun _ => false) 20).map (fun s => (s.stopped, Heap.empty s.pq, s.primal)) =
        some (false, true, 1) := by decide +kernel
    have hv := hv opt ho
    simp only [Option.map_eq_some_iff] at hv
    obtain ⟨s, h1, h2⟩ := hv
    simp at h2
    exact ⟨s, h1, h2.1, h2.2.1, h2.2.2⟩
  · have hv : (g12.search4 0 2 30 (fun _ => false) 200).map (fun s => (s.stopped, Heap.empty s.pq, s.primal)) = some (false, true, 6) := by
      decide +kernel
    simp only [Option.map_eq_some_iff] at hv
    obtain ⟨s, h1, h2⟩ := hv
    simp at h2
    exact ⟨s, h1, h2.1, h2.2.1, h2.2.2⟩
  · have hv : (g13.search4 1 2 30 (fun _ => false) 200).map (fun s => (s.stopped, Heap.empty s.pq, s.primal)) = some (false, true, 7) := by
      decide +kernel
    simp only [Option.map_eq_some_iff] at hv
    obtain ⟨s, h1, h2⟩ := hv
    simp at h2
    exact ⟨s, h1, h2.1, h2.2.1, h2.2.2⟩

/-- The weighted 5-cycle at width 2, with each bound: three pool nodes, merged and truncated layers, and the
answer is proved heaviest. -/
example : ∀ opt, opt < 3 → ∃ s, c5.search4 opt 2 20 (fun _ => false) 50 = some s ∧ s.pn = 3 ∧ s.primal = 11 ∧ c5.Heaviest01 11 := by
  intro opt ho
  have hv : ∀ o, o < 3 → (c5.search4 o 2 20 (fun _ => false) 50).map (fun s => (s.stopped, s.pn, s.primal)) =
      some (false, 3, 11) ∧ c5.ok4 o 2 20 (fun _ => false) 50 = true := by decide +kernel
  obtain ⟨hv, hok⟩ := hv opt ho
  simp only [Option.map_eq_some_iff] at hv
  obtain ⟨s, h1, h2⟩ := hv
  simp at h2
  obtain ⟨a, _⟩ := misp4_search_partial c5_w (by decide) h1 hok h2.1
  rw [h2.2.2] at a
  exact ⟨s, h1, h2.2.1, h2.2.2, a⟩

end Verif.Ex
