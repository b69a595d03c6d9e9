import Verif.Wide
import Verif.Props.BB
/-!
# C74: a width no smaller than any layer makes every diagram exact and the search optimal
-/
namespace Verif.DD
set_option linter.unusedSectionVars false
variable {σ : Type} {m : Mdl σ} {rank : σ → Nat} {r : Src σ} {prim : Int} {Vl : σ → Int → Prop} [Same σ]

/-- A relaxed diagram whose width no layer exceeds merges nothing. -/
theorem relaxed_room (H : LayeredV Vl m rank r.st r.bound) {w f : Nat} (hR : Room m rank r.st w) {g : G σ}
    (h : relaxed m prim w f r = some g) : g.exact = true := by
  obtain ⟨g0, F⟩ := relaxed_facts H h
  unfold relaxed at h
  simp only [Option.bind_eq_some_iff] at h
  obtain ⟨g1, h1, h2⟩ := h
  have hx : g1.exact = true := by
    obtain ⟨i1, i2, _⟩ := start2_inv (prim := prim) (rel := true) H
    rw [i1.root] at h1
    cases f with
    | zero => simp [relLoop] at h1
    | succ f =>
      unfold relLoop at h1
      simp only [LQ.enQueue, List.isEmpty_cons, Bool.false_eq_true, false_and, if_false] at h1
      have hp : LQ.pull m w (start2 m r) ⟨[0], []⟩ = (start2 m r, [0], ⟨[], []⟩) := by
        unfold LQ.pull
        have : relSort m (start2 m r) [0] = [0] := rfl
        rw [this, mergeLayer_single]
      rw [hp] at h1
      dsimp only at h1
      generalize hv : relNodes m prim [0] (start2 m r) ⟨[], []⟩ = v at h1
      obtain ⟨g2, q1⟩ := v
      obtain ⟨x1, ⟨p', x2⟩, x3, x4⟩ := relNodes_inv H _ _ _ 0 rfl i1 i2 g2 q1 hv
      have hx2 := relNodes_exact (m := m) (prim := prim) [0] (start2 m r) ⟨[], []⟩
      rw [hv] at hx2
      exact relLoop_wideExact H hR f g2 q1 0 p' x1 x2 x3 (hx2.trans start2_exact) g1 h1
  have hi := relaxed_inv H h1
  obtain ⟨⟨d, p, hi⟩, ha⟩ := hi
  obtain ⟨bd, lb, t1, t2, t3⟩ := tighten_trg (m := m) hi.trg (fin_inrange H ⟨d, p, hi⟩)
  rw [t1] at h2
  obtain ⟨ρ, wg⟩ := fin_wg (m := m) (rank := rank) (r := r) (prim := prim) (rel := true) ⟨d, p, hi⟩ ha
  have wg' : Wg ({ g1 with bound := upd g1.bound 1 bd, lab := upd g1.lab 1 lb } : G σ) ρ :=
    ⟨wg.nd, wg.kids, wg.par, wg.kn, wg.pn, wg.src, wg.dst, wg.up⟩
  obtain ⟨b, c1, _⟩ := computeBestBackward_eq (m := m) wg'
  rw [c1] at h2
  simp only [Option.some.injEq] at h2
  subst h2
  exact hx

/-- A restricted diagram stops a layer when it reaches the width: strictly fewer states everywhere
and nothing is cut. -/
theorem restricted_room (H : LayeredV Vl m rank r.st r.bound) {w f : Nat} (hR : Room m rank r.st (wm1 w)) {g : G σ}
    (h : restricted m prim w f r = some g) : g.exact = true := by
  unfold restricted at h
  simp only [Option.map_eq_some_iff] at h
  obtain ⟨g0, h0, rfl⟩ := h
  obtain ⟨⟨d, p, hinv⟩, _⟩ := restricted_inv H h0
  obtain ⟨bd, lb, t1, _⟩ := tighten_trg (m := m) hinv.trg (fin_inrange H ⟨d, p, hinv⟩)
  rw [t1]
  obtain ⟨h1, h2, _⟩ := start2_inv (prim := prim) (rel := false) H
  rw [h1.root] at h0
  exact resLoop_wideExact H hR f _ _ 0 0 h1 h2 start2_exact g0 h0

end Verif.DD

namespace Verif.BB
open Verif.DD
set_option linter.unusedSectionVars false
variable {σ : Type} {m : Mdl σ} {rank : σ → Nat} {M : Int → Mdl σ} {Vl : σ → Int → Prop} {Wl : Nat → Int → σ → Int → Prop} [Same σ]

theorem betterEQ_trans {k : Sense} {a b c : Int} (h1 : k.betterEQ a b = true) (h2 : k.betterEQ b c = true) : k.betterEQ a c = true := by
  rw [Sense.betterEQ_iff] at *; omega

theorem fam_room {Wl : Int → σ → Int → Prop} (F : FamV Vl Wl m rank M) {p : Int} {s0 : σ} {w : Nat} (h : Room m rank s0 w) : Room (M p) rank s0 w := by
  intro k L hn hL
  refine h k L hn fun s hs => ?_
  obtain ⟨a, b, ls, c, d⟩ := hL s hs
  rw [F.eqs] at a
  exact ⟨a, b, ls, c, F.path d⟩

/-- If the relaxed diagram of the root is exact, a search that is not stopped ends with the optimum among
the completions it keeps (`FamV`). -/
theorem searchV_exact {T : Nat → Int → Mdl σ} {lc : Nat → Int → Option (σ → Ctx → Int)} (F : ∀ k, FamV Vl (Wl k) m rank (T k)) (H : LayeredV Vl m rank m.sti 0) {p0 : Int} (hp0 : m.sense.betterEQ p0 m.sense.best0 = true)
    (hW : m.loc = none → ∀ c, Vl m.sti c → m.sense.betterEQ m.sense.worst0 c = true)
    {w dfuel fuel : Nat} (hX : ∀ k p r g, r.st = m.sti → r.bound = 0 → relaxed (T k p) p w dfuel r = some g → g.exact = true) {lim : Nat → Bool} {s : BS σ}
    (h : searchT m T lc w dfuel lim fuel p0 = some s) (hns : s.stopped = false) :
    (∀ c, Vl m.sti c → m.sense.betterEQ s.primal c = true) ∧
    (Sol m s.inc s.primal ∨ (s.primal = p0 ∧ ∀ c, Vl m.sti c → m.sense.better c p0 = false)) := by
  have ho : ∀ c, Vl m.sti c → m.sense.betterEQ s.primal c = true := by
    obtain ⟨h1, h2, h3, h4, h5, _⟩ := init_inv H.src H.fair.toUniq w p0
    have hne : Heap.empty (init m w p0).pq = false := by simp [Heap.empty, h3]
    obtain ⟨a1, a2, a3, a4, _⟩ := h1.extract hne
    have hem : Heap.empty (Heap.extractMax (qord m) (init m w p0).pq).1 = true := by
      simp [Heap.empty]; omega
    obtain ⟨k0, hkey⟩ := h5 _ _ a3
    unfold searchT at h
    cases fuel with
    | zero => simp [loopP] at h
    | succ f =>
    unfold loopP at h
    rw [hne] at h
    dsimp only at h
    simp only [Bool.false_eq_true, if_false] at h
    by_cases hl : lim 0 = true
    · rw [if_pos hl] at h
      simp at h; subst h; simp at hns
    rw [if_neg hl] at h
    have last : ∀ (s2 : BS σ) k, loopP m T lc w dfuel lim f k s2 = some s → Heap.empty s2.pq = true → s = s2 := by
      intro s2 k hh he
      cases f with
      | zero => simp [loopP] at hh
      | succ f => unfold loopP at hh; rw [if_pos he] at hh; simpa using hh.symm
    by_cases hb : m.sense.better (Heap.extractMax (qord m) (init m w p0).pq).2.2 (init m w p0).primal = true
    · rw [if_pos hb] at h
      simp only [Option.bind_eq_some_iff] at h
      obtain ⟨s2, h6, h7⟩ := h
      rw [k0] at h6
      unfold expandP at h6
      simp only [Option.bind_eq_some_iff] at h6
      obtain ⟨g, hg, h6⟩ := h6
      obtain ⟨hgen, hopen⟩ := a1.gen 0 a1.pos
      have hx := hX _ _ _ _ rfl rfl hg
      have hdual : ∀ c, Vl m.sti c → m.sense.better c p0 = true → m.sense.betterEQ (g.bound g.trg) c = true := by
        intro c hc hbc
        have := (F _).relaxed_dual hgen hopen hg (c := c) hc (by
          show m.sense.better (0 + c) p0 = true
          rw [Int.zero_add]; exact hbc)
        have e : m.sense.betterEQ (g.bound g.trg) (0 + c) = true := this
        rwa [Int.zero_add] at e
      by_cases hbt : m.sense.better (g.bound g.trg) (init m w p0).primal = true
      · rw [if_pos hbt, if_pos hx] at h6
        have hp1 := setPrimal_primal (m := m) (s := { init m w p0 with pq := (Heap.extractMax (qord m) (init m w p0).pq).1 }) (lb := g.lab g.trg) hbt
        have hq1 : (setPrimal m { init m w p0 with pq := (Heap.extractMax (qord m) (init m w p0).pq).1 } (g.bound g.trg) (g.lab g.trg)).pq =
          (Heap.extractMax (qord m) (init m w p0).pq).1 := rfl
        generalize setPrimal m { init m w p0 with pq := (Heap.extractMax (qord m) (init m w p0).pq).1 } (g.bound g.trg) (g.lab g.trg) = s1 at h6 hp1 hq1
        simp only [Option.bind_eq_some_iff] at h6
        obtain ⟨r, hr, h6⟩ := h6
        rw [if_neg (by simp [hx])] at h6
        simp only [Option.some.injEq] at h6
        have hs2 : m.sense.betterEQ s2.primal (g.bound g.trg) = true ∧ Heap.empty s2.pq = true := by
          rw [← h6]
          split
          · rename_i hbr
            constructor
            · rw [setPrimal_primal hbr]
              rw [hp1] at hbr
              rw [Sense.better_iff] at hbr; rw [Sense.betterEQ_iff]; omega
            · show Heap.empty s1.pq = true
              rw [hq1]; exact hem
          · rw [hp1, hq1]
            exact ⟨by rw [Sense.betterEQ_iff]; omega, hem⟩
        have := last s2 _ h7 hs2.2
        subst this
        intro c hc
        by_cases hbc : m.sense.better c p0 = true
        · exact betterEQ_trans hs2.1 (hdual c hc hbc)
        · have hbt' : m.sense.better (g.bound g.trg) p0 = true := hbt
          refine betterEQ_trans hs2.1 ?_
          simp only [Bool.not_eq_true] at hbc
          rw [Sense.better_false] at hbc; rw [Sense.better_iff] at hbt'; rw [Sense.betterEQ_iff]; omega
      · rw [if_neg hbt] at h6
        simp only [Option.some.injEq] at h6
        subst h6
        have := last _ _ h7 hem
        subst this
        intro c hc
        show m.sense.betterEQ p0 c = true
        have hbt' : ¬ m.sense.better (g.bound g.trg) p0 = true := hbt
        by_cases hbc : m.sense.better c p0 = true
        · exfalso
          have := hdual c hc hbc
          apply hbt'
          rw [Sense.better_iff] at *; rw [Sense.betterEQ_iff] at this; omega
        · simp only [Bool.not_eq_true] at hbc
          rw [Sense.better_false] at hbc; rw [Sense.betterEQ_iff]; omega
    · rw [if_neg hb] at h
      have := last _ _ h hem
      subst this
      intro c hc
      have hk : m.sense.betterEQ (Heap.extractMax (qord m) (init m w p0).pq).2.2 c = true := by
        rw [hkey]
        cases hl : m.loc with
        | none => exact hW hl c hc
        | some f => exact H.local_ f hl _ _ _ _ Relx.root hc
      show m.sense.betterEQ p0 c = true
      have hb' : m.sense.better (Heap.extractMax (qord m) (init m w p0).pq).2.2 p0 = false := by
        rw [Bool.not_eq_true] at hb; exact hb
      rw [Sense.better_false] at hb'; rw [Sense.betterEQ_iff] at *; omega
  refine ⟨ho, ?_⟩
  by_cases hs : s.sols = []
  · right
    have := (primalT_improves F H hp0 h).2
    rw [hs] at this
    simp at this
    refine ⟨this.symm, fun c hc => ?_⟩
    have := ho c hc
    rw [Sense.betterEQ_iff] at this
    rw [Sense.better_false]
    rename_i heq
    rw [heq]; exact this
  · exact Or.inl ((searchT_sound F H hp0 h).2 hs)

/-- If the relaxed diagram of the root is exact, a search that is not stopped ends with the optimum. -/
theorem searchT_exact {T : Nat → Int → Mdl σ} {lc : Nat → Int → Option (σ → Ctx → Int)} (F : ∀ k, Fam m rank (T k)) (H : Layered m rank m.sti 0) {p0 : Int} (hp0 : m.sense.betterEQ p0 m.sense.best0 = true)
    (hW : m.loc = none → ∀ ls c, Sol m ls c → m.sense.betterEQ m.sense.worst0 c = true)
    {w dfuel fuel : Nat} (hX : ∀ k p r g, r.st = m.sti → r.bound = 0 → relaxed (T k p) p w dfuel r = some g → g.exact = true) {lim : Nat → Bool} {s : BS σ}
    (h : searchT m T lc w dfuel lim fuel p0 = some s) (hns : s.stopped = false) :
    (∀ ls c, Sol m ls c → m.sense.betterEQ s.primal c = true) ∧
    (Sol m s.inc s.primal ∨ (s.primal = p0 ∧ ∀ ls c, Sol m ls c → m.sense.better c p0 = false)) := by
  obtain ⟨a, b⟩ := searchV_exact F H hp0 (fun hl c ⟨ls, hc⟩ => hW hl ls c hc) hX h hns
  exact ⟨fun ls c hc => a c ⟨ls, hc⟩, b.imp id fun ⟨x, y⟩ => ⟨x, fun ls c hc => y c ⟨ls, hc⟩⟩⟩

/-- C74 (`search_room` below) for the completions the model keeps (`FamV`). -/
theorem searchV_room {T : Nat → Int → Mdl σ} {lc : Nat → Int → Option (σ → Ctx → Int)} (F : ∀ k, FamV Vl (Wl k) m rank (T k)) (H : LayeredV Vl m rank m.sti 0) {p0 : Int} (hp0 : m.sense.betterEQ p0 m.sense.best0 = true)
    (hW : m.loc = none → ∀ c, Vl m.sti c → m.sense.betterEQ m.sense.worst0 c = true)
    {w dfuel fuel : Nat} (hR : Room m rank m.sti w) {lim : Nat → Bool} {s : BS σ}
    (h : searchT m T lc w dfuel lim fuel p0 = some s) (hns : s.stopped = false) :
    (∀ c, Vl m.sti c → m.sense.betterEQ s.primal c = true) ∧
    (Sol m s.inc s.primal ∨ (s.primal = p0 ∧ ∀ c, Vl m.sti c → m.sense.better c p0 = false)) :=
  searchV_exact F H hp0 hW (fun k p r g h1 h2 hg => by
    have L := (F k).lay p m.sti [] 0 (Path.nil _) H.src
    rw [← h1, ← h2] at L
    exact relaxed_room L (by rw [h1]; exact fam_room (F k) hR) hg) h hns

/-- C74 (`search_room` below) for a model whose labels may depend on the primal bound and whose
local bound may change between iterations. -/
theorem searchT_room {T : Nat → Int → Mdl σ} {lc : Nat → Int → Option (σ → Ctx → Int)} (F : ∀ k, Fam m rank (T k)) (H : Layered m rank m.sti 0) {p0 : Int} (hp0 : m.sense.betterEQ p0 m.sense.best0 = true)
    (hW : m.loc = none → ∀ ls c, Sol m ls c → m.sense.betterEQ m.sense.worst0 c = true)
    {w dfuel fuel : Nat} (hR : Room m rank m.sti w) {lim : Nat → Bool} {s : BS σ}
    (h : searchT m T lc w dfuel lim fuel p0 = some s) (hns : s.stopped = false) :
    (∀ ls c, Sol m ls c → m.sense.betterEQ s.primal c = true) ∧
    (Sol m s.inc s.primal ∨ (s.primal = p0 ∧ ∀ ls c, Sol m ls c → m.sense.better c p0 = false)) := by
  obtain ⟨a, b⟩ := searchV_room F H hp0 (fun hl c ⟨ls, hc⟩ => hW hl ls c hc) hR h hns
  exact ⟨fun ls c hc => a c ⟨ls, hc⟩, b.imp id fun ⟨x, y⟩ => ⟨x, fun ls c hc => y c ⟨ls, hc⟩⟩⟩

/-- C74 (`search_room` below) for a model whose labels may depend on the primal bound. -/
theorem searchP_room (F : Fam m rank M) (H : Layered m rank m.sti 0) {p0 : Int} (hp0 : m.sense.betterEQ p0 m.sense.best0 = true)
    (hW : m.loc = none → ∀ ls c, Sol m ls c → m.sense.betterEQ m.sense.worst0 c = true)
    {w dfuel fuel : Nat} (hR : Room m rank m.sti w) {lim : Nat → Bool} {s : BS σ}
    (h : searchP m M w dfuel lim fuel p0 = some s) (hns : s.stopped = false) :
    (∀ ls c, Sol m ls c → m.sense.betterEQ s.primal c = true) ∧
    (Sol m s.inc s.primal ∨ (s.primal = p0 ∧ ∀ ls c, Sol m ls c → m.sense.better c p0 = false)) :=
  searchT_room (fun _ => F) H hp0 hW hR h hns

/-- C74: with a width no layer exceeds, a search that is not stopped ends with the optimum: nothing
beats its primal bound.  Nothing is asked of the merge and dominance functions beyond `Layered`.
`hW`: without a local bound the root enters the queue with key `initialWorst`. -/
theorem search_room (H : Layered m rank m.sti 0) {p0 : Int} (hp0 : m.sense.betterEQ p0 m.sense.best0 = true)
    (hW : m.loc = none → ∀ ls c, Sol m ls c → m.sense.betterEQ m.sense.worst0 c = true)
    {w dfuel fuel : Nat} (hR : Room m rank m.sti w) {lim : Nat → Bool} {s : BS σ}
    (h : search m w dfuel lim fuel p0 = some s) (hns : s.stopped = false) :
    (∀ ls c, Sol m ls c → m.sense.betterEQ s.primal c = true) ∧
    (Sol m s.inc s.primal ∨ (s.primal = p0 ∧ ∀ ls c, Sol m ls c → m.sense.better c p0 = false)) :=
  searchP_room (Fam.const H) H hp0 hW hR h hns

/-- A listed set of reachable states decides `Room`. -/
theorem room_of {U : List σ} {s0 : σ} {w : Nat} (hU : ∀ s ls c, Path m s0 ls c s → s ∈ U)
    (h : U.all (fun a => decide ((U.filter (fun b => rank b = rank a && !m.eqs b)).length ≤ w)) = true) : Room m rank s0 w := by
  intro k L hn hL
  cases L with
  | nil => simp
  | cons a L =>
    obtain ⟨_, hk, ls, c, hp⟩ := hL a (by simp)
    rw [List.all_eq_true] at h
    have := h a (hU _ _ _ hp)
    simp only [decide_eq_true_eq] at this
    refine Nat.le_trans ?_ this
    haveI : DecidableEq σ := fun _ _ => Classical.propDecidable _
    refine nodup_inj_le id hn (fun x y _ _ e => e) ?_
    intro x hx
    obtain ⟨b1, b2, ls, c, hp⟩ := hL x hx
    simp only [id, List.mem_filter, Bool.and_eq_true, Bool.not_eq_true', decide_eq_true_eq]
    exact ⟨hU _ _ _ hp, b2.trans hk.symm, b1⟩

/-- Counting decisions decides `Room` in a layered model. -/
theorem room_level (H : LayeredV Vl m rank m.sti 0) {N : Nat} (hN : RankBound m rank m.sti 0 N) {w : Nat}
    (h : ∀ d, d ≤ N → (level m d).length ≤ w) : Room m rank m.sti w := by
  intro k L hn hL
  cases L with
  | nil => simp
  | cons a L =>
    have key : ∀ x, x ∈ a :: L → x ∈ level m (k - rank m.sti) ∧ k ≤ N := by
      intro x hx
      obtain ⟨b1, b2, ls, c, hp⟩ := hL x hx
      have h1 := path_rank H hp 0 Relx.root b1
      have h2 := hN _ _ (hp.relx Relx.root) b1
      have h3 := mem_level hp 0 (by simp [level])
      rw [Nat.zero_add] at h3
      rw [show k - rank m.sti = ls.length by omega]
      exact ⟨h3, by omega⟩
    refine Nat.le_trans ?_ (h (k - rank m.sti) (by have := (key a (by simp)).2; omega))
    haveI : DecidableEq σ := fun _ _ => Classical.propDecidable _
    exact nodup_inj_le id hn (fun x y _ _ e => e) (fun x hx => (key x hx).1)

/-- The model on which width 2 ends with 19 (`rereach_false`) has at most six reachable states of a
layer; at width 6 the search ends with the optimum 14. -/
example : ∃ s, search f3 6 50 (fun _ => false) 50 2147483647 = some s ∧ s.primal = 14 ∧ s.inc = [1, 0, 0, 1, 0] ∧
    ∀ ls c, Sol f3 ls c → 14 ≤ c := by
  have hv : (search f3 6 50 (fun _ => false) 50 2147483647).map (fun s => (s.primal, s.inc, s.stopped)) =
      some (14, [1, 0, 0, 1, 0], false) := by decide +kernel
  simp only [Option.map_eq_some_iff] at hv
  obtain ⟨s, h1, h2⟩ := hv
  simp at h2
  refine ⟨s, h1, h2.1, h2.2.1, fun ls c hc => ?_⟩
  have hin : ∀ s v, Relx f3 f3rank 0 0 s v → (s, v) ∈ closeR f3 f3rank 7 := fun s v h =>
    layChk_relx (N := 7) (by decide +kernel) (by decide +kernel) (by decide +kernel) h
  have hR : Room f3 f3rank f3.sti 6 := by
    refine room_of (U := ((closeR f3 f3rank 7).map (·.1)).eraseDups) (fun s ls c hp => ?_) (by decide +kernel)
    rw [List.mem_eraseDups]
    exact List.mem_map.2 ⟨_, hin _ _ (hp.relx Relx.root), rfl⟩
  have hb := (search_room f3_layered (by decide) (fun _ ls c hc => ?_) hR h1 h2.2.2).1 ls c hc
  · rw [h2.1] at hb
    simpa [f3, gm, Sense.betterEQ] using hb
  · have := vals_complete (N := 7) (R := closeR f3 f3rank 7) (by decide) (by decide +kernel) (by decide +kernel : ((0 : Nat), (0 : Int)) ∈ _) hc rfl
    have hall : (vals f3 7 0).all (fun c => f3.sense.betterEQ f3.sense.worst0 c) = true := by decide +kernel
    rw [List.all_eq_true] at hall
    exact hall _ this

end Verif.BB
