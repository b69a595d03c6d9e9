import Verif.Fl.Search
/-!
# Compilations and searches over machine numbers end
-/
namespace Verif.Fl
open Verif.DD
open Verif.BB (BS qord setPrimal)
set_option linter.unusedSectionVars false
variable {σ : Type} {Vl : σ → Int → Prop} {P : Num} {m : Mdl σ} {rank : σ → Nat} {M : Int → Mdl σ} [Same σ] {r : Src σ} {prim : Int} {rel : Bool}

/-- Ranks of everything reachable are at most `N`. -/
def RB (m : Mdl σ) (rank : σ → Nat) (s0 : σ) (N : Nat) : Prop :=
  ∀ s, Rch m rank s0 s → m.eqs s = false → rank s ≤ N

theorem ne1 (H : LayV Vl P m rank r.st r.bound) {g : G σ} {d p : Nat} {A B : List Nat} {rem : List Int}
    (h : Inv Vl P m rank r prim rel g d A B p rem) {i : Nat}
    (hq : m.eqs (g.st i) = false) : i ≠ 1 := by
  intro hh
  rw [hh, h.st1, H.sink] at hq; simp at hq

theorem rch_sub {m m' : Mdl σ} (h1 : m' = { m with lgf := m'.lgf, loc := m'.loc }) (h2 : ∀ s l, l ∈ m'.lgf s → l ∈ m.lgf s)
    {s t : σ} (h : Rch m' rank s t) : Rch m rank s t := by
  have e2 : m'.eqs = m.eqs := by rw [h1]
  have e3 : m'.smf = m.smf := by rw [h1]
  induction h with
  | root => exact .root
  | step _ hs ih => exact ih.step (step_sub h1 h2 hs)
  | merge _ _ a b c d ih1 ih2 =>
    rw [e2] at a b
    rw [e3] at d
    exact ih1.merge ih2 a b c d

theorem Fm.rb (F : Fm P m rank M) {p v : Int} {s : σ} {ls : List Int} (hp : Run P m m.sti 0 ls s v) {N : Nat} (hN : RB m rank m.sti N) :
    RB (M p) rank s N := by
  intro x hx hq
  rw [F.eqs] at hq
  obtain ⟨c, hp⟩ := hp.path
  exact hN x ((rch_of_path hp .root).trans (rch_sub (F.same p) (F.sub p) hx)) hq

theorem relLoop_some (H : LayV Vl P m rank r.st r.bound) {M : Nat} (hM : RB m rank r.st M) (w : Nat) :
    ∀ (f : Nat) (g : G σ) (q : LQ) (d p : Nat),
    q.rest = [] → Inv Vl P m rank r prim true g d [] q.next p [] → AnOK g 1 → 1 ≤ f → M < rank r.st + d + f →
    ∃ g', Fl.relLoop P m prim w f g q = some g' := by
  intro f
  induction f with
  | zero => intro g q d p _ _ _ h1; omega
  | succ f ih =>
    intro g q d p hr h ha _ hf
    unfold Fl.relLoop
    split
    · exact ⟨g, rfl⟩
    · rename_i hc
      dsimp only
      have hd : rank r.st + d + 1 ≤ M := by
        cases hn : q.next with
        | nil => exact absurd ⟨by simp [hn], by simp [hr]⟩ hc
        | cons a as =>
          obtain ⟨a1, a2, _, a4⟩ := h.Bm a (by simp [hn])
          have := hM _ (h.rxs a a1.1 (ne1 H h a2)) a2
          omega
      obtain ⟨w1, w2, w3⟩ := pull_inv H w hr h ha
      rw [w3]
      generalize hv : Fl.relNodes P m prim (Fl.pull P m w g q).2.1 (Fl.pull P m w g q).1 ⟨[], []⟩ = v
      obtain ⟨g1, q1⟩ := v
      obtain ⟨x1, x2, x3, x4⟩ := relNodes_inv H _ _ _ p rfl w1.shift w2 g1 q1 hv
      obtain ⟨p', x2⟩ := x2
      exact ih g1 q1 (d + 1) p' x1 x2 x3 (by omega) (by omega)

/-- A relaxed compilation finishes: one round per rank suffices, and no null location is met. -/
theorem relaxed_some (H : Lay P m rank r.st r.bound) {M : Nat} (hM : RB m rank r.st M) (w : Nat)
    {f : Nat} (hf : M + 2 ≤ f) : ∃ g, Fl.relaxed P m prim w f r = some g := by
  obtain ⟨h1, h2, _⟩ := start2_inv (prim := prim) (rel := true) H.toV
  have hl : ∃ g0, Fl.relLoop P m prim w f (Fl.start2 P m r) (LQ.enQueue (Fl.start2 P m r) ⟨[], []⟩ (Fl.start2 P m r).root) = some g0 := by
    rw [h1.root]
    cases f with
    | zero => omega
    | succ f =>
      unfold Fl.relLoop
      simp only [LQ.enQueue, List.isEmpty_cons, Bool.false_eq_true, false_and, if_false]
      have hp : Fl.pull P m w (Fl.start2 P m r) ⟨[0], []⟩ = (Fl.start2 P m r, [0], ⟨[], []⟩) := by
        unfold Fl.pull
        have : relSort m (Fl.start2 P m r) [0] = [0] := rfl
        rw [this, mergeLayer_single]
      rw [hp]
      dsimp only
      generalize hv : Fl.relNodes P m prim [0] (Fl.start2 P m r) ⟨[], []⟩ = v
      obtain ⟨g1, q1⟩ := v
      obtain ⟨x1, x2, x3, x4⟩ := relNodes_inv H.toV _ _ _ 0 rfl h1 h2 g1 q1 hv
      obtain ⟨p', x2⟩ := x2
      exact relLoop_some H.toV hM w f g1 q1 0 p' x1 x2 x3 (by omega) (by omega)
  obtain ⟨g0, hl⟩ := hl
  obtain ⟨⟨d, p, hi⟩, ha⟩ := relaxed_inv H.toV hl
  obtain ⟨bd, lb, t1, _⟩ := tighten_trg (P := P) (m := m) hi.trg
  obtain ⟨ρ, wg⟩ := fin_wg hi ha
  have wg' : Wg ({ g0 with bound := upd g0.bound 1 bd, lab := upd g0.lab 1 lb } : G σ) ρ :=
    ⟨wg.nd, wg.kids, wg.par, wg.kn, wg.pn, wg.src, wg.dst, wg.up⟩
  obtain ⟨b, c1, _⟩ := computeBestBackward_eq (P := P) (m := m) wg'
  rw [← t1] at c1
  have hr : Fl.relaxed P m prim w f r = Fl.computeBestBackward P m (Fl.tighten P m g0 g0.trg) := by
    unfold Fl.relaxed
    dsimp only
    rw [hl]; rfl
  exact ⟨_, hr.trans c1⟩

theorem resLoop_some (H : LayV Vl P m rank r.st r.bound) {M : Nat} (hM : RB m rank r.st M) (w : Nat) :
    ∀ (f : Nat) (g : G σ) (q : List Nat) (d p : Nat),
    Inv Vl P m rank r prim false g d q [] p [] → AnOK g 1 → 1 ≤ f → M + 2 ≤ rank r.st + d + f →
    ∃ g', Fl.resLoop P m prim w f g q = some g' := by
  intro f
  induction f with
  | zero => intro g q d p _ _ h1; omega
  | succ f ih =>
    intro g q d p h ha _ hf
    unfold Fl.resLoop
    split
    · exact ⟨g, rfl⟩
    · rename_i hc
      dsimp only
      have hd : rank r.st + d ≤ M := by
        cases hn : q with
        | nil => simp [hn] at hc
        | cons a as =>
          obtain ⟨a1, a2, _, a4⟩ := h.Am a (by simp [hn])
          have := hM _ (h.rxs a a1.1 (ne1 H h a2)) a2
          omega
      obtain ⟨p1, p2⟩ := resPull (m := m) g d q (fun i hi => (h.Am i hi).2.2.1)
      rw [p2]
      have h1 := h.perm (p1.nodup_iff.2 h.An) (by simp) (fun i => p1.mem_iff) (fun i => Iff.rfl)
      generalize hv : Fl.resNodes P m prim w (pullLayer m g q).1 g [] = v
      obtain ⟨g1, q1⟩ := v
      obtain ⟨⟨p', x2⟩, x3⟩ := resNodes_inv H w _ _ _ p h1 ha g1 q1 hv
      exact ih g1 q1 (d + 1) p' x2.shift x3 (by omega) (by omega)

/-- A restricted compilation finishes. -/
theorem restricted_some (H : Lay P m rank r.st r.bound) {M : Nat} (hM : RB m rank r.st M) (w : Nat)
    {f : Nat} (hf : M + 2 ≤ f) : ∃ g, Fl.restricted P m prim w f r = some g := by
  obtain ⟨h1, h2, _⟩ := start2_inv (prim := prim) (rel := false) H.toV
  obtain ⟨g0, hl⟩ := resLoop_some H.toV hM w f _ [0] 0 _ h1 h2 (by omega) (by omega)
  refine ⟨Fl.tighten P m g0 g0.trg, ?_⟩
  unfold Fl.restricted
  dsimp only
  rw [h1.root, hl]
  rfl

theorem expand_some {lc : Int → Option (σ → Ctx → Int)} (F : Fm P m rank M) {N : Nat} (hN : RB m rank m.sti N) {wres fuel : Nat} (hf : N + 2 ≤ fuel)
    {s : BS σ} {cur : Nat} (hP : PInv P m s) (hc : cur < s.pn) : ∃ s', Fl.expandP P m M lc wres fuel s cur = some s' := by
  obtain ⟨hgen, hopen⟩ := hP.gen cur hc
  obtain ⟨g, hg⟩ := relaxed_some (prim := s.primal) (r := s.src cur) (F.lay s.primal _ _ _ hgen hopen)
    (F.rb hgen hN) s.wrel hf
  unfold Fl.expandP
  rw [hg]
  simp only [Option.bind_some]
  split
  · obtain ⟨s1, hs1⟩ : ∃ s1, s1 = if g.exact = true then setPrimal m s (g.bound g.trg) (g.lab g.trg) else s := ⟨_, rfl⟩
    rw [← hs1]
    have hsrc : s1.src cur = s.src cur := by rw [hs1]; split <;> rfl
    rw [hsrc]
    obtain ⟨r, hr⟩ := restricted_some (prim := s1.primal) (r := s.src cur) (F.lay s1.primal _ _ _ hgen hopen)
      (F.rb hgen hN) wres hf
    rw [hr]
    simp only [Option.bind_some]
    split
    · obtain ⟨_, cs, hcs, _⟩ := relaxed_cut (r := s.src cur) (F.lay s.primal _ _ _ hgen hopen) hg
      rw [hcs]
      exact ⟨_, rfl⟩
    · exact ⟨_, rfl⟩
  · exact ⟨_, rfl⟩

theorem PInv.card {s : BS σ} (h : PInv P m s) {U : List σ}
    (hU : ∀ x ls c, Path m m.sti ls c x → m.eqs x = false → x ∈ U) : s.pn ≤ U.length := by
  haveI : DecidableEq σ := fun _ _ => Classical.propDecidable _
  have := nodup_inj_le s.pst (l := List.range s.pn) (k := U) List.nodup_range
    (fun x y hx hy => h.inj x y (by simpa using hx) (by simpa using hy)) (by
    intro i hi
    obtain ⟨a, b⟩ := h.gen i (by simpa using hi)
    obtain ⟨c, a⟩ := a.path
    exact hU _ _ _ a b)
  simpa using this

theorem loop_some {M : Nat → Int → Mdl σ} {lc : Nat → Int → Option (σ → Ctx → Int)} (F : ∀ k, Fm P m rank (M k)) {p0 : Int} (hp0 : m.sense.betterEQ p0 (P.best0 m.sense) = true) {N : Nat}
    (hN : RB m rank m.sti N) {U : List σ} (hU : ∀ x ls c, Path m m.sti ls c x → m.eqs x = false → x ∈ U)
    {wres dfuel : Nat} (hf : N + 2 ≤ dfuel) {lim : Nat → Bool} :
    ∀ (f k : Nat) (s : BS σ), PInv P m s → TInv P m p0 s → s.pq.at_ + U.length < f + 1 + s.pn →
      ∃ s', Fl.loopP P m M lc wres dfuel lim f k s = some s' := by
  intro f
  induction f with
  | zero =>
    intro k s hP _ h
    have := hP.card hU
    have := hP.wf.one_le
    omega
  | succ f ih =>
    intro k s hP hT h
    unfold Fl.loopP
    dsimp only
    by_cases he : Heap.empty s.pq = true
    · rw [if_pos he]; exact ⟨_, rfl⟩
    · rw [if_neg he]
      obtain ⟨a1, a2, _, a4, _⟩ := hP.extract (by simpa using he)
      have hT1 : TInv P m p0 { s with pq := (Heap.extractMax (qord m) s.pq).1 } := hT.congr ⟨rfl, rfl, rfl, rfl⟩
      split
      · exact ⟨_, rfl⟩
      · split
        · obtain ⟨s2, h2⟩ := expand_some (wres := wres) (F k) hN hf a1 a2
          obtain ⟨b1, b2, _, _, b5⟩ := expand_inv (F k) hp0 a1 hT1 a2 h2
          rw [h2]
          simp only [Option.bind_some]
          refine ih _ _ b1 b2 ?_
          dsimp only at b5
          omega
        · refine ih _ _ a1 hT1 ?_
          dsimp only; omega

end Verif.Fl
