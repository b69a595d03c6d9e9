import Verif.Sweep
import Verif.ResGen
/-!
# Complete compilations: `Relaxed::compute` and `Restricted::compute` as a whole
-/
namespace Verif.DD
set_option linter.unusedSectionVars false
variable {σ : Type} {Vl : σ → Int → Prop} [Same σ] {m : Mdl σ} {rank : σ → Nat} {r : Src σ} {prim : Int} {rel : Bool}

/-- Nodes ordered by rank, terminal ones last. -/
def rho (m : Mdl σ) (rank : σ → Nat) (g : G σ) (K : Nat) (i : Nat) : Nat :=
  if m.eqs (g.st i) = true then K else rank (g.st i)

theorem fin_wg {g : G σ} (h : Fin Vl m rank r prim rel g) (ha : AnOK g 1) : ∃ ρ, Wg g ρ := by
  obtain ⟨d, p, h⟩ := h
  refine ⟨rho m rank g (rank r.st + d + 1), ha.1, h.kids, h.par, h.kn, h.pn, ?_, ?_, ?_⟩
  · intro e he
    have := (h.esrc e he).1
    exact (ha.2 _).2 ⟨this.1, Or.inl this⟩
  · intro e he
    have := h.toStr.ed_lv he
    exact (ha.2 _).2 ⟨this.1, Or.inl this⟩
  · intro e he
    obtain ⟨h1, h2, _⟩ := h.esrc e he
    unfold rho
    rw [if_neg (by simp [h2])]
    split
    · rcases h.done _ h1 h2 with x | x | x
      · simp at x
      · simp at x
      · omega
    · rename_i hq
      rcases h.erank e he with x | x
      · exact absurd x hq
      · omega

section

/-- Everything known about a compiled relaxed diagram `g`: it extends a finished diagram `g0` by
the sink's bound and labels and the backward bounds. -/
structure RelFacts (Vl : σ → Int → Prop) (m : Mdl σ) (rank : σ → Nat) (r : Src σ) (prim : Int) (g0 g : G σ) : Prop where
  fin : Fin Vl m rank r prim true g0
  an : AnOK g0 1
  shape : ∃ bd lb b, g = { g0 with bound := upd g0.bound 1 bd, lab := upd g0.lab 1 lb, bb := b }
  sink : (g0.par 1 = [] ∧ g.bound 1 = m.sense.best0) ∨
    (∃ e, e ∈ g0.par 1 ∧ g.bound 1 = g0.bound (g0.es e) + g0.eo e ∧ g.lab 1 = g0.lab (g0.es e) ++ [g0.el e])
  sinkBest : ∀ e, e ∈ g0.par 1 → m.sense.k (g0.bound (g0.es e) + g0.eo e) ≤ m.sense.k (g.bound 1)
  back : ∀ n, n ∈ g0.an → g.bb n = kidLoop m g (g0.kids n)
    (if (g0.kids n).isEmpty then (if n = 1 then 0 else m.sense.best0) else m.sense.best0)

theorem relaxed_facts (H : LayeredV Vl m rank r.st r.bound) {w f : Nat} {g : G σ}
    (h : relaxed m prim w f r = some g) : ∃ g0, RelFacts Vl m rank r prim g0 g := by
  unfold relaxed at h
  simp only [Option.bind_eq_some_iff] at h
  obtain ⟨g0, h1, h2⟩ := h
  obtain ⟨hf, ha⟩ := relaxed_inv H h1
  obtain ⟨d, p, hi⟩ := hf
  have ht := hi.trg
  obtain ⟨bd, lb, t1, t2, t3⟩ := tighten_trg (m := m) ht (fin_inrange H ⟨d, p, hi⟩)
  rw [t1] at h2
  obtain ⟨ρ, wg⟩ := fin_wg (m := m) (rank := rank) (r := r) (prim := prim) (rel := true) ⟨d, p, hi⟩ ha
  have wg' : Wg ({ g0 with bound := upd g0.bound 1 bd, lab := upd g0.lab 1 lb } : G σ) ρ :=
    ⟨wg.nd, wg.kids, wg.par, wg.kn, wg.pn, wg.src, wg.dst, wg.up⟩
  obtain ⟨b, c1, c2, _⟩ := computeBestBackward_eq (m := m) wg'
  rw [c1] at h2
  simp only [Option.some.injEq] at h2
  subst h2
  refine ⟨g0, ⟨d, p, hi⟩, ha, ⟨bd, lb, b, rfl⟩, ?_, ?_, ?_⟩
  · show (_ ∧ upd g0.bound 1 bd 1 = _) ∨ (∃ e, e ∈ g0.par 1 ∧ upd g0.bound 1 bd 1 = _ ∧ upd g0.lab 1 lb 1 = _)
    rw [upd_same, upd_same]; exact t2
  · show ∀ e, e ∈ g0.par 1 → _ ≤ m.sense.k (upd g0.bound 1 bd 1)
    rw [upd_same]; exact t3
  · intro n hn
    have := c2 n hn
    dsimp only at this
    rw [ht] at this
    exact this

theorem RelFacts.inv {g0 g : G σ} (F : RelFacts Vl m rank r prim g0 g) :
    ∃ d p, Inv Vl m rank r prim true g0 d [] [] p [] := F.fin

theorem RelFacts.bound {g0 g : G σ} (F : RelFacts Vl m rank r prim g0 g) {i : Nat} (hi : i ≠ 1) :
    g.bound i = g0.bound i ∧ g.lab i = g0.lab i := by
  obtain ⟨bd, lb, b, rfl⟩ := F.shape
  exact ⟨upd_ne _ _ hi, upd_ne _ _ hi⟩

theorem RelFacts.fields {g0 g : G σ} (F : RelFacts Vl m rank r prim g0 g) :
    g.st = g0.st ∧ g.par = g0.par ∧ g.kids = g0.kids ∧ g.es = g0.es ∧ g.ed = g0.ed ∧ g.eo = g0.eo ∧ g.el = g0.el ∧
    g.ex = g0.ex ∧ g.exact = g0.exact ∧ g.root = 0 ∧ g.trg = 1 ∧ g.nn = g0.nn ∧ g.ne = g0.ne ∧ g.an = g0.an := by
  obtain ⟨d, p, h⟩ := F.fin
  obtain ⟨bd, lb, b, rfl⟩ := F.shape
  exact ⟨rfl, rfl, rfl, rfl, rfl, rfl, rfl, rfl, rfl, h.root, h.trg, rfl, rfl, rfl⟩

/-- Completions of a live node are pruned or no better than its backward bound. -/
theorem back_path (H : LayeredV Vl m rank r.st r.bound) {g0 g : G σ} (F : RelFacts Vl m rank r prim g0 g) :
    ∀ (K n : Nat) (c : Int), Lv g0 n → m.eqs (g0.st n) = false → (∀ i, Lv g0 i → m.eqs (g0.st i) = false →
      rank (g0.st i) < rank (g0.st n) + K) →
      Vl (g0.st n) c → m.sense.better (g0.bound n + c) prim = false ∨ m.sense.k c ≤ m.sense.k (g.bb n) := by
  obtain ⟨d, p, h⟩ := F.fin
  have hst := F.fields
  intro K
  induction K with
  | zero => intro n c h1 h2 h3; have := h3 n h1 h2; omega
  | succ K ih =>
    intro n c h1 h2 h3 hval
    obtain ⟨l, s', c', hst, hp', rfl⟩ := H.ends.open H.sink hval h2
    rcases h.cov (by simp) n h1 h2 (by simp) (by simp) l hst.2.1 (by simp) s' hst.2.2 with hb | ⟨e, e1, e2, e3, e4⟩
    · left
      have := hb c' hp'
      rw [← Int.add_assoc]; exact this
    · obtain ⟨c'', hp'', hc''⟩ := e4 c' hp'
      rw [Sense.betterEQ_iff] at hc''
      have hbd := h.ebd e e1
      rw [e2, e3] at hbd
      have hk := F.back n ((F.an.2 n).2 ⟨h1.1, Or.inl h1⟩)
      have he : e ∈ g0.kids n := (h.kids n e).2 ⟨e1, e2⟩
      have hke := (kidLoop_spec (m := m) g (g0.kids n)
        (if (g0.kids n).isEmpty then (if n = 1 then 0 else m.sense.best0) else m.sense.best0)).2.2 e he
      rw [← hk, F.fields.2.2.2.2.1, F.fields.2.2.2.2.2.1, e3, Sense.k_add] at hke
      by_cases ht : m.eqs (g0.st (g0.ed e)) = true
      · obtain ⟨h1', h0⟩ := H.ends.terminal hp'' ht
        have hed := h.toStr.one_of_stt h.st1 (h.edge e e1).2 h1' H.fair.refl
        have hk1 : g0.kids 1 = [] := by
          rw [List.eq_nil_iff_forall_not_mem]
          intro e' he'
          obtain ⟨a, b⟩ := (h.kids 1 e').1 he'
          have := (h.esrc e' a).2.1
          rw [b, h.st1, H.sink] at this; simp at this
        have hb1 : g.bb 1 = 0 := by
          have := F.back 1 ((F.an.2 1).2 ⟨by have := h.two; omega, Or.inr (Or.inl rfl)⟩)
          rw [hk1] at this; simpa [kidLoop] using this
        right
        rw [hed, hb1, Sense.k_zero] at hke
        rw [Sense.k_add]
        rw [h0, Sense.k_zero] at hc''
        omega
      · have ht : m.eqs (g0.st (g0.ed e)) = false := by simpa using ht
        have hrk := (h.erank e e1).resolve_left (by simp [ht])
        rw [e2] at hrk
        rcases ih (g0.ed e) c'' (h.toStr.ed_lv e1) ht (fun i a b => by have := h3 i a b; omega) hp'' with x | x
        · left
          rw [Sense.better_false] at x ⊢
          simp only [Sense.k_add] at x ⊢
          omega
        · right
          rw [Sense.k_add]
          omega

theorem back_bound (H : LayeredV Vl m rank r.st r.bound) {g0 g : G σ} (F : RelFacts Vl m rank r prim g0 g) {n : Nat} {c : Int}
    (hn : Lv g0 n) (hq : m.eqs (g0.st n) = false) (hv : Vl (g0.st n) c) :
    m.sense.better (g0.bound n + c) prim = false ∨ m.sense.k c ≤ m.sense.k (g.bb n) := by
  obtain ⟨d, p, h'⟩ := F.fin
  exact back_path H F (rank r.st + d + 1) n c hn hq (fun i a b => by
    rcases h'.done i a b with x | x | x
    · simp at x
    · simp at x
    · omega) hv

/-! ### Termination -/

/-- Ranks of everything reachable are at most `M`. -/
def RankBound (m : Mdl σ) (rank : σ → Nat) (s0 : σ) (v0 : Int) (M : Nat) : Prop :=
  ∀ s v, Relx m rank s0 v0 s v → m.eqs s = false → rank s ≤ M

theorem relLoop_some (H : LayeredV Vl m rank r.st r.bound) {M : Nat} (hM : RankBound m rank r.st r.bound M) (w : Nat) :
    ∀ (f : Nat) (g : G σ) (q : LQ) (d p : Nat),
    q.rest = [] → Inv Vl m rank r prim true g d [] q.next p [] → AnOK g 1 → 1 ≤ f → M < rank r.st + d + f →
    ∃ g', relLoop m prim w f g q = some g' := by
  intro f
  induction f with
  | zero => intro g q d p _ _ _ h1; omega
  | succ f ih =>
    intro g q d p hr h ha _ hf
    unfold relLoop
    split
    · exact ⟨g, rfl⟩
    · rename_i hc
      dsimp only
      have hd : rank r.st + d + 1 ≤ M := by
        cases hn : q.next with
        | nil => exact absurd ⟨by simp [hn], by simp [hr]⟩ hc
        | cons a as =>
          obtain ⟨a1, a2, _, a4⟩ := h.Bm a (by simp [hn])
          have := hM _ _ (h.relx a a1) a2
          omega
      obtain ⟨w1, w2, w3⟩ := pull_inv H w hr h ha
      rw [w3]
      generalize hv : relNodes m prim (q.pull m w g).2.1 (q.pull m w g).1 ⟨[], []⟩ = v
      obtain ⟨g1, q1⟩ := v
      obtain ⟨x1, ⟨p', x2⟩, x3, x4⟩ := relNodes_inv H _ _ _ p rfl w1.shift w2 g1 q1 hv
      exact ih g1 q1 (d + 1) p' x1 x2 x3 (by omega) (by omega)

/-- A relaxed compilation finishes: one round per rank suffices, and no null location is met. -/
theorem relaxed_some (H : LayeredV Vl m rank r.st r.bound) {M : Nat} (hM : RankBound m rank r.st r.bound M) (w : Nat)
    {f : Nat} (hf : M + 2 ≤ f) : ∃ g, relaxed m prim w f r = some g := by
  obtain ⟨h1, h2, _⟩ := start2_inv (prim := prim) (rel := true) H
  have hl : ∃ g0, relLoop m prim w f (start2 m r) (LQ.enQueue (start2 m r) ⟨[], []⟩ (start2 m r).root) = some g0 := by
    rw [h1.root]
    cases f with
    | zero => omega
    | succ f =>
      unfold relLoop
      simp only [LQ.enQueue, List.isEmpty_cons, Bool.false_eq_true, false_and, if_false]
      have hp : LQ.pull m w (start2 m r) ⟨[0], []⟩ = (start2 m r, [0], ⟨[], []⟩) := by
        unfold LQ.pull
        have : relSort m (start2 m r) [0] = [0] := rfl
        rw [this, mergeLayer_single]
      rw [hp]
      dsimp only
      generalize hv : relNodes m prim [0] (start2 m r) ⟨[], []⟩ = v
      obtain ⟨g1, q1⟩ := v
      obtain ⟨x1, ⟨p', x2⟩, x3, x4⟩ := relNodes_inv H _ _ _ 0 rfl h1 h2 g1 q1 hv
      exact relLoop_some H hM w f g1 q1 0 p' x1 x2 x3 (by omega) (by omega)
  obtain ⟨g0, hl⟩ := hl
  obtain ⟨hfin, ha⟩ := relaxed_inv H hl
  obtain ⟨d, p, hi⟩ := hfin
  obtain ⟨bd, lb, t1, _⟩ := tighten_trg (m := m) hi.trg (fin_inrange H ⟨d, p, hi⟩)
  obtain ⟨ρ, wg⟩ := fin_wg (m := m) (rank := rank) (r := r) (prim := prim) (rel := true) ⟨d, p, hi⟩ ha
  have wg' : Wg ({ g0 with bound := upd g0.bound 1 bd, lab := upd g0.lab 1 lb } : G σ) ρ :=
    ⟨wg.nd, wg.kids, wg.par, wg.kn, wg.pn, wg.src, wg.dst, wg.up⟩
  obtain ⟨b, c1, _⟩ := computeBestBackward_eq (m := m) wg'
  rw [← t1] at c1
  have hr : relaxed m prim w f r = computeBestBackward m (tighten m g0 g0.trg) := by
    unfold relaxed
    dsimp only
    rw [hl]; rfl
  exact ⟨_, hr.trans c1⟩

theorem resLoop_some (H : LayeredV Vl m rank r.st r.bound) {M : Nat} (hM : RankBound m rank r.st r.bound M) (w : Nat) :
    ∀ (f : Nat) (g : G σ) (q : List Nat) (d p : Nat),
    Inv Vl m rank r prim false g d q [] p [] → AnOK g 1 → 1 ≤ f → M + 2 ≤ rank r.st + d + f →
    ∃ g', resLoop m prim w f g q = some g' := by
  intro f
  induction f with
  | zero => intro g q d p _ _ h1; omega
  | succ f ih =>
    intro g q d p h ha _ hf
    unfold resLoop
    split
    · exact ⟨g, rfl⟩
    · rename_i hc
      dsimp only
      have hd : rank r.st + d ≤ M := by
        cases hn : q with
        | nil => simp [hn] at hc
        | cons a as =>
          obtain ⟨a1, a2, _, a4⟩ := h.Am a (by simp [hn])
          have := hM _ _ (h.relx a a1) a2
          omega
      obtain ⟨p1, p2⟩ := resPull (m := m) g d q (fun i hi => (h.Am i hi).2.2.1)
      rw [p2]
      have h1 := h.perm (p1.nodup_iff.2 h.An) (by simp) (fun i => p1.mem_iff) (fun i => Iff.rfl)
      generalize hv : resNodes m prim w (pullLayer m g q).1 g [] = v
      obtain ⟨g1, q1⟩ := v
      obtain ⟨⟨p', x2⟩, x3⟩ := resNodes_inv H w _ _ _ p h1 ha g1 q1 hv
      exact ih g1 q1 (d + 1) p' x2.shift x3 (by omega) (by omega)

/-- A restricted compilation finishes. -/
theorem restricted_some (H : LayeredV Vl m rank r.st r.bound) {M : Nat} (hM : RankBound m rank r.st r.bound M) (w : Nat)
    {f : Nat} (hf : M + 2 ≤ f) : ∃ g, restricted m prim w f r = some g := by
  obtain ⟨h1, h2, _⟩ := start2_inv (prim := prim) (rel := false) H
  obtain ⟨g0, hl⟩ := resLoop_some H hM w f _ [0] 0 0 h1 h2 (by omega) (by omega)
  refine ⟨tighten m g0 g0.trg, ?_⟩
  unfold restricted
  dsimp only
  rw [h1.root, hl]
  rfl

end
end Verif.DD
