import Verif.BB
import Verif.Props.DD
import Verif.Exact
/-!
# Models whose label generator reads the primal bound

The generator of a model may capture the `Bounds` object and drop labels that cannot improve on the
primal bound (examples/coloringtoy.cpp:77-82).  `m` is the problem itself, `M p` what the generator
shows of it while the primal bound is `p`.
-/
namespace Verif.DD
set_option linter.unusedSectionVars false
variable {σ : Type} {m : Mdl σ} {rank : σ → Nat} {M : Int → Mdl σ} [Same σ]

/-- What is asked of such a model: only the labels and the local bound differ; no label is invented; a
completion of a reachable state that improves on the bound survives, perhaps as another one of the
same cost; each `M p` is a valid model from every state the problem can reach.  `Vl s c` says which
completions of `s` have to survive, `Wl p s c` which ones are looked after while the bound is `p`. -/
structure FamV (Vl : σ → Int → Prop) (Wl : Int → σ → Int → Prop) (m : Mdl σ) (rank : σ → Nat) (M : Int → Mdl σ) : Prop where
  same : ∀ p, M p = { m with lgf := (M p).lgf, loc := (M p).loc }
  sub : ∀ p s l, l ∈ (M p).lgf s → l ∈ m.lgf s
  keep : ∀ p s ls v c, Path m m.sti ls v s → Vl s c → m.sense.better (v + c) p = true → Wl p s c
  back : ∀ p s c, Wl p s c → Vl s c
  lay : ∀ p s ls v, Path m m.sti ls v s → m.eqs s = false → LayeredV (Wl p) (M p) rank s v

/-- All completions of the problem have to survive. -/
abbrev Fam (m : Mdl σ) (rank : σ → Nat) (M : Int → Mdl σ) : Prop := FamV (Val m) (fun p => Val (M p)) m rank M

theorem step_sub {m m' : Mdl σ} (h1 : m' = { m with lgf := m'.lgf, loc := m'.loc }) (h2 : ∀ s l, l ∈ m'.lgf s → l ∈ m.lgf s)
    {s s' : σ} {l : Int} (h : Step m' s l s') : Step m s l s' := by
  obtain ⟨a, b, c⟩ := h
  rw [h1] at a c
  exact ⟨a, h2 s l b, c⟩

theorem path_sub {m m' : Mdl σ} (h1 : m' = { m with lgf := m'.lgf, loc := m'.loc }) (h2 : ∀ s l, l ∈ m'.lgf s → l ∈ m.lgf s)
    {s t : σ} {ls : List Int} {c : Int} (h : Path m' s ls c t) : Path m s ls c t := by
  induction h with
  | nil s => exact Path.nil s
  | cons hs _ ih =>
    have := Path.cons (step_sub h1 h2 hs) ih
    have e : m'.stc = m.stc := by rw [h1]
    rwa [← e] at this

/-- Fewer labels, fewer completions. -/
theorem val_sub {m m' : Mdl σ} (h1 : m' = { m with lgf := m'.lgf, loc := m'.loc }) (h2 : ∀ s l, l ∈ m'.lgf s → l ∈ m.lgf s)
    {s : σ} {c : Int} (h : Val m' s c) : Val m s c := by
  obtain ⟨ls, h⟩ := h
  have := path_sub h1 h2 h
  have e : m'.stt = m.stt := by rw [h1]
  rw [e] at this
  exact ⟨ls, this⟩

/-- Fewer labels, fewer relaxed states. -/
theorem relx_sub {m m' : Mdl σ} (h1 : m' = { m with lgf := m'.lgf, loc := m'.loc }) (h2 : ∀ s l, l ∈ m'.lgf s → l ∈ m.lgf s)
    {s t : σ} {v w : Int} (h : Relx m' rank s v t w) : Relx m rank s v t w := by
  have e1 : m'.stc = m.stc := by rw [h1]
  have e2 : m'.eqs = m.eqs := by rw [h1]
  have e3 : m'.smf = m.smf := by rw [h1]
  induction h with
  | root => exact Relx.root
  | step _ hs ih =>
    have := ih.step (step_sub h1 h2 hs)
    rwa [← e1] at this
  | mergeL _ _ a b c d ih1 ih2 =>
    rw [e2] at a b
    rw [e3] at d
    exact ih1.mergeL ih2 a b c d
  | mergeR _ _ a b c d ih1 ih2 =>
    rw [e2] at a b
    rw [e3] at d
    exact ih1.mergeR ih2 a b c d
  | swap _ _ a ih1 ih2 => exact ih1.swap ih2 a

/-- A model that does not look at the bound. -/
theorem Fam.const (H : Layered m rank m.sti 0) : Fam m rank (fun _ => m) where
  same := fun _ => rfl
  sub := fun _ _ _ h => h
  keep := fun _ _ _ _ _ _ h _ => h
  back := fun _ _ _ h => h
  lay := fun _ s ls v hp hq => by
    have := H.of_path hp hq
    rwa [Int.zero_add] at this

namespace FamV
variable {Vl : σ → Int → Prop} {Wl : Int → σ → Int → Prop} (F : FamV Vl Wl m rank M)
include F

theorem sense (p : Int) : (M p).sense = m.sense := by rw [F.same p]
theorem stt (p : Int) : (M p).stt = m.stt := by rw [F.same p]
theorem sti (p : Int) : (M p).sti = m.sti := by rw [F.same p]
theorem stf (p : Int) : (M p).stf = m.stf := by rw [F.same p]
theorem stc (p : Int) : (M p).stc = m.stc := by rw [F.same p]
theorem smf (p : Int) : (M p).smf = m.smf := by rw [F.same p]
theorem eqs (p : Int) : (M p).eqs = m.eqs := by rw [F.same p]
theorem sdom (p : Int) : (M p).sdom = m.sdom := by rw [F.same p]

theorem step {p : Int} {s s' : σ} {l : Int} (h : Step (M p) s l s') : Step m s l s' := step_sub (F.same p) (F.sub p) h

theorem path {p : Int} {s t : σ} {ls : List Int} {c : Int} (h : Path (M p) s ls c t) : Path m s ls c t :=
  path_sub (F.same p) (F.sub p) h

theorem val {p : Int} {s : σ} {c : Int} (h : Val (M p) s c) : Val m s c := val_sub (F.same p) (F.sub p) h

theorem relx {p : Int} {s t : σ} {v w : Int} (h : Relx (M p) rank s v t w) : Relx m rank s v t w :=
  relx_sub (F.same p) (F.sub p) h

/-! The facts about one compilation, in terms of the problem. -/

section
variable {r : Src σ} {p : Int} (hp : Path m m.sti r.lab r.bound r.st) (hq : m.eqs r.st = false)
include hp hq

theorem relaxed_dual {w f : Nat} {g : G σ} (h : relaxed (M p) p w f r = some g) {c : Int} (hv : Vl r.st c)
    (hi : m.sense.better (r.bound + c) p = true) : m.sense.betterEQ (g.bound g.trg) (r.bound + c) = true := by
  have hl := F.keep p _ _ _ _ hp hv hi
  have := DD.relaxed_dualV (F.lay p _ _ _ hp hq) h hl (by rw [F.sense]; exact hi)
  rwa [F.sense] at this

theorem relaxed_exact {w f : Nat} {g : G σ} (h : relaxed (M p) p w f r = some g) (hx : g.exact = true) :
    (g.bound g.trg = m.sense.best0 ∨
      ∃ ls c, g.lab g.trg = r.lab ++ ls ∧ g.bound g.trg = r.bound + c ∧ Path m r.st ls c m.stt) ∧
    (∀ c, Vl r.st c → m.sense.better (r.bound + c) p = true → m.sense.betterEQ (g.bound g.trg) (r.bound + c) = true) := by
  refine ⟨?_, fun c hv hi => F.relaxed_dual hp hq h hv hi⟩
  rcases DD.relaxed_exact_real (F.lay p _ _ _ hp hq) h hx with a | ⟨ls, c, a, b, d⟩
  · left; rw [a, F.sense]
  · right
    have := F.path d
    rw [F.stt] at this
    exact ⟨ls, c, a, b, this⟩

theorem restricted_primal {w f : Nat} {g : G σ} (h : restricted (M p) p w f r = some g) :
    g.bound g.trg = m.sense.best0 ∨
    ∃ ls c, g.lab g.trg = r.lab ++ ls ∧ g.bound g.trg = r.bound + c ∧ Path m r.st ls c m.stt := by
  have H := F.lay p _ _ _ hp hq
  rcases DD.restricted_primal H.sink H.src (InRange.of_layered H) h H.fair.toUniq with a | ⟨ls, c, a, b, d⟩
  · left; rw [a, F.sense]
  · right
    have := F.path d
    rw [F.stt] at this
    exact ⟨ls, c, a, b, this⟩

theorem restricted_exact {w f : Nat} {g : G σ} (h : restricted (M p) p w f r = some g) (hx : g.exact = true) {c : Int}
    (hv : Vl r.st c) (hi : m.sense.better (r.bound + c) p = true) :
    m.sense.betterEQ (g.bound g.trg) (r.bound + c) = true := by
  have hl := F.keep p _ _ _ _ hp hv hi
  have := DD.restricted_exactV (F.lay p _ _ _ hp hq) h hx hl (by rw [F.sense]; exact hi)
  rwa [F.sense] at this

theorem rankBound {N : Nat} (hN : RankBound m rank m.sti 0 N) : RankBound (M p) rank r.st r.bound N := by
  intro x v hx hqx
  have h0 := hp.relx (rank := rank) (v0 := 0) Relx.root
  rw [Int.zero_add] at h0
  rw [F.eqs] at hqx
  exact hN x v (h0.trans (F.relx hx)) hqx

end
end FamV
end Verif.DD
