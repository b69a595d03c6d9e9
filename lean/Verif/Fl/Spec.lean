import Verif.Spec
import Verif.Fl.Engine
/-!
# Solutions and their values in machine numbers

What a path costs when its arc costs are added one after the other, from the left, with the machine's
addition.  Nothing here mentions diagrams, nodes or queues.
-/
namespace Verif.Fl
open Verif.DD
variable {σ : Type}

/-- `ls` leads from `s` to `t`, and adding its arc costs one by one to `v` gives `w`. -/
inductive Run (P : Num) (m : Mdl σ) : σ → Int → List Int → σ → Int → Prop
  | nil (s : σ) (v : Int) : Run P m s v [] s v
  | cons {s s' t : σ} {v w l : Int} {ls : List Int} :
      Step m s l s' → Run P m s' (P.add v (m.stc s l)) ls t w → Run P m s v (l :: ls) t w

/-- A solution and its value as the machine adds it up. -/
def Sol (P : Num) (m : Mdl σ) (ls : List Int) (v : Int) : Prop := Run P m m.sti 0 ls m.stt v

theorem Run.snoc {P : Num} {m : Mdl σ} {s t u : σ} {v w l : Int} {ls : List Int} (h : Run P m s v ls t w)
    (hs : Step m t l u) : Run P m s v (ls ++ [l]) u (P.add w (m.stc t l)) := by
  induction h with
  | nil s v => exact .cons hs (.nil _ _)
  | cons h1 _ ih => exact .cons h1 (ih hs)

theorem Run.trans {P : Num} {m : Mdl σ} {s t u : σ} {v w x : Int} {la lb : List Int} (h : Run P m s v la t w)
    (h2 : Run P m t w lb u x) : Run P m s v (la ++ lb) u x := by
  induction h with
  | nil s v => exact h2
  | cons h1 _ ih => exact .cons h1 (ih h2)

/-- A run is a path; only its value differs. -/
theorem Run.path {P : Num} {m : Mdl σ} {s t : σ} {v w : Int} {ls : List Int} (h : Run P m s v ls t w) :
    ∃ c, Path m s ls c t := by
  induction h with
  | nil s v => exact ⟨_, .nil _⟩
  | cons h1 _ ih =>
    obtain ⟨c, ih⟩ := ih
    exact ⟨_, .cons h1 ih⟩

/-- And every path is a run. -/
theorem run_of_path {P : Num} {m : Mdl σ} {s t : σ} {c : Int} {ls : List Int} (h : Path m s ls c t) :
    ∀ v, ∃ w, Run P m s v ls t w := by
  induction h with
  | nil s => exact fun v => ⟨v, .nil _ _⟩
  | cons h1 _ ih =>
    intro v
    obtain ⟨w, hw⟩ := ih (P.add v (m.stc _ _))
    exact ⟨w, .cons h1 hw⟩

/-- The labels determine the value. -/
theorem Run.det {P : Num} {m : Mdl σ} {s t t' : σ} {v w w' : Int} {ls : List Int} (h : Run P m s v ls t w)
    (h' : Run P m s v ls t' w') : t = t' ∧ w = w' := by
  induction h with
  | nil s v => cases h'; exact ⟨rfl, rfl⟩
  | cons h1 _ ih =>
    cases h' with
    | cons h2 h3 =>
      have : some _ = some _ := h1.2.2.symm.trans h2.2.2
      cases this
      exact ih h3

/-- With exact addition a run is a path with its cost. -/
theorem run_exact {P : Num} (hP : ∀ a b, P.add a b = a + b) {m : Mdl σ} {s t : σ} {v w : Int} {ls : List Int} :
    Run P m s v ls t w ↔ Path m s ls (w - v) t := by
  constructor
  · intro h
    induction h with
    | nil s v => rw [Int.sub_self]; exact .nil s
    | @cons s s' t v w l ls h1 _ ih =>
      have := Path.cons h1 ih
      rw [hP] at this
      have e : m.stc s l + (w - (v + m.stc s l)) = w - v := by omega
      rw [← e]; exact this
  · intro h
    generalize hc : w - v = c at h
    induction h generalizing v w with
    | nil s =>
      have : w = v := by omega
      subst this; exact .nil _ _
    | cons h1 _ ih => exact .cons h1 (ih (by rw [hP]; omega))

/-- States that transitions and merges within a layer can produce from `s0`. -/
inductive Rch (m : Mdl σ) (rank : σ → Nat) (s0 : σ) : σ → Prop
  | root : Rch m rank s0 s0
  | step {s s' : σ} {l : Int} : Rch m rank s0 s → Step m s l s' → Rch m rank s0 s'
  | merge {a b c : σ} : Rch m rank s0 a → Rch m rank s0 b → m.eqs a = false → m.eqs b = false → rank a = rank b →
      m.smf a b = some c → Rch m rank s0 c

theorem Rch.trans {m : Mdl σ} {rank : σ → Nat} {s0 s1 s2 : σ} (h1 : Rch m rank s0 s1) (h2 : Rch m rank s1 s2) :
    Rch m rank s0 s2 := by
  induction h2 with
  | root => exact h1
  | step _ h ih => exact ih.step h
  | merge _ _ a b c d ih1 ih2 => exact ih1.merge ih2 a b c d

theorem rch_of_path {m : Mdl σ} {rank : σ → Nat} {s0 s t : σ} {ls : List Int} {c : Int} (h : Path m s ls c t)
    (hs : Rch m rank s0 s) : Rch m rank s0 t := by
  induction h with
  | nil => exact hs
  | cons h1 _ ih => exact ih (hs.step h1)

theorem rch_relx [Same σ] {m : Mdl σ} {rank : σ → Nat} {s0 s : σ} (v0 : Int) (h : Rch m rank s0 s) :
    ∃ v, Relx m rank s0 v0 s v := by
  induction h with
  | root => exact ⟨_, .root⟩
  | step _ h ih => obtain ⟨v, ih⟩ := ih; exact ⟨_, ih.step h⟩
  | merge _ _ a b c d ih1 ih2 =>
    obtain ⟨v, ih1⟩ := ih1
    obtain ⟨w, ih2⟩ := ih2
    exact ⟨_, ih1.mergeL ih2 a b c d⟩

/-- Conditions on the layers only, as `Shape`: the sink is terminal, a step goes to a terminal state or one rank up, a
merge of two states of a layer stays in it, dominance never removes the sink, and the program's equality
tells states apart.  About the numbers: what the machine adds up along a path is better than "no
solution yet". -/
structure Lay [Same σ] (P : Num) (m : Mdl σ) (rank : σ → Nat) (s0 : σ) (v0 : Int) : Prop where
  sink : m.eqs m.stt = true
  src : m.eqs s0 = false
  range : ∀ ls s v, Run P m s0 v0 ls s v → m.sense.better v (P.best0 m.sense) = true
  step : ∀ s l s', Rch m rank s0 s → Step m s l s' → m.eqs s' = true ∨ rank s' = rank s + 1
  merge : ∀ a b c, Rch m rank s0 a → Rch m rank s0 b → m.eqs a = false →
    m.eqs b = false → rank a = rank b → m.smf a b = some c → m.eqs c = false ∧ rank c = rank a
  dom : ∀ f, m.sdom = some f → ∀ a p l, Rch m rank s0 a → Rch m rank s0 p → m.eqs a = false →
    Step m p l m.stt → rank a = rank p + 1 → f a m.stt = false
  refl : ∀ a : σ, Same.same a a = true
  symm : ∀ a b : σ, Same.same a b = true → Same.same b a = true
  like : ∀ a b, Rch m rank s0 a → Rch m rank s0 b → Same.same a b = true →
    m.eqs a = m.eqs b ∧ rank a = rank b ∧ (m.eqs a = true → a = b)
  snk : ∀ b, Rch m rank s0 b → Same.same m.stt b = true → b = m.stt
  uniq : ∀ a b la lb ca cb, Path m s0 la ca a → Path m s0 lb cb b → Same.same a b = true → a = b

variable [Same σ]

/-- The conditions of the integer model give those on the layers; the range is asked of the sums the machine
computes. -/
theorem lay_of_layered {Vl : σ → Int → Prop} {P : Num} {m : Mdl σ} {rank : σ → Nat} {s0 : σ} {u0 v0 : Int}
    (H : LayeredV Vl m rank s0 u0)
    (hr : ∀ ls s v, Run P m s0 v0 ls s v → m.sense.better v (P.best0 m.sense) = true) : Lay P m rank s0 v0 where
  sink := H.sink
  src := H.src
  range := hr
  step := fun s l s' h => by
    obtain ⟨v, h⟩ := rch_relx u0 h
    exact H.step s v l s' h
  merge := fun a b c h1 h2 h3 h4 h5 h6 => by
    obtain ⟨v, h1⟩ := rch_relx u0 h1
    obtain ⟨w, h2⟩ := rch_relx u0 h2
    have := H.merge a b c v w h1 h2 h3 h4 h5 h6
    exact ⟨this.1, this.2.1⟩
  dom := fun f hf a p l h1 h2 h3 h4 h5 => by
    obtain ⟨v, h1⟩ := rch_relx u0 h1
    obtain ⟨w, h2⟩ := rch_relx u0 h2
    cases hh : f a m.stt with
    | false => rfl
    | true => exact absurd rfl (H.dom f hf a m.stt v _ h1 (h2.step h4) h3 (.inr ⟨p, w, l, h2, h4, H.sink, h5⟩) hh).2
  refl := H.fair.refl
  symm := H.fair.symm
  like := fun a b h1 h2 h3 => by
    obtain ⟨v, h1⟩ := rch_relx u0 h1
    obtain ⟨w, h2⟩ := rch_relx u0 h2
    have := H.fair.like a b v w h1 h2 h3
    exact ⟨this.1, this.2.1, this.2.2.2⟩
  snk := fun b h1 h2 => by
    obtain ⟨v, h1⟩ := rch_relx u0 h1
    exact H.fair.sink b v h1 h2
  uniq := H.fair.uniq

theorem Lay.of_run {P : Num} {m : Mdl σ} {rank : σ → Nat} {s0 s1 : σ} {v0 v1 : Int} {ls : List Int}
    (h : Lay P m rank s0 v0) (hp : Run P m s0 v0 ls s1 v1) (hs : m.eqs s1 = false) : Lay P m rank s1 v1 := by
  obtain ⟨c, hc⟩ := hp.path
  have hr : Rch m rank s0 s1 := rch_of_path hc .root
  exact {
    sink := h.sink
    src := hs
    range := fun ls s v hv => h.range _ s v (hp.trans hv)
    step := fun s l s' hv => h.step s l s' (hr.trans hv)
    merge := fun a b c h1 h2 => h.merge a b c (hr.trans h1) (hr.trans h2)
    dom := fun f hf a p l h1 h2 => h.dom f hf a p l (hr.trans h1) (hr.trans h2)
    refl := h.refl
    symm := h.symm
    like := fun a b h1 h2 => h.like a b (hr.trans h1) (hr.trans h2)
    snk := fun b h1 => h.snk b (hr.trans h1)
    uniq := fun a b la lb ca cb h1 h2 => h.uniq a b _ _ _ _ (hc.trans h1) (hc.trans h2) }

/-- As `Lay`, with what `LayeredV` says of states that stand for others: a merged state, a dominating one and one the program
takes for equal has completions at least as good.  `Vl` gives the completions that count and their costs, which are
exact numbers; with none of them this is `Lay`. -/
structure LayV (Vl : σ → Int → Prop) (P : Num) (m : Mdl σ) (rank : σ → Nat) (s0 : σ) (v0 : Int) : Prop extends
    Lay P m rank s0 v0 where
  mcov : ∀ a b c, Rch m rank s0 a → Rch m rank s0 b → m.eqs a = false →
    m.eqs b = false → rank a = rank b → m.smf a b = some c → CoverV Vl m c a ∧ CoverV Vl m c b
  dcov : ∀ f, m.sdom = some f → ∀ a b, Rch m rank s0 a → Rch m rank s0 b → m.eqs a = false →
    (m.eqs b = false ∧ rank a = rank b ∨ ∃ p l, Rch m rank s0 p ∧ Step m p l b ∧ m.eqs b = true ∧ rank a = rank p + 1) →
    f a b = true → CoverV Vl m a b
  lcov : ∀ a b, Rch m rank s0 a → Rch m rank s0 b → Same.same a b = true → CoverV Vl m a b

theorem Lay.toV {P : Num} {m : Mdl σ} {rank : σ → Nat} {s0 : σ} {v0 : Int} (h : Lay P m rank s0 v0) :
    LayV (fun _ _ => False) P m rank s0 v0 :=
  { h with
    mcov := fun _ _ _ _ _ _ _ _ _ => ⟨fun _ x => x.elim, fun _ x => x.elim⟩
    dcov := fun _ _ _ _ _ _ _ _ _ _ x => x.elim
    lcov := fun _ _ _ _ _ _ x => x.elim }

theorem layV_of_layered {Vl : σ → Int → Prop} {P : Num} {m : Mdl σ} {rank : σ → Nat} {s0 : σ} {u0 v0 : Int}
    (H : LayeredV Vl m rank s0 u0)
    (hr : ∀ ls s v, Run P m s0 v0 ls s v → m.sense.better v (P.best0 m.sense) = true) : LayV Vl P m rank s0 v0 :=
  { lay_of_layered H hr with
    mcov := fun a b c h1 h2 h3 h4 h5 h6 => by
      obtain ⟨v, h1⟩ := rch_relx u0 h1
      obtain ⟨w, h2⟩ := rch_relx u0 h2
      have := H.merge a b c v w h1 h2 h3 h4 h5 h6
      exact ⟨this.2.2.1, this.2.2.2⟩
    dcov := fun f hf a b h1 h2 h3 h4 h5 => by
      obtain ⟨v, h1⟩ := rch_relx u0 h1
      obtain ⟨w, h2⟩ := rch_relx u0 h2
      refine (H.dom f hf a b v w h1 h2 h3 (h4.imp id fun ⟨p, l, h6, h7⟩ => ?_) h5).1
      obtain ⟨x, h6⟩ := rch_relx u0 h6
      exact ⟨p, x, l, h6, h7⟩
    lcov := fun a b h1 h2 h3 => by
      obtain ⟨v, h1⟩ := rch_relx u0 h1
      obtain ⟨w, h2⟩ := rch_relx u0 h2
      exact (H.fair.like a b v w h1 h2 h3).2.2.1 }

theorem LayV.of_run {Vl : σ → Int → Prop} {P : Num} {m : Mdl σ} {rank : σ → Nat} {s0 s1 : σ} {v0 v1 : Int} {ls : List Int}
    (h : LayV Vl P m rank s0 v0) (hp : Run P m s0 v0 ls s1 v1) (hs : m.eqs s1 = false) : LayV Vl P m rank s1 v1 := by
  obtain ⟨c, hc⟩ := hp.path
  have hr : Rch m rank s0 s1 := rch_of_path hc .root
  exact { h.toLay.of_run hp hs with
    mcov := fun a b c h1 h2 => h.mcov a b c (hr.trans h1) (hr.trans h2)
    dcov := fun f hf a b h1 h2 h3 h4 => h.dcov f hf a b (hr.trans h1) (hr.trans h2) h3
      (h4.imp id fun ⟨p, l, h6, h7⟩ => ⟨p, l, hr.trans h6, h7⟩)
    lcov := fun a b h1 h2 => h.lcov a b (hr.trans h1) (hr.trans h2) }

end Verif.Fl
