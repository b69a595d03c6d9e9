import Verif.Props.BB
import Verif.Props.TspV

/-!
# C133: wrong bounds, merges or dominance never make the search report something that is no solution
-/
namespace Verif.DD
set_option linter.unusedSectionVars false
variable {σ : Type} [Same σ] {m : Mdl σ} {rank : σ → Nat}

/-- Conditions on the layers only: the sink is terminal, a step goes to a terminal state or one rank up, a
merge of two states of a layer stays in it, dominance never removes the sink, costs stay in range, and
the program's equality tells states apart.  Nothing is asked of the values of local bounds, of the
completions a merged state has, or of what a dominating state is worth. -/
structure Shape (m : Mdl σ) (rank : σ → Nat) (s0 : σ) (v0 : Int) : Prop where
  sink : m.eqs m.stt = true
  src : m.eqs s0 = false
  range : ∀ s v, Relx m rank s0 v0 s v → m.sense.better v m.sense.best0 = true
  step : ∀ s v l s', Relx m rank s0 v0 s v → Step m s l s' → m.eqs s' = true ∨ rank s' = rank s + 1
  merge : ∀ a b c va vb, Relx m rank s0 v0 a va → Relx m rank s0 v0 b vb → m.eqs a = false →
    m.eqs b = false → rank a = rank b → m.smf a b = some c → m.eqs c = false ∧ rank c = rank a
  dom : ∀ f, m.sdom = some f → ∀ a b va vb, Relx m rank s0 v0 a va → Relx m rank s0 v0 b vb →
    m.eqs a = false → (m.eqs b = false ∧ rank a = rank b ∨
      ∃ p vp l, Relx m rank s0 v0 p vp ∧ Step m p l b ∧ m.eqs b = true ∧ rank a = rank p + 1) →
    f a b = true → b ≠ m.stt
  fair : Fair (fun _ _ => False) m rank s0 v0 := by exact Fair.ofEq

/-- No completion has to survive. -/
theorem Shape.layeredV {s0 : σ} {v0 : Int} (H : Shape m rank s0 v0) : LayeredV (fun _ _ => False) m rank s0 v0 where
  sink := H.sink
  ends := fun _ _ h => h.elim
  src := H.src
  range := H.range
  step := H.step
  merge := fun a b c va vb h1 h2 h3 h4 h5 h6 =>
    have h := H.merge a b c va vb h1 h2 h3 h4 h5 h6
    ⟨h.1, h.2, fun _ h => h.elim, fun _ h => h.elim⟩
  local_ := fun _ _ _ _ _ _ _ h => h.elim
  dom := fun f hf a b va vb h1 h2 h3 h4 h5 => ⟨fun _ h => h.elim, H.dom f hf a b va vb h1 h2 h3 h4 h5⟩
  fair := H.fair

theorem Fair.drop {Vl : σ → Int → Prop} {s0 : σ} {v0 : Int} (h : Fair Vl m rank s0 v0) : Fair (fun _ _ => False) m rank s0 v0 where
  refl := h.refl
  symm := h.symm
  like := fun a b va vb h1 h2 h3 =>
    have h := h.like a b va vb h1 h2 h3
    ⟨h.1, h.2.1, fun _ h => h.elim, h.2.2.2⟩
  sink := h.sink
  uniq := h.uniq

/-- The conditions for optimality include those on the layers. -/
theorem LayeredV.shape {Vl : σ → Int → Prop} {s0 : σ} {v0 : Int} (H : LayeredV Vl m rank s0 v0) : Shape m rank s0 v0 where
  sink := H.sink
  src := H.src
  range := H.range
  step := H.step
  merge := fun a b c va vb h1 h2 h3 h4 h5 h6 =>
    have h := H.merge a b c va vb h1 h2 h3 h4 h5 h6
    ⟨h.1, h.2.1⟩
  dom := fun f hf a b va vb h1 h2 h3 h4 h5 => (H.dom f hf a b va vb h1 h2 h3 h4 h5).2
  fair := H.fair.drop

/-- The same model with another local bound. -/
def Mdl.setLoc (m : Mdl σ) (f : Option (σ → Ctx → Int)) : Mdl σ := { m with loc := f }

theorem relx_setLoc {f : Option (σ → Ctx → Int)} {s0 : σ} {v0 : Int} {s : σ} {v : Int} :
    Relx (m.setLoc f) rank s0 v0 s v → Relx m rank s0 v0 s v := by
  intro h
  induction h with
  | root => exact .root
  | step _ h ih => exact ih.step h
  | mergeL _ _ a b c d ih1 ih2 => exact ih1.mergeL ih2 a b c d
  | mergeR _ _ a b c d ih1 ih2 => exact ih1.mergeR ih2 a b c d
  | swap _ _ a ih1 ih2 => exact ih1.swap ih2 a

theorem path_setLoc {f : Option (σ → Ctx → Int)} {s t : σ} {ls : List Int} {c : Int} : Path (m.setLoc f) s ls c t ↔ Path m s ls c t := by
  constructor
  · intro h
    induction h with
    | nil s => exact .nil s
    | cons hs _ ih => exact .cons (m := m) hs ih
  · intro h
    induction h with
    | nil s => exact .nil s
    | cons hs _ ih => exact .cons (m := m.setLoc f) hs ih

/-- The layers do not depend on the local bound. -/
theorem Shape.setLoc {s0 : σ} {v0 : Int} (H : Shape m rank s0 v0) (f : Option (σ → Ctx → Int)) : Shape (m.setLoc f) rank s0 v0 where
  sink := H.sink
  src := H.src
  range := fun s v h => H.range s v (relx_setLoc h)
  step := fun s v l s' h => H.step s v l s' (relx_setLoc h)
  merge := fun a b c va vb h1 h2 => H.merge a b c va vb (relx_setLoc h1) (relx_setLoc h2)
  dom := fun g hg a b va vb h1 h2 h3 h4 => H.dom g hg a b va vb (relx_setLoc h1) (relx_setLoc h2) h3
    (h4.imp id fun ⟨p, vp, l, h5, h6⟩ => ⟨p, vp, l, relx_setLoc h5, h6⟩)
  fair := {
    refl := H.fair.refl
    symm := H.fair.symm
    like := fun a b va vb h1 h2 => H.fair.like a b va vb (relx_setLoc h1) (relx_setLoc h2)
    sink := fun b vb h => H.fair.sink b vb (relx_setLoc h)
    uniq := fun a b la lb ca cb h1 h2 => H.fair.uniq a b la lb ca cb (path_setLoc.1 h1) (path_setLoc.1 h2) }

/-- As a family of models that does not look at the primal bound. -/
theorem Shape.fam (H : Shape m rank m.sti 0) : FamV (fun _ _ => False) (fun _ _ _ => False) m rank (fun _ => m) where
  same := fun _ => rfl
  sub := fun _ _ _ h => h
  keep := fun _ _ _ _ _ _ h => h.elim
  back := fun _ _ _ h => h.elim
  lay := fun _ s ls v hp hq => by
    have := H.layeredV.of_path hp hq
    rwa [Int.zero_add] at this

end Verif.DD

namespace Verif.BB
open Verif.DD
set_option linter.unusedSectionVars false
variable {σ : Type} [Same σ] {m : Mdl σ} {rank : σ → Nat} {p0 : Int} {w dfuel fuel : Nat} {lim : Nat → Bool} {s : BS σ}

/-- C133: whatever the local bounds are worth, and whatever merged and dominating states stand for, everything the
search reports is a solution with its cost, and the values strictly improve on the initial bound and on
each other; the stored bound and solution are the last ones reported. -/
theorem shape_sound (H : Shape m rank m.sti 0) (hp0 : m.sense.betterEQ p0 m.sense.best0 = true)
    (h : search m w dfuel lim fuel p0 = some s) :
    (∀ x, x ∈ s.sols → Sol m x.2 x.1) ∧ (s.sols ≠ [] → Sol m s.inc s.primal) ∧
    (p0 :: s.sols.map (·.1)).Pairwise (fun a b => m.sense.better b a = true) ∧
    (p0 :: s.sols.map (·.1)).getLast? = some s.primal := by
  obtain ⟨a, b⟩ := searchT_sound (fun _ => H.fam) H.layeredV hp0 h
  obtain ⟨c, d⟩ := primalT_improves (fun _ => H.fam) H.layeredV hp0 h
  exact ⟨a, b, c, d⟩

/-- C133: and the search ends. -/
theorem shape_ends (H : Shape m rank m.sti 0) (hp0 : m.sense.betterEQ p0 m.sense.best0 = true) {N : Nat}
    (hN : RankBound m rank m.sti 0 N) (w : Nat) {dfuel : Nat} (hf : N + 2 ≤ dfuel) (lim : Nat → Bool) :
    ∃ L, ∀ fuel, L < fuel → ∃ s, search m w dfuel lim fuel p0 = some s ∧ (s.stopped = true ∨ Heap.empty s.pq = true) :=
  searchT_ends (fun _ => H.fam) H.layeredV hp0 hN w hf lim

/-- C133: in particular a program that is right keeps reporting nothing but solutions, and keeps ending, if its local
bound is exchanged for any function of state and context. -/
theorem anyloc_sound (H : Layered m rank m.sti 0) (f : Option (σ → Ctx → Int)) (hp0 : m.sense.betterEQ p0 m.sense.best0 = true)
    (h : search (m.setLoc f) w dfuel lim fuel p0 = some s) :
    (∀ x, x ∈ s.sols → Sol m x.2 x.1) ∧ (s.sols ≠ [] → Sol m s.inc s.primal) ∧
    (p0 :: s.sols.map (·.1)).Pairwise (fun a b => m.sense.better b a = true) ∧
    (p0 :: s.sols.map (·.1)).getLast? = some s.primal := by
  obtain ⟨a, b, c, d⟩ := shape_sound (m := m.setLoc f) (H.shape.setLoc f) hp0 h
  exact ⟨fun x hx => path_setLoc.1 (a x hx), fun hn => path_setLoc.1 (b hn), c, d⟩

theorem anyloc_ends (H : Layered m rank m.sti 0) (f : Option (σ → Ctx → Int)) (hp0 : m.sense.betterEQ p0 m.sense.best0 = true) {N : Nat}
    (hN : RankBound m rank m.sti 0 N) (w : Nat) {dfuel : Nat} (hf : N + 2 ≤ dfuel) (lim : Nat → Bool) :
    ∃ L, ∀ fuel, L < fuel → ∃ s, search (m.setLoc f) w dfuel lim fuel p0 = some s ∧ (s.stopped = true ∨ Heap.empty s.pq = true) :=
  shape_ends (m := m.setLoc f) (H.shape.setLoc f) hp0 (fun x v h hq => hN x v (relx_setLoc h) hq) w hf lim

end Verif.BB

namespace Verif.Ex
open Verif.DD

/-- The programs tsp_test4, tsptw and tsp_test2 meet the conditions on the layers with any local bound: in particular
with any value where they read a cell never written. -/
theorem tspv_shape (t : Tsp4) {u : Nat} {J : Int} (hn : 1 ≤ t.nv) {D : Int} (hD : t.Bnd D) (m : Mdl Tsp4S) (hm : t.Progs u J m) (f : Option (Tsp4S → Ctx → Int)) :
    Shape (m.setLoc f) t.rank (m.setLoc f).sti 0 ∧ RankBound (m.setLoc f) t.rank (m.setLoc f).sti 0 t.nv ∧ m.sense = .min ∧
    ∀ ls c, Sol (m.setLoc f) ls c ↔ t.Tour ls c := by
  have hsol := tspv_sol t hm hn
  obtain ⟨sm, lc, rfl, h2⟩ := hm.gen
  have H := t.gen_layered (lc := none) h2 (fun _ h => by cases h) hD (v0 := 0) (t.ok_root hn) (fun _ => rfl) (by simp)
  refine ⟨H.shape.setLoc f, fun x v hr hq => ?_, rfl, fun ls c => path_setLoc.trans (hsol ls c)⟩
  rcases (t.gen_relx h2 hD (v0 := 0) (t.ok_root hn) (fun _ => rfl) (by simp) (relx_setLoc hr)).1 with h | h
  · exact Nat.le_of_lt h.1.hops
  · rw [h] at hq; simp [Mdl.setLoc, Tsp4.gen, Tsp4.mdl] at hq

theorem tsp3_shape (t : Tsp4) {J : Int} (hn : 1 ≤ t.nv) (hd : t.Nonneg) {D : Int} (hD : t.Bnd D) (f : Option (Tsp3S → Ctx → Int)) :
    Shape ((t.mdl3 J).setLoc f) t.rank3 ((t.mdl3 J).setLoc f).sti 0 ∧
    RankBound ((t.mdl3 J).setLoc f) t.rank3 ((t.mdl3 J).setLoc f).sti 0 t.nv ∧
    ∀ ls c, Sol ((t.mdl3 J).setLoc f) ls c ↔ t.Tour ls c := by
  have P := t.prog3 (J := 0) hn hD (t.tour_nonneg hn hd)
  exact ⟨P.layered.shape.setLoc f, fun x v hr hq => P.ranks x v (relx_setLoc (m := t.mdl3 0) hr) hq,
    fun ls c => path_setLoc.trans (tsp3_sol t hn ls c)⟩

/-- C95: everything the searches of tsp_test4, tsptw, tsp_test2 and tsp_test3 report is a tour with its length,
shorter than what was reported before, whatever the value `J` read at the root. -/
theorem tspv_search_sound (t : Tsp4) {u : Nat} {J : Int} (hn : 1 ≤ t.nv) (hd : t.Nonneg) {D : Int} (hD : t.Bnd D)
    (w : Nat) (dfuel fuel : Nat) (lim : Nat → Bool) :
    (∀ m, t.Progs u J m → ∀ s, BB.search m w dfuel lim fuel 2147483647 = some s →
      (∀ x, x ∈ s.sols → t.Tour x.2 x.1) ∧ (2147483647 :: s.sols.map (·.1)).Pairwise (fun a b => b < a)) ∧
    (∀ s, BB.search (t.mdl3 J) w dfuel lim fuel 2147483647 = some s →
      (∀ x, x ∈ s.sols → t.Tour x.2 x.1) ∧ (2147483647 :: s.sols.map (·.1)).Pairwise (fun a b => b < a)) := by
  constructor
  · intro m hm s h
    obtain ⟨a, _, b, c⟩ := tspv_shape t hn hD m hm m.loc
    obtain ⟨d, _, e, _⟩ := BB.shape_sound (m := m.setLoc m.loc) a (by rw [show (m.setLoc m.loc).sense = .min from b]; rfl) h
    exact ⟨fun x hx => (c _ _).1 (d x hx), e.imp (fun {x y} h => by
      rw [show (m.setLoc m.loc).sense = .min from b] at h
      simpa [Sense.better] using h)⟩
  · intro s h
    obtain ⟨a, _, c⟩ := tsp3_shape t (J := J) hn hd hD (t.mdl3 J).loc
    obtain ⟨d, _, e, _⟩ := BB.shape_sound (m := (t.mdl3 J).setLoc (t.mdl3 J).loc) a rfl h
    exact ⟨fun x hx => (c _ _).1 (d x hx), e.imp (fun {x y} h => by
      simpa [Mdl.setLoc, Tsp4.mdl3, Sense.better] using h)⟩

/-- C95: and these searches end. -/
theorem tspv_search_ends (t : Tsp4) {u : Nat} {J : Int} (hn : 1 ≤ t.nv) (hd : t.Nonneg) {D : Int} (hD : t.Bnd D)
    (w : Nat) {dfuel : Nat} (hf : t.nv + 2 ≤ dfuel) (lim : Nat → Bool) :
    (∀ m, t.Progs u J m → ∃ L, ∀ fuel, L < fuel → ∃ s, BB.search m w dfuel lim fuel 2147483647 = some s ∧ (s.stopped = true ∨ Heap.empty s.pq = true)) ∧
    (∃ L, ∀ fuel, L < fuel → ∃ s, BB.search (t.mdl3 J) w dfuel lim fuel 2147483647 = some s ∧ (s.stopped = true ∨ Heap.empty s.pq = true)) := by
  constructor
  · intro m hm
    obtain ⟨a, b, c, _⟩ := tspv_shape t hn hD m hm m.loc
    exact BB.shape_ends (m := m.setLoc m.loc) a (by rw [show (m.setLoc m.loc).sense = .min from c]; rfl) b w hf lim
  · obtain ⟨a, b, _⟩ := tsp3_shape t (J := J) hn hd hD (t.mdl3 J).loc
    exact BB.shape_ends (m := (t.mdl3 J).setLoc (t.mdl3 J).loc) a rfl b w hf lim

/-- With a value at the root that hides every tour longer than 19, tsptw still reports tours only. -/
example : ∃ s, BB.search (q5a.mdlTw 1 20) 3 30 (fun _ => false) 50 2147483647 = some s ∧ ∀ x, x ∈ s.sols → q5a.Tour x.2 x.1 := by
  have hv : (BB.search (q5a.mdlTw 1 20) 3 30 (fun _ => false) 50 2147483647).isSome = true := by decide +kernel
  obtain ⟨s, hs⟩ := Option.isSome_iff_exists.1 hv
  exact ⟨s, hs, ((tspv_search_sound q5a (u := 1) (J := 20) (by decide) (by
    have h : ∀ i, i < 5 → ∀ j, j < 5 → 0 ≤ q5a.d i j := by decide
    exact fun i j hi hj => h i hi j hj) (D := 9) ⟨by decide, by
    have h : ∀ i, i < 5 → ∀ j, j < 5 → q5a.d i j ≤ 9 := by decide
    exact fun i j hi hj _ => h i hi j hj, by decide⟩ 3 30 50 _).1 _ (.inr (.inl rfl)) s hs).1⟩

end Verif.Ex
