import Verif.Exact
import Verif.Props.Sweep
import Verif.Check
/-!
# Properties of the exact diagram (C05, C06, C07, C66, C67)

The specification is `Path` of `Verif/Spec.lean`.  The model need not be layered: any measure that
grows along steps will do.
-/
namespace Verif.DD
set_option linter.unusedSectionVars false
variable {σ : Type} {m : Mdl σ} {r : Src σ} {prim : Int} [DecidableEq σ]

theorem EInv.gp_path {g : G σ} {X q : List Nat} {p : Nat} {rem : List Int} (h : EInv m r g X q p rem) {n : Nat} {ls : List Int} {c : Int}
    (hg : GP g 0 n ls c) : Path m r.st ls c (g.st n) := by
  induction hg with
  | nil => rw [h.st0]; exact Path.nil _
  | snoc _ he hn ih =>
    obtain ⟨a, b⟩ := h.est _ he
    rw [hn] at a b
    rw [b]
    exact ih.snoc a

theorem EInv.path_gp (hl : m.loc = none) {g : G σ} {X : List Nat} {p : Nat} (h : EInv m r g X [] p []) {s t : σ} {ls : List Int} {c : Int}
    (hp : Path m s ls c t) : ∀ i, i < g.nn → g.st i = s → ∃ n, n < g.nn ∧ g.st n = t ∧ GP g i n ls c := by
  induction hp with
  | nil => intro i hi hs; exact ⟨i, hi, hs, GP.nil⟩
  | cons hs _ ih =>
    intro i hi he
    rw [← he] at hs
    have hX : i ∈ X := by
      rcases h.all i hi hs.1 with x | x
      · exact x
      · simp at x
    rcases h.done hl i hX _ _ hs with ⟨_, y⟩ | ⟨e, e1, e2, e3, e4⟩
    · simp at y
    · obtain ⟨n, n1, n2, n3⟩ := ih (g.ed e) (h.edge e e1).2 e4
      refine ⟨n, n1, n2, ?_⟩
      have h1 := GP.single e1
      rw [e2, e3, (h.est e e1).2, e2, e3] at h1
      have h2 := h1.trans n3
      rw [he] at h2
      exact h2

theorem exactDD_core {μ : σ → Nat} (hA : Acyc m r.st μ) (hS : m.eqs m.stt = true) (hq : m.eqs r.st = false) (hR : InRange m r)
    {f : Nat} {g : G σ} (h : exactDD m prim f r = some g) : ∃ g0 X p, EInv m r g0 X [] p [] ∧ g.an = g0.an ∧ g.trg = 1 ∧ g.st = g0.st ∧
      (∀ n, n < g0.nn →
      (∀ ls c, GP g0 0 n ls c → m.sense.betterEQ (g.bound n) (r.bound + c) = true) ∧
      ((g.bound n = m.sense.best0 ∧ ∀ ls c, ¬ GP g0 0 n ls c) ∨
       (∃ ls c, GP g0 0 n ls c ∧ g.bound n = r.bound + c ∧ g.lab n = r.lab ++ ls))) := by
  unfold exactDD at h
  simp only [Option.bind_eq_some_iff] at h
  obtain ⟨g0, h0, h1⟩ := h
  have hi := start2_einv hS hq
  rw [hi.root] at h0
  obtain ⟨X, p, hI⟩ := exLoop_inv hA hS f _ _ _ _ hi _ h0
  have two := hI.two
  have hnot : ∀ e, e < g0.ne → g0.es e ≠ 1 := by
    intro e he hh
    have := (hI.est e he).1.1
    rw [hh, hI.st1, hS] at this; simp at this
  have hW : Wg g0 (fun n => μ (g0.st n)) :=
    { nd := hI.and, kids := hI.kids, par := hI.par, kn := hI.kn, pn := hI.pn
      src := fun e he => (hI.anm _).2 (hI.edge e he).1
      dst := fun e he => (hI.anm _).2 (hI.edge e he).2
      up := by
        intro e he
        obtain ⟨ls, c, hp⟩ := hI.reach _ (hI.edge e he).1 (hnot e he)
        exact hA _ _ _ hp _ _ (hI.est e he).1 }
  have hc := computeBest_correct (m := m) hW (by rw [hI.root]; exact (hI.anm 0).2 (by omega)) (by rw [hI.root]; exact hI.par0) (by
      intro n hn hnr hpn
      rcases hI.live n ((hI.anm n).1 hn) with x | x | x
      · rw [hI.root] at hnr; exact absurd x hnr
      · cases hk : g0.kids n with
        | nil => rfl
        | cons e l =>
          have := (hI.kids n e).1 (by rw [hk]; simp)
          exact absurd (this.2.trans x) (hnot e this.1)
      · exact absurd hpn x) (by
      intro n ls c hg
      rw [hI.root] at hg ⊢
      rw [hI.b0]
      exact hR _ _ _ (hI.gp_path hg))
  obtain ⟨g', c1, c2, _, c4, c5⟩ := hc
  rw [h1] at c1
  simp at c1
  subst c1
  rw [hI.root, hI.b0, hI.l0] at c5
  obtain ⟨_, _, e1, _⟩ := computeBest_eq (m := m) hW
  rw [h1] at e1
  simp at e1
  have est : g.st = g0.st := by rw [e1]
  exact ⟨g0, X, p, hI, c2, c4.trans hI.trg, est, fun n hn => c5 n ((hI.anm n).2 hn)⟩

/-! ### C05, C06 -/

/-- C05, C06.  Without a local bound the sink of the exact diagram holds the best completion of the
source: no completion beats it, and it is the sentinel exactly when there is none; otherwise its
labels are the source's followed by a completion of exactly that cost. -/
theorem exact_optimum {μ : σ → Nat} (hA : Acyc m r.st μ) (hS : m.eqs m.stt = true) (hq : m.eqs r.st = false) (hR : InRange m r)
    (hl : m.loc = none) {f : Nat} {g : G σ} (h : exactDD m prim f r = some g) :
    (∀ ls c, Path m r.st ls c m.stt → m.sense.betterEQ (g.bound g.trg) (r.bound + c) = true) ∧
    ((g.bound g.trg = m.sense.best0 ∧ ∀ ls c, ¬ Path m r.st ls c m.stt) ∨
     ∃ ls c, Path m r.st ls c m.stt ∧ g.bound g.trg = r.bound + c ∧ g.lab g.trg = r.lab ++ ls) := by
  obtain ⟨g0, X, p, hI, _, ht, _, hb⟩ := exactDD_core hA hS hq hR h
  have two := hI.two
  have key : ∀ ls c, Path m r.st ls c m.stt → GP g0 0 1 ls c := by
    intro ls c hp
    obtain ⟨n, n1, n2, n3⟩ := hI.path_gp hl hp 0 (by omega) hI.st0
    have : n = 1 := hI.injEq n 1 n1 (by omega) (n2.trans hI.st1.symm)
    rwa [this] at n3
  obtain ⟨b1, b2⟩ := hb 1 (by omega)
  rw [ht]
  refine ⟨fun ls c hp => b1 ls c (key ls c hp), ?_⟩
  rcases b2 with ⟨x, y⟩ | ⟨ls, c, x, y, z⟩
  · exact Or.inl ⟨x, fun ls c hp => y ls c (key ls c hp)⟩
  · have := hI.gp_path x
    rw [hI.st1] at this
    exact Or.inr ⟨ls, c, this, y, z⟩

/-- C05 from the initial state. -/
theorem exact_root {μ : σ → Nat} (hA : Acyc m m.sti μ) (hS : m.eqs m.stt = true) (hq : m.eqs m.sti = false) (hR : InRange m m.src0)
    (hl : m.loc = none) {f : Nat} {g : G σ} (h : exactDD m prim f m.src0 = some g) :
    (∀ ls c, Sol m ls c → m.sense.betterEQ (g.bound g.trg) c = true) ∧
    ((g.bound g.trg = m.sense.best0 ∧ ∀ ls c, ¬ Sol m ls c) ∨ Sol m (g.lab g.trg) (g.bound g.trg)) := by
  obtain ⟨a, b⟩ := exact_optimum (r := m.src0) hA hS hq hR hl h
  simp only [Mdl.src0, Int.zero_add, List.nil_append] at a b
  refine ⟨a, ?_⟩
  rcases b with x | ⟨ls, c, x, y, z⟩
  · exact Or.inl x
  · right; rw [y, z]; exact x

/-! ### C66, C67: size and termination -/

/-- C66.  On an acyclic model whose reachable non-terminal states are all in `U`, compilation
finishes: the queue loop turns at most once per such state. -/
theorem exact_terminates {μ : σ → Nat} (hA : Acyc m r.st μ) (hS : m.eqs m.stt = true) (hq : m.eqs r.st = false)
    {U : List σ} (hU : ∀ s ls c, Path m r.st ls c s → m.eqs s = false → s ∈ U) {f : Nat} (hf : U.length < f) :
    ∃ g, exactDD m prim f r = some g := by
  have hi := start2_einv hS hq
  obtain ⟨g0, h0⟩ := exLoop_some (prim := prim) hA hS hU f _ _ _ _ hi (by simpa using hf)
  obtain ⟨X, p, hI⟩ := exLoop_inv hA hS f _ _ _ _ hi _ h0
  have hW : Wg g0 (fun n => μ (g0.st n)) :=
    { nd := hI.and, kids := hI.kids, par := hI.par, kn := hI.kn, pn := hI.pn
      src := fun e he => (hI.anm _).2 (hI.edge e he).1
      dst := fun e he => (hI.anm _).2 (hI.edge e he).2
      up := by
        intro e he
        have h1 : g0.es e ≠ 1 := by
          intro hh
          have := (hI.est e he).1.1
          rw [hh, hI.st1, hS] at this; simp at this
        obtain ⟨ls, c, hp⟩ := hI.reach _ (hI.edge e he).1 h1
        exact hA _ _ _ hp _ _ (hI.est e he).1 }
  obtain ⟨b, lb, e1, _⟩ := computeBest_eq (m := m) hW
  have he : exactDD m prim f r = computeBest m g0 := by
    unfold exactDD
    dsimp only
    rw [hi.root, h0]
    rfl
  exact ⟨_, he.trans e1⟩

/-- C67.  The nodes of the exact diagram are the reachable states and the sink, each once; and each
node's bound is the best cost of reaching it. -/
theorem exact_nodes {μ : σ → Nat} (hA : Acyc m r.st μ) (hS : m.eqs m.stt = true) (hq : m.eqs r.st = false) (hR : InRange m r)
    (hl : m.loc = none) {f : Nat} {g : G σ} (h : exactDD m prim f r = some g) :
    g.an.Nodup ∧
    (∀ i j, i ∈ g.an → j ∈ g.an → g.st i = g.st j → i = j) ∧
    (∀ t, (∃ i, i ∈ g.an ∧ g.st i = t) ↔ t = m.stt ∨ ∃ ls c, Path m r.st ls c t) ∧
    (∀ i, i ∈ g.an →
      (∀ ls c, Path m r.st ls c (g.st i) → m.sense.betterEQ (g.bound i) (r.bound + c) = true) ∧
      (i ≠ g.trg → ∃ ls c, Path m r.st ls c (g.st i) ∧ g.bound i = r.bound + c ∧ g.lab i = r.lab ++ ls)) := by
  obtain ⟨g0, X, p, hI, ha, ht, hs, hb⟩ := exactDD_core hA hS hq hR h
  have two := hI.two
  rw [ha, hs, ht]
  have key : ∀ i, i < g0.nn → ∀ ls c, Path m r.st ls c (g0.st i) → GP g0 0 i ls c := by
    intro i hi ls c hp
    obtain ⟨n, n1, n2, n3⟩ := hI.path_gp hl hp 0 (by omega) hI.st0
    rwa [hI.injEq n i n1 hi n2] at n3
  refine ⟨hI.and, fun i j hi hj => hI.injEq i j ((hI.anm i).1 hi) ((hI.anm j).1 hj), ?_, ?_⟩
  · intro t
    constructor
    · rintro ⟨i, hi, rfl⟩
      by_cases h1 : i = 1
      · left; rw [h1]; exact hI.st1
      · exact Or.inr (hI.reach i ((hI.anm i).1 hi) h1)
    · rintro (rfl | ⟨ls, c, hp⟩)
      · exact ⟨1, (hI.anm 1).2 (by omega), hI.st1⟩
      · obtain ⟨n, n1, n2, _⟩ := hI.path_gp hl hp 0 (by omega) hI.st0
        exact ⟨n, (hI.anm n).2 n1, n2⟩
  · intro i hi
    have hi := (hI.anm i).1 hi
    obtain ⟨b1, b2⟩ := hb i hi
    refine ⟨fun ls c hp => b1 ls c (key i hi ls c hp), fun h1 => ?_⟩
    rcases b2 with ⟨_, y⟩ | ⟨ls, c, x, y, z⟩
    · obtain ⟨ls, c, hp⟩ := hI.reach i hi h1
      exact absurd (key i hi ls c hp) (y ls c)
    · exact ⟨ls, c, hI.gp_path x, y, z⟩

/-! ### A case: not layered, with a dead end -/

/-- State 1 is reached directly and through 2; 3 is a dead end. -/
def ex1 : Mdl Nat := gm .max [(0,0,1,5), (0,1,2,1), (2,0,1,10), (1,0,4,2), (2,1,3,7), (4,0,9,3)] [] 9
def ex1mu (s : Nat) : Nat := [0, 2, 1, 3, 3].getD s 4

theorem ex1_reach : ∀ s ls c, Path ex1 0 ls c s → s ∈ [0, 1, 2, 3, 4, 9] := by
  have : ∀ s, s ∈ [0, 1, 2, 3, 4, 9] → ∀ ls c t, Path ex1 s ls c t → t ∈ [0, 1, 2, 3, 4, 9] := by
    intro s hs ls c t hp
    induction hp with
    | nil => exact hs
    | @cons s s' t l ls c h _ ih =>
      apply ih
      have hc : ∀ x, x ∈ [0, 1, 2, 3, 4, 9] → (ex1.lgf x).all (fun l => match ex1.stf x l with
        | none => true
        | some y => decide (y ∈ [0, 1, 2, 3, 4, 9])) = true := by decide
      have := hc s hs
      rw [List.all_eq_true] at this
      have := this l h.2.1
      rw [h.2.2] at this
      simpa using this
  intro s ls c hp
  exact this 0 (by simp) ls c s hp

theorem ex1_acyc : Acyc ex1 0 ex1mu := by
  intro s ls c hp l s' h
  have hc : ∀ x, x ∈ [0, 1, 2, 3, 4, 9] → (ex1.lgf x).all (fun l => match ex1.stf x l with
    | none => true
    | some y => decide (ex1mu x < ex1mu y)) = true := by decide
  have := hc s (ex1_reach s ls c hp)
  rw [List.all_eq_true] at this
  have := this l h.2.1
  rw [h.2.2] at this
  simpa using this

theorem ex1_range : InRange ex1 ex1.src0 := by
  have hc0 : ∀ t, t ∈ ([(0,0,1,5), (0,1,2,1), (2,0,1,10), (1,0,4,2), (2,1,3,7), (4,0,9,3)] : List (Nat × Int × Nat × Int)) → 0 ≤ t.2.2.2 := by decide
  have hcost : ∀ s l, 0 ≤ ex1.stc s l := by
    intro s l
    simp only [ex1, gm]
    generalize hf : List.find? _ _ = o
    cases o with
    | none => simp
    | some t =>
      have := List.mem_of_find?_eq_some hf
      exact hc0 t this
  have : ∀ s ls c t, Path ex1 s ls c t → 0 ≤ c := by
    intro s ls c t hp
    induction hp with
    | nil => simp
    | @cons s _ _ l _ _ _ _ ih => have := hcost s l; omega
  intro ls c t hp
  have := this _ _ _ _ hp
  simp only [Mdl.src0]
  show Sense.max.better (0 + c) Sense.max.best0 = true
  simp [Sense.better, Sense.best0]
  omega

/-- The optimum 16 goes through state 2, found after state 1. -/
example : ∃ g, exactDD ex1 0 20 ex1.src0 = some g ∧ g.bound g.trg = 16 ∧ g.lab g.trg = [1, 0, 0, 0] ∧
    (∀ ls c, Sol ex1 ls c → c ≤ 16) ∧ Sol ex1 [1, 0, 0, 0] 16 := by
  have hv : (exactDD ex1 0 20 ex1.src0).map (fun g => (g.bound g.trg, g.lab g.trg)) = some (16, [1, 0, 0, 0]) := by decide +kernel
  simp only [Option.map_eq_some_iff] at hv
  obtain ⟨g, h1, h2⟩ := hv
  simp at h2
  obtain ⟨a, b⟩ := exact_root ex1_acyc (by decide) (by decide) ex1_range rfl h1
  rw [h2.1] at a b
  rw [h2.2] at b
  refine ⟨g, h1, h2.1, h2.2, fun ls c hs => ?_, ?_⟩
  · have := a ls c hs
    simpa [ex1, gm, Sense.betterEQ] using this
  · rcases b with ⟨x, _⟩ | x
    · simp [ex1, gm, Sense.best0] at x
    · exact x

example : ∃ g, exactDD ex1 7 7 ex1.src0 = some g :=
  exact_terminates ex1_acyc (by decide) (by decide) (U := [0, 1, 2, 3, 4, 9])
    (fun s ls c hp _ => ex1_reach s ls c hp) (by decide)

/-! ### C07: with a local bound -/

/-- What survives of C07: whatever the local bound, a value other than the sentinel is the cost of
the completion in the sink's labels.  Missing: that this completion is a best one. -/
theorem exact_local_partial {μ : σ → Nat} (hA : Acyc m r.st μ) (hS : m.eqs m.stt = true) (hq : m.eqs r.st = false) (hR : InRange m r)
    {f : Nat} {g : G σ} (h : exactDD m prim f r = some g) :
    g.bound g.trg = m.sense.best0 ∨
    ∃ ls c, Path m r.st ls c m.stt ∧ g.bound g.trg = r.bound + c ∧ g.lab g.trg = r.lab ++ ls := by
  obtain ⟨g0, X, p, hI, _, ht, _, hb⟩ := exactDD_core hA hS hq hR h
  have two := hI.two
  rw [ht]
  rcases (hb 1 (by omega)).2 with x | ⟨ls, c, x, y, z⟩
  · exact Or.inl x.1
  · have := hI.gp_path x
    rw [hI.st1] at this
    exact Or.inr ⟨ls, c, this, y, z⟩

/-- Two steps to the sink, local bound zero. -/
def ex2 (loc : Option (Nat → Ctx → Int)) : Mdl Nat := gm .min [(0,0,1,1), (1,0,9,1), (0,1,2,1), (2,0,9,4)] [] 9 [] loc

theorem ex2_layered : Layered (ex2 (some fun _ _ => 0)) (fun s => [0, 1, 1].getD s 0) 0 0 :=
  layChk_sound 3 (closeR (ex2 (some fun _ _ => 0)) (fun s => [0, 1, 1].getD s 0) 3) (by decide +kernel)

/-- C07 is false: with a valid local bound and no incumbent the exact diagram loses every solution,
because nodes past the first layer still hold the sentinel when their transitions are tested
(src/dd.hpp:491-497 reads `_bound` before src/dd.cpp:333 computes it). -/
theorem exact_local_false : ¬ ∀ (m : Mdl Nat) (rank : Nat → Nat) (prim : Int) (f : Nat) (g g' : G Nat),
    Layered m rank m.sti 0 → exactDD m prim f m.src0 = some g → exactDD { m with loc := none } prim f m.src0 = some g' →
    (∃ ls c, Sol m ls c ∧ m.sense.better c prim = true) →
    g.bound g.trg = g'.bound g'.trg := by
  intro H
  have hv : (exactDD (ex2 (some fun _ _ => 0)) 2147483647 9 (ex2 none).src0).map (fun g => g.bound g.trg) = some 2147483647 := by decide +kernel
  have hw : (exactDD (ex2 none) 2147483647 9 (ex2 none).src0).map (fun g => g.bound g.trg) = some 2 := by decide +kernel
  simp only [Option.map_eq_some_iff] at hv hw
  obtain ⟨g, h1, h2⟩ := hv
  obtain ⟨g', h3, h4⟩ := hw
  have hs : Sol (ex2 (some fun _ _ => 0)) [0, 0] 2 :=
    (Path.cons (s' := 1) ⟨by decide, by decide, by decide⟩ (Path.cons (s' := 9) ⟨by decide, by decide, by decide⟩
      (Path.nil 9)) : Path (ex2 (some fun _ _ => 0)) 0 [0, 0] (1 + (1 + 0)) 9)
  have := H (ex2 (some fun _ _ => 0)) _ 2147483647 9 g g' ex2_layered h1 h3 ⟨_, _, hs, by decide⟩
  omega

end Verif.DD
