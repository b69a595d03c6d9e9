import Verif.Fl.Ends
import Verif.Props.BB
import Verif.Props.Round
/-!
# C137: the search whatever the machine's addition does

`P.add` is any function: rounding in any direction, with any precision, associative or not.  The specification is `Sol`
of `Verif/Fl/Spec.lean`: label sequences of the user's model and what the machine gets when it adds their costs
from the left.
-/
namespace Verif.Fl
open Verif.DD
open Verif.BB (BS)
set_option linter.unusedSectionVars false
variable {σ : Type} {P : Num} {m : Mdl σ} {rank : σ → Nat} {T : Nat → Int → Mdl σ}
  {lc : Nat → Int → Option (σ → Ctx → Int)} [Same σ]

/-! ### Reported solutions -/

/-- C137 for a model whose labels and local bound may change with the primal bound and the iteration. -/
theorem searchT_sound (F : ∀ k, Fm P m rank (T k)) (H : Lay P m rank m.sti 0) {p0 : Int}
    (hp0 : m.sense.betterEQ p0 (P.best0 m.sense) = true) {w dfuel fuel : Nat} {lim : Nat → Bool} {s : BS σ}
    (h : Fl.searchT P m T lc w dfuel lim fuel p0 = some s) :
    (∀ x, x ∈ s.sols → Sol P m x.2 x.1) ∧ (s.sols ≠ [] → Sol P m s.inc s.primal) := by
  obtain ⟨h1, h2, _⟩ := init_inv H.src H.refl w p0
  obtain ⟨_, hT, _⟩ := loop_inv F hp0 fuel 0 _ _ h1 h2 rfl h
  refine ⟨hT.sol, fun hne => ?_⟩
  rcases hT.last with x | ⟨ys, x⟩
  · exact absurd x.1 hne
  · exact hT.sol (s.primal, s.inc) (by rw [x]; simp)

/-- C137.  Whatever the addition, the costs, the local bounds and the widths: every vector handed to the callbacks is a
solution, and the value stored with it is what the machine gets by adding its costs from the left. -/
theorem search_sound (H : Lay P m rank m.sti 0) {p0 : Int} (hp0 : m.sense.betterEQ p0 (P.best0 m.sense) = true)
    {w dfuel fuel : Nat} {lim : Nat → Bool} {s : BS σ} (h : Fl.search P m w dfuel lim fuel p0 = some s) :
    (∀ x, x ∈ s.sols → Sol P m x.2 x.1) ∧ (s.sols ≠ [] → Sol P m s.inc s.primal) :=
  searchT_sound (fun _ => Fm.const H) H hp0 h

/-- The same in terms of paths alone: what is reported is feasible. -/
theorem search_feasible (H : Lay P m rank m.sti 0) {p0 : Int} (hp0 : m.sense.betterEQ p0 (P.best0 m.sense) = true)
    {w dfuel fuel : Nat} {lim : Nat → Bool} {s : BS σ} (h : Fl.search P m w dfuel lim fuel p0 = some s) :
    ∀ x, x ∈ s.sols → ∃ c, DD.Sol m x.2 c := fun x hx => ((search_sound H hp0 h).1 x hx).path

/-- The values strictly improve in the machine's order, all beat the bound the search started with, and the final
primal bound is the last one. -/
theorem searchT_improves (F : ∀ k, Fm P m rank (T k)) (H : Lay P m rank m.sti 0) {p0 : Int}
    (hp0 : m.sense.betterEQ p0 (P.best0 m.sense) = true) {w dfuel fuel : Nat} {lim : Nat → Bool} {s : BS σ}
    (h : Fl.searchT P m T lc w dfuel lim fuel p0 = some s) :
    (p0 :: s.sols.map (·.1)).Pairwise (fun a b => m.sense.better b a = true) ∧
    (p0 :: s.sols.map (·.1)).getLast? = some s.primal := by
  obtain ⟨h1, h2, _⟩ := init_inv H.src H.refl w p0
  obtain ⟨_, hT, _⟩ := loop_inv F hp0 fuel 0 _ _ h1 h2 rfl h
  refine ⟨?_, ?_⟩
  · rw [List.pairwise_cons]
    refine ⟨?_, ?_⟩
    · intro a ha
      simp only [List.mem_map] at ha
      obtain ⟨x, hx, rfl⟩ := ha
      exact hT.beat x hx
    · rw [List.pairwise_map]; exact hT.dec
  · rcases hT.last with ⟨x, y, _⟩ | ⟨ys, x⟩
    · rw [x, y]; rfl
    · rw [x, List.map_append, ← List.cons_append, List.map_singleton, List.getLast?_append]
      rfl

theorem search_improves (H : Lay P m rank m.sti 0) {p0 : Int} (hp0 : m.sense.betterEQ p0 (P.best0 m.sense) = true)
    {w dfuel fuel : Nat} {lim : Nat → Bool} {s : BS σ} (h : Fl.search P m w dfuel lim fuel p0 = some s) :
    (p0 :: s.sols.map (·.1)).Pairwise (fun a b => m.sense.better b a = true) ∧
    (p0 :: s.sols.map (·.1)).getLast? = some s.primal :=
  searchT_improves (fun _ => Fm.const H) H hp0 h

/-! ### It ends -/

theorem run_rank (H : Lay P m rank m.sti 0) {s t : σ} {ls : List Int} {c : Int} (hp : Path m s ls c t) :
    Rch m rank m.sti s → m.eqs t = false → rank t = rank s + ls.length := by
  induction hp with
  | nil => intros; simp
  | @cons s s' t l ls c hs hp' ih =>
    intro hr hq
    have h1 := ih (hr.step hs) hq
    have h2 : m.eqs s' = false := by
      cases hp' with
      | nil => exact hq
      | cons hs' _ => exact hs'.1
    rcases H.step _ _ _ hr hs with x | x
    · rw [h2] at x; simp at x
    · simp only [List.length_cons]; omega

/-- However badly the machine adds, the search ends: no sum decides how long it runs. -/
theorem searchT_ends (F : ∀ k, Fm P m rank (T k)) (H : Lay P m rank m.sti 0) {p0 : Int}
    (hp0 : m.sense.betterEQ p0 (P.best0 m.sense) = true) {N : Nat} (hN : RB m rank m.sti N) (w : Nat) {dfuel : Nat}
    (hf : N + 2 ≤ dfuel) (lim : Nat → Bool) :
    ∃ L, ∀ fuel, L < fuel → ∃ s, Fl.searchT P m T lc w dfuel lim fuel p0 = some s ∧ (s.stopped = true ∨ Heap.empty s.pq = true) := by
  refine ⟨((List.range (N + 1)).flatMap (BB.level m)).length, fun fuel hfu => ?_⟩
  obtain ⟨h1, h2, h3, h4, _⟩ := init_inv (P := P) H.src H.refl w p0
  obtain ⟨s, hs⟩ := loop_some (wres := w) (lim := lim) (lc := lc) F hp0 hN (U := (List.range (N + 1)).flatMap (BB.level m)) (by
    intro x ls c hp hq
    have h1 := run_rank H hp .root hq
    have h2 := hN _ (rch_of_path hp .root) hq
    have h3 := BB.mem_level hp 0 (by simp [BB.level])
    rw [Nat.zero_add] at h3
    exact List.mem_flatMap.2 ⟨ls.length, by simp only [List.mem_range]; omega, h3⟩) hf fuel 0 _ h1 h2 (by rw [h3, h4]; omega)
  exact ⟨s, hs, (loop_inv F hp0 fuel 0 _ _ h1 h2 rfl hs).2.2⟩

theorem search_ends (H : Lay P m rank m.sti 0) {p0 : Int} (hp0 : m.sense.betterEQ p0 (P.best0 m.sense) = true) {N : Nat}
    (hN : RB m rank m.sti N) (w : Nat) {dfuel : Nat} (hf : N + 2 ≤ dfuel) (lim : Nat → Bool) :
    ∃ L, ∀ fuel, L < fuel → ∃ s, Fl.search P m w dfuel lim fuel p0 = some s ∧ (s.stopped = true ∨ Heap.empty s.pq = true) :=
  searchT_ends (fun _ => Fm.const H) H hp0 hN w hf lim

/-! ### How far off the value can be -/

theorem run_error {E : Nat} {s0 : σ} {v0 : Int} {t : σ} {w : Int} {ls : List Int} (h : Run P m s0 v0 ls t w)
    (hE : ∀ la s v l s', Run P m s0 v0 la s v → Step m s l s' → (P.add v (m.stc s l) - (v + m.stc s l)).natAbs ≤ E) :
    ∃ c, Path m s0 ls c t ∧ (w - (v0 + c)).natAbs ≤ E * ls.length := by
  induction h with
  | nil s v => exact ⟨0, .nil s, by simp⟩
  | @cons s s' t v w l ls hs _ ih =>
    obtain ⟨c, h1, h2⟩ := ih (fun la x u l x' hr hx => hE (l := l) (_ :: la) x u x' (.cons hs hr) hx)
    refine ⟨_, .cons hs h1, ?_⟩
    have h3 := hE [] s v l s' (.nil _ _) hs
    rw [List.length_cons, Nat.mul_add, Nat.mul_one]
    generalize E * ls.length = q at *
    omega

/-- If no single addition along a path is off by more than `E`, a reported value is off by at most `E` per decision. -/
theorem search_error (H : Lay P m rank m.sti 0) {p0 : Int} (hp0 : m.sense.betterEQ p0 (P.best0 m.sense) = true)
    {w dfuel fuel : Nat} {lim : Nat → Bool} {s : BS σ} (h : Fl.search P m w dfuel lim fuel p0 = some s) {E : Nat}
    (hE : ∀ la s v l s', Run P m m.sti 0 la s v → Step m s l s' → (P.add v (m.stc s l) - (v + m.stc s l)).natAbs ≤ E) :
    ∀ x, x ∈ s.sols → ∃ c, DD.Sol m x.2 c ∧ (x.1 - c).natAbs ≤ E * x.2.length := by
  intro x hx
  obtain ⟨c, h1, h2⟩ := run_error ((search_sound H hp0 h).1 x hx) hE
  rw [Int.zero_add] at h2
  exact ⟨c, h1, h2⟩

/-- A `double` addition whose result is below `2^(k+53)` units is off by at most half of `2^k` units. -/
theorem dbl_off {x : Int} {k : Nat} (h : x.natAbs < 2 ^ (k + 53)) : 2 * (dbl x - x).natAbs ≤ 2 ^ k := by
  have hn := dblNat_near x.natAbs
  have hl : x.natAbs.log2 - 52 ≤ k := by
    by_cases h0 : x.natAbs = 0
    · rw [h0]; simp
    · have := (Nat.log2_lt h0).2 h
      omega
  have hp : 2 ^ (x.natAbs.log2 - 52) ≤ 2 ^ k := Nat.pow_le_pow_right (by omega) hl
  unfold dbl
  split <;> omega

/-! ### Costs and local bounds do not matter for the layers -/

/-- The same model with other costs and another local bound. -/
def setCost (m : Mdl σ) (c : σ → Int → Int) (f : Option (σ → Ctx → Int)) : Mdl σ := { m with stc := c, loc := f }

theorem rch_setCost {c : σ → Int → Int} {f : Option (σ → Ctx → Int)} {s t : σ} (h : Rch (setCost m c f) rank s t) :
    Rch m rank s t := by
  induction h with
  | root => exact .root
  | step _ h ih => exact ih.step h
  | merge _ _ a b c d ih1 ih2 => exact ih1.merge ih2 a b c d

theorem path_setCost {c : σ → Int → Int} {f : Option (σ → Ctx → Int)} {s t : σ} {ls : List Int} {v : Int}
    (h : Path (setCost m c f) s ls v t) : ∃ u, Path m s ls u t := by
  induction h with
  | nil s => exact ⟨_, .nil s⟩
  | cons hs _ ih =>
    obtain ⟨u, ih⟩ := ih
    exact ⟨_, .cons (m := m) hs ih⟩

theorem run_keep {t : Int} {s x : σ} {v w : Int} {ls : List Int} (h : Run ⟨fun a _ => a, t⟩ m s v ls x w) : w = v := by
  induction h with
  | nil => rfl
  | cons _ _ ih => exact ih

/-- A model that is layered with some integer costs is layered with any machine costs that stay in range. -/
theorem lay_setCost {Vl : σ → Int → Prop} {s0 : σ} {u0 v0 : Int} (H : LayeredV Vl m rank s0 u0) (c : σ → Int → Int)
    (f : Option (σ → Ctx → Int)) (hr : ∀ ls s v, Run P (setCost m c f) s0 v0 ls s v → m.sense.better v (P.best0 m.sense) = true) :
    Lay P (setCost m c f) rank s0 v0 := by
  -- the conditions on layers for the integer costs, with an addition that keeps every sum in range
  have L : Lay ⟨fun a _ => a, v0.natAbs + 1⟩ m rank s0 v0 := lay_of_layered H (by
    intro ls s v hv
    rw [run_keep hv]
    unfold Sense.better Num.best0
    cases m.sense <;> simp only [decide_eq_true_eq] <;> omega)
  exact {
    sink := L.sink, src := L.src, range := hr
    step := fun s l s' h => L.step s l s' (rch_setCost h)
    merge := fun a b c h1 h2 => L.merge a b c (rch_setCost h1) (rch_setCost h2)
    dom := fun g hg a p l h1 h2 => L.dom g hg a p l (rch_setCost h1) (rch_setCost h2)
    refl := L.refl, symm := L.symm
    like := fun a b h1 h2 => L.like a b (rch_setCost h1) (rch_setCost h2)
    snk := fun b h1 => L.snk b (rch_setCost h1)
    uniq := fun a b la lb ca cb h1 h2 => by
      obtain ⟨_, h1⟩ := path_setCost h1
      obtain ⟨_, h2⟩ := path_setCost h2
      exact L.uniq a b _ _ _ _ h1 h2 }

end Verif.Fl

/-! ### misp5 with weights that are any doubles -/
namespace Verif.Ex
open Verif.DD
variable (g : Misp)

/-- The machine's sum of the chosen weights, vertex by vertex. -/
def Misp.macSum (g : Misp) (P : Fl.Num) : Nat → Int → List Int → Int
  | _, v, [] => v
  | n, v, l :: ls => g.macSum P (n + 1) (P.add v (l * g.w n)) ls

/-- misp5 with any local bound. -/
def Misp.mdlF (g : Misp) (f : MispS → Ctx → Int) : Mdl MispS := Fl.setCost g.mdl g.mdl.stc (some f)

theorem Misp.run_mac {P : Fl.Num} {f : MispS → Ctx → Int} : ∀ {ls : List Int} {x z : MispS} {v u : Int},
    Fl.Run P (g.mdlF f) x v ls z u → z = g.mdl.stt → g.Live x → u = g.macSum P x.n v ls := by
  intro ls
  induction ls with
  | nil => intro x z v u h _ _; cases h; rfl
  | cons l ls ih =>
    intro x z v u h hz hx
    cases h with
    | @cons s s' t v w l ls hs hr =>
      have hs' : Step g.mdl x l s' := hs
      obtain ⟨c, hp⟩ := hr.path
      cases ls with
      | nil => cases hr; rfl
      | cons l2 ls2 =>
        have hq : (g.mdlF f).eqs s' = false := by
          cases hr with
          | cons h2 _ => exact h2.1
        have hrel : Relx g.mdl g.rank x 0 s' _ := Relx.root.step hs'
        have hw : Relx ({ g with w := fun _ => 1 } : Misp).mdl g.rank x 0 s' (0 + l * 1) := Relx.root.step (m := ({ g with w := fun _ => 1 } : Misp).mdl) hs'
        have hlive := (({ g with w := fun _ => 1 } : Misp).relx (fun _ => show (0 : Int) ≤ 1 by decide) (s0 := x) ⟨hx.ne, hx.l, hx.bits⟩ hw).1
        have hq' : s'.sel ≠ 0 := by
          intro hh
          have hq : decide (s'.sel = 0) = false := hq
          rw [hh] at hq; simp at hq
        rcases hlive with hl | rfl
        · have hn : s'.n = x.n + 1 := by
            rcases ((({ g with w := fun _ => 1 } : Misp).layered (fun _ => show (0 : Int) ≤ 1 by decide) (s0 := x) (v0 := 0) ⟨hx.ne, hx.l, hx.bits⟩ (by decide)).step x 0 l s' Relx.root hs') with a | a
            · have a : decide (s'.sel = 0) = true := a
              simp at a; exact absurd a hq'
            · exact a
          have := ih hr hz ⟨hl.ne, hl.l, hl.bits⟩
          rw [this, hn]; rfl
        · exact absurd rfl hq'

/-- misp5 meets the conditions as soon as sums of non-negative numbers are not negative. -/
theorem Misp.lay {P : Fl.Num} (hP : ∀ a b, 0 ≤ a → 0 ≤ b → 0 ≤ P.add a b) (hT : 0 < P.top) (hw : ∀ i, 0 ≤ g.w i)
    (ht : 0 < g.top) (f : MispS → Ctx → Int) : Fl.Lay P (g.mdlF f) g.rank (g.mdlF f).sti 0 := by
  refine Fl.lay_setCost (g.layered hw (g.live0 ht) (v0 := 0) (by omega)) _ _ ?_
  have key : ∀ {x y : MispS} {ls : List Int} {v u : Int}, Fl.Run P (g.mdlF f) x v ls y u → 0 ≤ v → 0 ≤ u := by
    intro x y ls v u hr
    induction hr with
    | nil => exact id
    | @cons x x' y v u l ls hs _ ih =>
      intro hv
      refine ih (hP _ _ hv ?_)
      have hl : l = 0 ∨ l = 1 := by
        have := hs.2.1
        simpa [Misp.mdlF, Fl.setCost, Misp.mdl] using this
      have := hw x.n
      show 0 ≤ l * g.w x.n
      rcases hl with rfl | rfl <;> omega
  intro ls y v hr
  have := key hr (by omega)
  show decide (-P.top < v) = true
  rw [decide_eq_true_eq]; omega

/-- C137 for misp5.  The weights are any non-negative numbers, the local bound is any function, the sum of two non-negative numbers
is some non-negative number: every set reported is independent, and the value printed with it is what the machine
gets by adding its weights vertex by vertex. -/
theorem misp_fl_sound {P : Fl.Num} (hP : ∀ a b, 0 ≤ a → 0 ≤ b → 0 ≤ P.add a b) (hT : 0 < P.top) (hw : ∀ i, 0 ≤ g.w i)
    (ht : 0 < g.top) (f : MispS → Ctx → Int) {w dfuel fuel : Nat} {lim : Nat → Bool} {s : BB.BS MispS}
    (h : Fl.search P (g.mdlF f) w dfuel lim fuel (-P.top) = some s) :
    ∀ x, x ∈ s.sols → g.Ind x.2 ∧ x.1 = g.macSum P 0 0 x.2 := by
  intro x hx
  have hs := (Fl.search_sound (g.lay hP hT hw ht f) (p0 := -P.top) (show decide (-P.top ≤ -P.top) = true by simp) h).1 x hx
  have hm := g.run_mac hs rfl (g.live0 ht)
  obtain ⟨c, hp⟩ := hs.path
  obtain ⟨c', hp⟩ := Fl.path_setCost hp
  exact ⟨(g.sol_ind ht (c := c') hp).1, hm⟩

/-- And the search ends, whatever the machine makes of the sums. -/
theorem misp_fl_ends {P : Fl.Num} (hP : ∀ a b, 0 ≤ a → 0 ≤ b → 0 ≤ P.add a b) (hT : 0 < P.top) (hw : ∀ i, 0 ≤ g.w i)
    (ht : 0 < g.top) (f : MispS → Ctx → Int) (w : Nat) {dfuel : Nat} (hf : g.top + 2 ≤ dfuel) (lim : Nat → Bool) :
    ∃ L, ∀ fuel, L < fuel → ∃ s, Fl.search P (g.mdlF f) w dfuel lim fuel (-P.top) = some s ∧
      (s.stopped = true ∨ Heap.empty s.pq = true) := by
  refine Fl.search_ends (g.lay hP hT hw ht f) (p0 := -P.top) (show decide (-P.top ≤ -P.top) = true by simp) (N := g.top) ?_ w hf lim
  intro x hx hq
  obtain ⟨v, hr⟩ := Fl.rch_relx 0 (Fl.rch_setCost hx)
  exact g.rankBound hw ht x v hr hq

end Verif.Ex

/-! ### Doubles -/
namespace Verif.Fl
open Verif.DD
open Verif.BB (BS)

/-- Addition of doubles counted in units of 2^-60, to nearest with ties to even (subnormal numbers and overflow are out of reach of the
examples below). -/
def d60 : Num := ⟨fun a b => dbl (a + b), 2147483647 * 2 ^ 60⟩

theorem d60_nonneg (a b : Int) (ha : 0 ≤ a) (hb : 0 ≤ b) : 0 ≤ d60.add a b := by
  show 0 ≤ dbl (a + b)
  unfold dbl
  rw [if_pos (by omega)]
  omega

/-- The doubles 0.1, 0.2, 0.3 and 0.6. -/
def d1 : Int := 3602879701896397 * 2 ^ 5
def d2 : Int := 3602879701896397 * 2 ^ 6
def d3 : Int := 5404319552844595 * 2 ^ 6
def d6 : Int := 5404319552844595 * 2 ^ 7

/-- 0.1 + 0.2 + 0.3 is 0.6000000000000001 from the left and 0.6 from the right. -/
theorem d60_order : d60.add (d60.add d1 d2) d3 = d6 + 128 ∧ d60.add d1 (d60.add d2 d3) = d6 := by decide +kernel

/-- misp5 on three vertices without edges of weights 0.1, 0.2 and 0.3 prints 0.6000000000000001, which is not the exact sum, but what
`misp_fl_sound` says. -/
example : ∃ s, Fl.search d60 ((⟨3, [], fun i => [d1, d2, d3].getD i 0⟩ : Ex.Misp).mdlF (fun x _ => (⟨3, [], fun i => [d1, d2, d3].getD i 0⟩ : Ex.Misp).sum x.sel))
      2 10 (fun _ => false) 50 (-d60.top) = some s ∧ s.inc = [1, 1, 1] ∧ s.primal = d6 + 128 ∧ s.primal ≠ d1 + d2 + d3 ∧
      s.primal = (⟨3, [], fun i => [d1, d2, d3].getD i 0⟩ : Ex.Misp).macSum d60 0 0 [1, 1, 1] := by
  have hv : (Fl.search d60 ((⟨3, [], fun i => [d1, d2, d3].getD i 0⟩ : Ex.Misp).mdlF (fun x _ => (⟨3, [], fun i => [d1, d2, d3].getD i 0⟩ : Ex.Misp).sum x.sel))
      2 10 (fun _ => false) 50 (-d60.top)).map (fun s => (s.inc, s.primal)) = some ([1, 1, 1], d6 + 128) := by decide +kernel
  simp only [Option.map_eq_some_iff] at hv
  obtain ⟨s, h1, h2⟩ := hv
  simp only [Prod.mk.injEq] at h2
  refine ⟨s, h1, h2.1, h2.2, ?_, ?_⟩
  · rw [h2.2]; decide
  · rw [h2.2]; decide +kernel

/-- Two routes of value 0.6: one arc of 0.6, and arcs of 0.1, 0.2, 0.3; the second route has a side arm. -/
def tord : Mdl Nat := gm .max [(0,0,2,d6), (0,1,1,d1), (2,0,4,0), (1,0,7,0), (1,1,3,d2), (4,0,9,0), (7,0,9,0), (3,0,9,d3), (8,0,9,d3)]
  [(3,7,8), (3,4,8), (4,7,8)] 9
def tordrank (s : Nat) : Nat := [0, 1, 1, 2, 2, 0, 0, 2, 2].getD s 0
theorem tord_layered : Layered tord tordrank 0 0 := layChk_sound 5 (closeR tord tordrank 5) (by decide +kernel)

theorem tord_lay : Lay d60 tord tordrank 0 0 := by
  refine lay_of_layered tord_layered ?_
  have key : ∀ {x y : Nat} {ls : List Int} {v u : Int}, Run d60 tord x v ls y u → 0 ≤ v → 0 ≤ u := by
    intro x y ls v u hr
    induction hr with
    | nil => exact id
    | @cons x x' y v u l ls hs _ ih =>
      intro hv
      refine ih (d60_nonneg _ _ hv ?_)
      show 0 ≤ (([(0,0,2,d6), (0,1,1,d1), (2,0,4,0), (1,0,7,0), (1,1,3,d2), (4,0,9,0), (7,0,9,0), (3,0,9,d3), (8,0,9,d3)] : List (Nat × Int × Nat × Int)).find?
        (fun t => t.1 = x ∧ t.2.1 = l) |>.map (fun t => t.2.2.2)).getD 0
      cases hf : ([(0,0,2,d6), (0,1,1,d1), (2,0,4,0), (1,0,7,0), (1,1,3,d2), (4,0,9,0), (7,0,9,0), (3,0,9,d3), (8,0,9,d3)] : List (Nat × Int × Nat × Int)).find?
          (fun t => t.1 = x ∧ t.2.1 = l) with
      | none => simp
      | some t =>
        have := List.mem_of_find?_eq_some hf
        have hall : ∀ t ∈ ([(0,0,2,d6), (0,1,1,d1), (2,0,4,0), (1,0,7,0), (1,1,3,d2), (4,0,9,0), (7,0,9,0), (3,0,9,d3), (8,0,9,d3)] : List (Nat × Int × Nat × Int)), 0 ≤ t.2.2.2 := by decide
        exact hall t this
  intro ls y v hr
  have := key hr (by omega)
  show decide (-(2147483647 * 2 ^ 60) < v) = true
  rw [decide_eq_true_eq]; omega

/-- What rounding costs: with doubles the answer of a search that runs to its end depends on the width.  At width 2 it is 0.6,
at width 3 it is 0.6000000000000001, a value the first search could have reached: the bound of the
second route, added up from the other end, is 0.6, so the route is dropped as no better. -/
theorem double_order :
    (∃ s, Fl.search d60 tord 2 50 (fun _ => false) 50 (-d60.top) = some s ∧ s.stopped = false ∧ s.primal = d6) ∧
    (∃ s, Fl.search d60 tord 3 50 (fun _ => false) 50 (-d60.top) = some s ∧ s.stopped = false ∧ s.primal = d6 + 128 ∧
      Sol d60 tord s.inc (d6 + 128)) := by
  constructor
  · have hv : (Fl.search d60 tord 2 50 (fun _ => false) 50 (-d60.top)).map (fun s => (s.stopped, s.primal)) = some (false, d6) := by decide +kernel
    simp only [Option.map_eq_some_iff] at hv
    obtain ⟨s, h1, h2⟩ := hv
    simp only [Prod.mk.injEq] at h2
    exact ⟨s, h1, h2⟩
  · have hv : (Fl.search d60 tord 3 50 (fun _ => false) 50 (-d60.top)).map (fun s => (s.stopped, s.primal, s.sols.length)) = some (false, d6 + 128, 1) := by decide +kernel
    simp only [Option.map_eq_some_iff] at hv
    obtain ⟨s, h1, h2⟩ := hv
    simp only [Prod.mk.injEq] at h2
    refine ⟨s, h1, h2.1, h2.2.1, ?_⟩
    have := (search_sound tord_lay (p0 := -d60.top) (by decide) h1).2 (by
      intro hh; rw [hh] at h2; simp at h2)
    rw [h2.2.1] at this
    exact this

end Verif.Fl
