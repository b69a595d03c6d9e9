import Verif.Width
import Verif.Props.DD
/-!
# Width of compiled diagrams (C10, C16)

The rank of a state is its distance from the root (`Layered`), so the nodes of one rank are one
layer of the finished diagram.
-/
namespace Verif.DD
set_option linter.unusedSectionVars false
variable {σ : Type} {m : Mdl σ} {rank : σ → Nat} {r : Src σ} {prim : Int} [DecidableEq σ]

/-- Nodes of the finished diagram that are not terminal and whose state is at depth `k`. -/
def widthAt (m : Mdl σ) (rank : σ → Nat) (g : G σ) (k : Nat) : Nat :=
  (g.an.filter (fun i => !(m.eqs (g.st i)) && decide (rank (g.st i) = k))).length

/-- C10: no layer of a restricted diagram is wider than the width. -/
theorem restricted_width (H : Layered m rank r.st r.bound) {w f : Nat} (hw : 1 ≤ w) {g : G σ}
    (h : restricted m prim w f r = some g) (k : Nat) : widthAt m rank g k ≤ w := by
  unfold restricted at h
  simp only [Option.map_eq_some_iff] at h
  obtain ⟨g0, h0, rfl⟩ := h
  obtain ⟨h1, h2, _⟩ := start2_inv (prim := prim) (rel := false) H
  rw [h1.root] at h0
  exact resLoop_wide H hw f _ _ 0 0 h1 h2 (fun k => Nat.le_trans (start_layer H.sink H k) hw) g0 h0 k

example : (restricted kn.mdl (-2147483647) 2 10 kn.mdl.src0).map (fun g => (List.range 6).map (widthAt kn.mdl kn.rank g)) =
    some [1, 2, 2, 2, 0, 0] := by decide +kernel

/-- The width 0 is read as 2^32 - 1: no truncation at all (src/dd.cpp:448). -/
example : (restricted kn.mdl (-2147483647) 0 10 kn.mdl.src0).map (fun g => (g.exact, (List.range 6).map (widthAt kn.mdl kn.rank g))) =
    some (true, [1, 2, 3, 5, 0, 0]) := by decide +kernel

theorem cbbLoop_keep (nl : Nat → Option Nat) : ∀ (k : Nat) (h : DH) (g g' : G σ), cbbLoop m nl k h g = some g' → g'.an = g.an ∧ g'.st = g.st := by
  intro k
  induction k with
  | zero => intro h g g' he; simp [cbbLoop] at he; subst he; exact ⟨rfl, rfl⟩
  | succ k ih =>
    intro h g g' he
    unfold cbbLoop at he
    dsimp only at he
    split at he
    · simp at he
    · have := ih _ _ _ he; exact this

/-- C16: if the open states of one layer fall into classes, those of one class merge into another of that
class, those of different classes do not merge, and there is no dominance function, then no layer of a
relaxed diagram is wider than the width or the number of classes of that layer. -/
theorem relaxed_width_classes {Vl : σ → Int → Prop} {κ : Type} {cls : σ → κ} (H : LayeredV Vl m rank r.st r.bound) (hd : m.sdom = none)
    (hT : Sorts m rank r.st r.bound cls) {C : Nat → List κ}
    (hC : ∀ s v, Relx m rank r.st r.bound s v → m.eqs s = false → cls s ∈ C (rank s)) {w f : Nat} {g : G σ}
    (h : relaxed m prim w f r = some g) (k : Nat) : widthAt m rank g k ≤ max w (C k).length := by
  unfold relaxed at h
  simp only [Option.bind_eq_some_iff] at h
  obtain ⟨g0, h, h3⟩ := h
  have hk : g.an = g0.an ∧ g.st = g0.st := by
    unfold computeBestBackward at h3
    have := cbbLoop_keep _ _ _ _ _ h3
    exact this
  unfold widthAt
  rw [hk.1, hk.2]
  obtain ⟨h1, h2, _⟩ := start2_inv (prim := prim) (rel := true) H
  have hroot := h1.root
  rw [hroot] at h
  have hF : Flat m rank r (start2 m r) := by
    intro i hi hq
    have hl := h1.lay i hi hq
    have hcase : ∀ i, i < (start2 m r).nn → i = 0 ∨ i = 1 := by
      intro i hi
      have : (start2 m r).nn ≤ 2 := by
        unfold start2 makeNode start
        dsimp only
        split <;> (try split) <;> simp
      omega
    rcases hcase i hi with x | x
    · subst x
      have : (start2 m r).layer 0 = 0 := by
        unfold start2 makeNode start
        dsimp only
        split <;> (try split) <;> (try rfl) <;> simp [upd_apply]
      rw [this, h1.st0]; rfl
    · subst x; rw [h1.st1, H.sink] at hq; simp at hq
  cases f with
  | zero => simp [relLoop] at h
  | succ f =>
    unfold relLoop at h
    simp only [LQ.enQueue, List.isEmpty_cons, Bool.false_eq_true, false_and, if_false] at h
    have hp : LQ.pull m w (start2 m r) ⟨[0], []⟩ = (start2 m r, [0], ⟨[], []⟩) := by
      unfold LQ.pull
      have : relSort m (start2 m r) [0] = [0] := rfl
      rw [this, mergeLayer_single]
    rw [hp] at h
    dsimp only at h
    have m4 := relNodes_keep H [0] _ ⟨[], []⟩ 0 rfl h1 h2
    have m5 := relNodes_flat hd H [0] _ ⟨[], []⟩ 0 rfl h1 h2 hF
    generalize hv : relNodes m prim [0] (start2 m r) ⟨[], []⟩ = v at h m4 m5
    obtain ⟨g1, q1⟩ := v
    obtain ⟨x1, ⟨p', x2⟩, x3, x4⟩ := relNodes_inv H _ _ _ 0 rfl h1 h2 g1 q1 hv
    refine relLoop_wide H hd hT hC w f g1 q1 0 p' x1 x2 x3 m5 ?_ g0 h k
    intro k hk
    refine layer_keep m4 x3 hk ?_
    have hs := start_layer H.sink H k
    cases he : layerOf m rank (start2 m r) k with
    | nil => simp
    | cons i l =>
      have hi : i ∈ layerOf m rank (start2 m r) k := by simp [he]
      obtain ⟨i1, i2, i3⟩ := mem_layerOf.1 hi
      have hl : Lv (start2 m r) i := by
        rcases ((h2.2 i).1 i1).2 with x | x | x
        · exact x
        · rw [x, h1.st1, H.sink] at i2; simp at i2
        · rw [x, h1.st1, H.sink] at i2; simp at i2
      have := List.length_pos_of_mem (hC _ _ (h1.relx i hl) i2)
      rw [i3] at this
      rw [he] at hs
      omega

/-- C16: if any two open states of one layer can be merged, and there is no dominance function, no
layer of a relaxed diagram is wider than the width (or 1). -/
theorem relaxed_width (H : Layered m rank r.st r.bound) (hd : m.sdom = none)
    (hT : ∀ a b va vb, Relx m rank r.st r.bound a va → Relx m rank r.st r.bound b vb → m.eqs a = false → m.eqs b = false →
      rank a = rank b → a ≠ b → m.smf a b ≠ none) {w f : Nat} {g : G σ}
    (h : relaxed m prim w f r = some g) (k : Nat) : widthAt m rank g k ≤ max w 1 :=
  relaxed_width_classes (cls := fun _ => ()) (C := fun _ => [()]) H hd
    (fun a b va vb h1 h2 h3 h4 h5 h6 => ⟨fun _ => hT a b va vb h1 h2 h3 h4 h5 h6, fun _ _ => ⟨rfl, rfl⟩⟩) (fun _ _ _ _ => by simp) h k

/-- Three states that merge pairwise. -/
def wd : Mdl Nat := gm .min [(0,0,1,1), (0,1,2,1), (0,2,3,1), (1,0,9,3), (2,0,9,2), (3,0,9,1)] [(1,2,2), (1,3,3), (2,3,3)] 9
def wdrank (s : Nat) : Nat := [0, 1, 1, 1].getD s 0
theorem wd_layered : Layered wd wdrank 0 0 := layChk_sound 3 (closeR wd wdrank 3) (by decide +kernel)
theorem wd_total : ∀ a b va vb, Relx wd wdrank 0 0 a va → Relx wd wdrank 0 0 b vb → wd.eqs a = false → wd.eqs b = false →
    wdrank a = wdrank b → a ≠ b → wd.smf a b ≠ none := by
  intro a b va vb ha hb
  have h1 := layChk_relx (N := 3) (R := closeR wd wdrank 3) (by decide) (by decide +kernel) (by decide +kernel) ha
  have h2 := layChk_relx (N := 3) (R := closeR wd wdrank 3) (by decide) (by decide +kernel) (by decide +kernel) hb
  have hall : ∀ x, x ∈ closeR wd wdrank 3 → ∀ y, y ∈ closeR wd wdrank 3 → wd.eqs x.1 = false → wd.eqs y.1 = false →
    wdrank x.1 = wdrank y.1 → x.1 ≠ y.1 → wd.smf x.1 y.1 ≠ none := by decide +kernel
  exact hall _ h1 _ h2
example : (relaxed wd 2147483647 2 50 wd.src0).map (fun g => (g.exact, (List.range 3).map (widthAt wd wdrank g))) =
    some (false, [1, 2, 0]) := by decide +kernel

/-- With a dominance function C16 fails although every pair merges: state `3`, dominated when it was
generated, stays in the node table at layer 0, and a merge that yields it is refused. -/
def wdd : Mdl Nat := gm .min [(0,0,1,1), (0,1,3,1), (0,2,2,1), (1,0,9,1), (3,0,9,1), (2,0,9,2)] [(1,2,3), (1,3,3), (2,3,3)] 9 [] none
  (some (fun a b => a == 1 && b == 3))

theorem relaxed_width_false : ¬ ∀ (m : Mdl Nat) (rank : Nat → Nat) (prim : Int) (w f k : Nat) (g : G Nat),
    Layered m rank m.sti 0 → (∀ a b, m.eqs a = false → m.eqs b = false → rank a = rank b → a ≠ b → rank a ≠ 0 → m.smf a b ≠ none) →
    relaxed m prim w f m.src0 = some g → widthAt m rank g k ≤ max w 1 := by
  intro H
  have hv : (relaxed wdd 2147483647 1 50 wdd.src0).map (fun g => widthAt wdd wdrank g 1) = some 2 := by decide +kernel
  simp only [Option.map_eq_some_iff] at hv
  obtain ⟨g, h1, h2⟩ := hv
  have := H wdd wdrank 2147483647 1 50 1 g (layChk_sound 3 (closeR wdd wdrank 3) (by decide +kernel)) (by
    intro a b _ _ h1 h2 h3
    have hr : ∀ s, wdrank s ≠ 0 → s = 1 ∨ s = 2 ∨ s = 3 := by
      intro s hs
      match s with
      | 0 => exact absurd rfl hs
      | 1 | 2 | 3 => decide
      | s + 4 => exact absurd (by simp [wdrank]) hs
    rcases hr a h3 with rfl | rfl | rfl <;> rcases hr b (by rw [← h1]; exact h3) with rfl | rfl | rfl <;> first | exact absurd rfl h2 | decide) h1
  rw [h2] at this
  simp at this

end Verif.DD
