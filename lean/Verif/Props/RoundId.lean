import Verif.Round
/-!
# C136: rounding that changes nothing

For every model, layered or not, the engine of `Verif/Round.lean` with additions that do not round is the engine of
`Verif/DD.lean` and `Verif/BB.lean`.
-/
namespace Verif.DD
variable {σ : Type} {m : Mdl σ}

section
variable [Same σ]

theorem transition_id (p0 : Int) (g : G σ) (p : Nat) (l : Int) : transitionR id m p0 g p l = transition m p0 g p l := rfl

theorem visit_id (p0 : Int) (cs : List Nat) (g : G σ) (p : Nat) (l : Int) : visitR id m p0 cs g p l = visit m p0 cs g p l := rfl

end

theorem tightenLoop_id (g : G σ) : ∀ (es : List Nat) (cur : Int) (lb : List Int), tightenLoopR id m g es cur lb = tightenLoop m g es cur lb := by
  intro es
  induction es with
  | nil => intros; rfl
  | cons e es ih => intro cur lb; simp only [tightenLoopR, tightenLoop, id, ih] <;> rfl

theorem tighten_id (g : G σ) (n : Nat) : tightenR id m g n = tighten m g n := by
  simp only [tightenR, tighten, tightenLoop_id]

section
variable [Same σ]

theorem resLabels_id (p0 : Int) (w p : Nat) : ∀ (ls : List Int) (g : G σ) (q : List Nat), resLabelsR id m p0 w p ls g q = resLabels m p0 w p ls g q := by
  intro ls
  induction ls with
  | nil => intros; rfl
  | cons l ls ih => intro g q; simp only [resLabelsR, resLabels, visit_id, ih] <;> rfl

theorem resNodes_id (p0 : Int) (w : Nat) : ∀ (ps : List Nat) (g : G σ) (q : List Nat), resNodesR id m p0 w ps g q = resNodes m p0 w ps g q := by
  intro ps
  induction ps with
  | nil => intros; rfl
  | cons p ps ih => intro g q; simp only [resNodesR, resNodes, resLabels_id, ih] <;> rfl

theorem resLoop_id (p0 : Int) (w : Nat) : ∀ (f : Nat) (g : G σ) (q : List Nat), resLoopR id m p0 w f g q = resLoop m p0 w f g q := by
  intro f
  induction f with
  | zero => intros; rfl
  | succ f ih => intro g q; simp only [resLoopR, resLoop, resNodes_id, ih] <;> rfl

theorem restricted_id (p0 : Int) (w f : Nat) (r : Src σ) : restrictedR id m p0 w f r = restricted m p0 w f r := by
  simp only [restrictedR, restricted, resLoop_id, tighten_id] <;> rfl

omit [Same σ] in
theorem adjustBounds_id : ∀ (f : Nat) (g : G σ) (n : Nat), adjustBoundsR id m f g n = adjustBounds m f g n := by
  intro f
  induction f with
  | zero => intros; rfl
  | succ f ih => intro g n; simp only [adjustBoundsR, adjustBounds, id, ih] <;> rfl

theorem mergeOne_id (g : G σ) (n1 : Nat) (rest skip : List Nat) : mergeOneR id m g n1 rest skip = mergeOne m g n1 rest skip := by
  simp only [mergeOneR, mergeOne, adjustBounds_id] <;> rfl

theorem mergeLoop_id (w : Nat) : ∀ (f : Nat) (g : G σ) (layer skip : List Nat), mergeLoopR id m w f g layer skip = mergeLoop m w f g layer skip := by
  intro f
  induction f with
  | zero => intros; rfl
  | succ f ih => intro g layer skip; simp only [mergeLoopR, mergeLoop, mergeOne_id, ih] <;> rfl

theorem pull_id (w : Nat) (g : G σ) (q : LQ) : q.pullR id m w g = q.pull m w g := by
  simp only [LQ.pullR, LQ.pull, mergeLayerR, mergeLayer, mergeLoop_id] <;> rfl

theorem relLabels_id (p0 : Int) (p : Nat) : ∀ (ls : List Int) (g : G σ) (q : LQ), relLabelsR id m p0 p ls g q = relLabels m p0 p ls g q := by
  intro ls
  induction ls with
  | nil => intros; rfl
  | cons l ls ih => intro g q; simp only [relLabelsR, relLabels, visit_id, ih] <;> rfl

theorem relNodes_id (p0 : Int) : ∀ (ps : List Nat) (g : G σ) (q : LQ), relNodesR id m p0 ps g q = relNodes m p0 ps g q := by
  intro ps
  induction ps with
  | nil => intros; rfl
  | cons p ps ih => intro g q; simp only [relNodesR, relNodes, relLabels_id, ih] <;> rfl

theorem relLoop_id (p0 : Int) (w : Nat) : ∀ (f : Nat) (g : G σ) (q : LQ), relLoopR id m p0 w f g q = relLoop m p0 w f g q := by
  intro f
  induction f with
  | zero => intros; rfl
  | succ f ih => intro g q; simp only [relLoopR, relLoop, pull_id, relNodes_id, ih] <;> rfl

end

theorem bestKid_id (g : G σ) (n : Nat) : bestKidR id m g n = bestKid m g n := rfl

theorem cbbLoop_id (nl : Nat → Option Nat) : ∀ (k : Nat) (h : DH) (g : G σ), cbbLoopR id m nl k h g = cbbLoop m nl k h g := by
  intro k
  induction k with
  | zero => intros; rfl
  | succ k ih => intro h g; simp only [cbbLoopR, cbbLoop, bestKid_id, ih] <;> rfl

theorem relaxed_id [Same σ] (p0 : Int) (w f : Nat) (r : Src σ) : relaxedR id m p0 w f r = relaxed m p0 w f r := by
  simp only [relaxedR, relaxed, relLoop_id, tighten_id, computeBestBackwardR, computeBestBackward, cbbLoop_id] <;> rfl

end Verif.DD

namespace Verif.BB
open Verif.DD
variable {σ : Type} [Same σ]

theorem expandP_id (m : Mdl σ) (M : Int → Mdl σ) (lc : Int → Option (σ → Ctx → Int)) (w f : Nat) (s : BS σ) (cur : Nat) :
    expandPR id m M lc w f s cur = expandP m M lc w f s cur := by
  have h : ∀ lc g s n, cutStepR id m lc g cur s n = cutStep m lc g cur s n := fun _ _ _ _ => rfl
  have h' : ∀ lc g, cutStepR id m lc g cur = cutStep m lc g cur := fun lc g => funext fun s => funext fun n => h lc g s n
  simp only [expandPR, expandP, relaxed_id, restricted_id, h'] <;> rfl

theorem loopP_id (m : Mdl σ) (M : Nat → Int → Mdl σ) (lc : Nat → Int → Option (σ → Ctx → Int)) (w d : Nat) (lim : Nat → Bool) :
    ∀ (f k : Nat) (s : BS σ), loopPR id m M lc w d lim f k s = loopP m M lc w d lim f k s := by
  intro f
  induction f with
  | zero => intros; rfl
  | succ f ih =>
    intro k s
    have : loopPR id m M lc w d lim f (k + 1) = loopP m M lc w d lim f (k + 1) := funext fun s => ih (k + 1) s
    simp only [loopPR, loopP, expandP_id, this] <;> rfl

/-- C136.  A search whose additions do not round is the search over the integers, for every model. -/
theorem searchT_id (m : Mdl σ) (M : Nat → Int → Mdl σ) (lc : Nat → Int → Option (σ → Ctx → Int)) (w d : Nat) (lim : Nat → Bool) (f : Nat) (p0 : Int) :
    searchTR id m M lc w d lim f p0 = searchT m M lc w d lim f p0 := loopP_id m M lc w d lim f 0 _

theorem searchFl_id (m : Mdl σ) (w d : Nat) (lim : Nat → Bool) (f : Nat) (p0 : Int) : searchFl id m w d lim f p0 = search m w d lim f p0 :=
  searchT_id m _ _ w d lim f p0

end Verif.BB
