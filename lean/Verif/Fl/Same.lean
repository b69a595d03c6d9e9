import Verif.Fl.Engine
import Verif.Round
/-!
# The three engines are one

`Verif/Fl/Engine.lean` with an addition that rounds the exact sum is the engine of `Verif/Round.lean`, and with exact
addition it is the engine of `Verif/DD.lean` and `Verif/BB.lean`: what C137 says is said of the same program.
-/
namespace Verif.Fl
open Verif.DD
set_option linter.unusedSectionVars false
variable {σ : Type} [Same σ]

/-- Exact sums rounded by `fl`, and `INT_MAX`. -/
def rnd (fl : Int → Int) : Num := ⟨fun a b => fl (a + b), 2147483647⟩

/-- Exact sums. -/
def exact : Num := ⟨fun a b => a + b, 2147483647⟩

theorem same_best0 {P : Num} (hP : P.top = 2147483647) (s : Sense) : P.best0 s = s.best0 := by
  cases s <;> simp [Num.best0, Sense.best0, hP]

theorem same_makeNode {P : Num} (hP : P.top = 2147483647) : makeNode (σ := σ) P = DD.makeNode := by
  funext m g s pe; unfold makeNode DD.makeNode; rw [same_best0 hP]; rfl

theorem same_start2 {P : Num} (hP : P.top = 2147483647) : start2 (σ := σ) P = DD.start2 := by
  funext m r; unfold start2 DD.start2; rw [same_makeNode hP]

theorem same_merge {P : Num} (hP : P.top = 2147483647) : merge (σ := σ) P = DD.merge := by
  funext m g f s; unfold merge DD.merge; rw [same_makeNode hP]; rfl

theorem same_mergeFind {P : Num} (hP : P.top = 2147483647) : mergeFind (σ := σ) P = DD.mergeFind := by
  funext m g n1 pre r
  induction r generalizing pre with
  | nil => rfl
  | cons n2 r ih =>
    unfold mergeFind DD.mergeFind
    rw [same_merge hP, ih]; rfl

theorem same_init {P : Num} (hP : P.top = 2147483647) : init (σ := σ) P = BB.init := by
  funext m w p; unfold init BB.init
  have : P.worst0 m.sense = m.sense.worst0 := by
    cases m.sense <;> simp [Num.worst0, Sense.worst0, hP]
  rw [this]; rfl

/-! ### Rounded sums -/

theorem rnd_transition (fl : Int → Int) : transition (σ := σ) (rnd fl) = transitionR fl := by
  funext m p g n l; unfold transition DD.transitionR; rw [same_makeNode (P := rnd fl) rfl]; rfl

theorem rnd_visit (fl : Int → Int) : visit (σ := σ) (rnd fl) = visitR fl := by
  funext m p cs g n l; unfold visit DD.visitR; rw [rnd_transition]; rfl

theorem rnd_tightenLoop (fl : Int → Int) : tightenLoop (σ := σ) (rnd fl) = tightenLoopR fl := by
  funext m g ls
  induction ls with
  | nil => rfl
  | cons e es ih =>
    funext cur lb
    unfold tightenLoop DD.tightenLoopR
    rw [ih]; rfl

theorem rnd_tighten (fl : Int → Int) : tighten (σ := σ) (rnd fl) = tightenR fl := by
  funext m g n; unfold tighten DD.tightenR; rw [rnd_tightenLoop, same_best0 (P := rnd fl) rfl]

theorem rnd_resLabels (fl : Int → Int) : resLabels (σ := σ) (rnd fl) = resLabelsR fl := by
  funext m p w n ls
  induction ls with
  | nil => rfl
  | cons l ls ih =>
    funext g q
    unfold resLabels DD.resLabelsR
    rw [rnd_visit, ih]; rfl

theorem rnd_resNodes (fl : Int → Int) : resNodes (σ := σ) (rnd fl) = resNodesR fl := by
  funext m p w ns
  induction ns with
  | nil => rfl
  | cons n ns ih =>
    funext g q
    unfold resNodes DD.resNodesR
    rw [rnd_resLabels, ih]; rfl

theorem rnd_resLoop (fl : Int → Int) : resLoop (σ := σ) (rnd fl) = resLoopR fl := by
  funext m p w f
  induction f with
  | zero => rfl
  | succ f ih =>
    funext g q
    unfold resLoop DD.resLoopR
    rw [rnd_resNodes, ih]

theorem rnd_restricted (fl : Int → Int) : restricted (σ := σ) (rnd fl) = restrictedR fl := by
  funext m p w f r; unfold restricted DD.restrictedR; rw [same_start2 (P := rnd fl) rfl, rnd_resLoop, rnd_tighten]

theorem rnd_adjustBounds (fl : Int → Int) : adjustBounds (σ := σ) (rnd fl) = adjustBoundsR fl := by
  funext m f
  induction f with
  | zero => rfl
  | succ f ih =>
    funext g n
    unfold adjustBounds DD.adjustBoundsR
    rw [ih]; rfl

theorem rnd_mergeOne (fl : Int → Int) : mergeOne (σ := σ) (rnd fl) = mergeOneR fl := by
  funext m g n rest skip; unfold mergeOne DD.mergeOneR; rw [same_mergeFind (P := rnd fl) rfl, rnd_adjustBounds]; rfl

theorem rnd_mergeLoop (fl : Int → Int) : mergeLoop (σ := σ) (rnd fl) = mergeLoopR fl := by
  funext m w f
  induction f with
  | zero => rfl
  | succ f ih =>
    funext g l s
    unfold mergeLoop DD.mergeLoopR
    rw [rnd_mergeOne, ih]; rfl

theorem rnd_mergeLayer (fl : Int → Int) : mergeLayer (σ := σ) (rnd fl) = mergeLayerR fl := by
  funext m w g l; unfold mergeLayer DD.mergeLayerR; rw [rnd_mergeLoop]

theorem rnd_pull (fl : Int → Int) : pull (σ := σ) (rnd fl) = DD.LQ.pullR fl := by
  funext m w g q; unfold pull DD.LQ.pullR; rw [rnd_mergeLayer]; rfl

theorem rnd_relLabels (fl : Int → Int) : relLabels (σ := σ) (rnd fl) = relLabelsR fl := by
  funext m p n ls
  induction ls with
  | nil => rfl
  | cons l ls ih =>
    funext g q
    unfold relLabels DD.relLabelsR
    rw [rnd_visit, ih]; rfl

theorem rnd_relNodes (fl : Int → Int) : relNodes (σ := σ) (rnd fl) = relNodesR fl := by
  funext m p ns
  induction ns with
  | nil => rfl
  | cons n ns ih =>
    funext g q
    unfold relNodes DD.relNodesR
    rw [rnd_relLabels, ih]

theorem rnd_relLoop (fl : Int → Int) : relLoop (σ := σ) (rnd fl) = relLoopR fl := by
  funext m p w f
  induction f with
  | zero => rfl
  | succ f ih =>
    funext g q
    unfold relLoop DD.relLoopR
    rw [rnd_pull, rnd_relNodes, ih]

theorem rnd_bestKid (fl : Int → Int) : bestKid (σ := σ) (rnd fl) = bestKidR fl := by
  funext m g n; unfold bestKid DD.bestKidR; rw [same_best0 (P := rnd fl) rfl]; rfl

theorem rnd_cbbLoop (fl : Int → Int) : cbbLoop (σ := σ) (rnd fl) = cbbLoopR fl := by
  funext m nl k
  induction k with
  | zero => rfl
  | succ f ih =>
    funext h g
    unfold cbbLoop DD.cbbLoopR
    rw [rnd_bestKid, ih]; rfl

theorem rnd_computeBestBackward (fl : Int → Int) : computeBestBackward (σ := σ) (rnd fl) = computeBestBackwardR fl := by
  funext m g; unfold computeBestBackward DD.computeBestBackwardR; rw [rnd_cbbLoop, same_best0 (P := rnd fl) rfl]

theorem rnd_relaxed (fl : Int → Int) : relaxed (σ := σ) (rnd fl) = relaxedR fl := by
  funext m p w f r; unfold relaxed DD.relaxedR; rw [same_start2 (P := rnd fl) rfl, rnd_relLoop, rnd_computeBestBackward, rnd_tighten]

theorem rnd_insKey (fl : Int → Int) : insKey (σ := σ) (rnd fl) = BB.insKeyR fl := by
  funext lc g n; cases lc <;> rfl

theorem rnd_cutStep (fl : Int → Int) : cutStep (σ := σ) (rnd fl) = BB.cutStepR fl := by
  funext m lc g cur s n; unfold cutStep BB.cutStepR; rw [rnd_insKey]; rfl

theorem rnd_expandP (fl : Int → Int) : expandP (σ := σ) (rnd fl) = BB.expandPR fl := by
  funext m M lc w f s cur; unfold expandP BB.expandPR; rw [rnd_relaxed, rnd_restricted, rnd_cutStep]

theorem rnd_loopP (fl : Int → Int) : loopP (σ := σ) (rnd fl) = BB.loopPR fl := by
  funext m M lc w d lim f
  induction f with
  | zero => rfl
  | succ f ih =>
    funext k s
    unfold loopP BB.loopPR
    rw [rnd_expandP, ih]

/-- The search with any rounding of exact sums is the one of C136. -/
theorem rnd_search (fl : Int → Int) : search (σ := σ) (rnd fl) = BB.searchFl fl := by
  funext m w d lim f p
  unfold search searchT BB.searchFl BB.searchTR
  rw [rnd_loopP, same_init (P := rnd fl) rfl]

/-! ### Exact sums -/

theorem exact_transition : transition (σ := σ) exact = DD.transition := by
  funext m p g n l; unfold transition DD.transition; rw [same_makeNode (P := exact) rfl]; rfl

theorem exact_visit : visit (σ := σ) exact = DD.visit := by
  funext m p cs g n l; unfold visit DD.visit; rw [exact_transition]; rfl

theorem exact_tightenLoop : tightenLoop (σ := σ) exact = DD.tightenLoop := by
  funext m g ls
  induction ls with
  | nil => rfl
  | cons e es ih =>
    funext cur lb
    unfold tightenLoop DD.tightenLoop
    rw [ih]; rfl

theorem exact_tighten : tighten (σ := σ) exact = DD.tighten := by
  funext m g n; unfold tighten DD.tighten; rw [exact_tightenLoop, same_best0 (P := exact) rfl]

theorem exact_resLabels : resLabels (σ := σ) exact = DD.resLabels := by
  funext m p w n ls
  induction ls with
  | nil => rfl
  | cons l ls ih =>
    funext g q
    unfold resLabels DD.resLabels
    rw [exact_visit, ih]; rfl

theorem exact_resNodes : resNodes (σ := σ) exact = DD.resNodes := by
  funext m p w ns
  induction ns with
  | nil => rfl
  | cons n ns ih =>
    funext g q
    unfold resNodes DD.resNodes
    rw [exact_resLabels, ih]; rfl

theorem exact_resLoop : resLoop (σ := σ) exact = DD.resLoop := by
  funext m p w f
  induction f with
  | zero => rfl
  | succ f ih =>
    funext g q
    unfold resLoop DD.resLoop
    rw [exact_resNodes, ih]

theorem exact_restricted : restricted (σ := σ) exact = DD.restricted := by
  funext m p w f r; unfold restricted DD.restricted; rw [same_start2 (P := exact) rfl, exact_resLoop, exact_tighten]

theorem exact_adjustBounds : adjustBounds (σ := σ) exact = DD.adjustBounds := by
  funext m f
  induction f with
  | zero => rfl
  | succ f ih =>
    funext g n
    unfold adjustBounds DD.adjustBounds
    rw [ih]; rfl

theorem exact_mergeOne : mergeOne (σ := σ) exact = DD.mergeOne := by
  funext m g n rest skip; unfold mergeOne DD.mergeOne; rw [same_mergeFind (P := exact) rfl, exact_adjustBounds]; rfl

theorem exact_mergeLoop : mergeLoop (σ := σ) exact = DD.mergeLoop := by
  funext m w f
  induction f with
  | zero => rfl
  | succ f ih =>
    funext g l s
    unfold mergeLoop DD.mergeLoop
    rw [exact_mergeOne, ih]; rfl

theorem exact_mergeLayer : mergeLayer (σ := σ) exact = DD.mergeLayer := by
  funext m w g l; unfold mergeLayer DD.mergeLayer; rw [exact_mergeLoop]

theorem exact_pull : pull (σ := σ) exact = DD.LQ.pull := by
  funext m w g q; unfold pull DD.LQ.pull; rw [exact_mergeLayer]; rfl

theorem exact_relLabels : relLabels (σ := σ) exact = DD.relLabels := by
  funext m p n ls
  induction ls with
  | nil => rfl
  | cons l ls ih =>
    funext g q
    unfold relLabels DD.relLabels
    rw [exact_visit, ih]; rfl

theorem exact_relNodes : relNodes (σ := σ) exact = DD.relNodes := by
  funext m p ns
  induction ns with
  | nil => rfl
  | cons n ns ih =>
    funext g q
    unfold relNodes DD.relNodes
    rw [exact_relLabels, ih]

theorem exact_relLoop : relLoop (σ := σ) exact = DD.relLoop := by
  funext m p w f
  induction f with
  | zero => rfl
  | succ f ih =>
    funext g q
    unfold relLoop DD.relLoop
    rw [exact_pull, exact_relNodes, ih]

theorem exact_bestKid : bestKid (σ := σ) exact = DD.bestKid := by
  funext m g n; unfold bestKid DD.bestKid; rw [same_best0 (P := exact) rfl]; rfl

theorem exact_cbbLoop : cbbLoop (σ := σ) exact = DD.cbbLoop := by
  funext m nl k
  induction k with
  | zero => rfl
  | succ f ih =>
    funext h g
    unfold cbbLoop DD.cbbLoop
    rw [exact_bestKid, ih]; rfl

theorem exact_computeBestBackward : computeBestBackward (σ := σ) exact = DD.computeBestBackward := by
  funext m g; unfold computeBestBackward DD.computeBestBackward; rw [exact_cbbLoop, same_best0 (P := exact) rfl]

theorem exact_relaxed : relaxed (σ := σ) exact = DD.relaxed := by
  funext m p w f r; unfold relaxed DD.relaxed; rw [same_start2 (P := exact) rfl, exact_relLoop, exact_computeBestBackward, exact_tighten]

theorem exact_insKey : insKey (σ := σ) exact = BB.insKey := by
  funext lc g n; cases lc <;> rfl

theorem exact_cutStep : cutStep (σ := σ) exact = BB.cutStep := by
  funext m lc g cur s n; unfold cutStep BB.cutStep; rw [exact_insKey]; rfl

theorem exact_expandP : expandP (σ := σ) exact = BB.expandP := by
  funext m M lc w f s cur; unfold expandP BB.expandP; rw [exact_relaxed, exact_restricted, exact_cutStep]

theorem exact_loopP : loopP (σ := σ) exact = BB.loopP := by
  funext m M lc w d lim f
  induction f with
  | zero => rfl
  | succ f ih =>
    funext k s
    unfold loopP BB.loopP
    rw [exact_expandP, ih]

/-- The search with exact sums is the one of every other property. -/
theorem exact_search : search (σ := σ) exact = BB.search := by
  funext m w d lim f p
  unfold search searchT BB.search
  rw [exact_loopP, same_init (P := exact) rfl]
  rfl

end Verif.Fl
