import Verif.Same
import Verif.Props.Gruler
/-!
# The engine under the states' own equality (C109, C110)
-/
namespace Verif.DD
variable {σ κ : Type} {f : σ → κ} {m : Mdl σ} {k : Mdl κ}

theorem upd_map (h : Nat → σ) (i : Nat) (x : σ) : (fun j => f (upd h i x j)) = upd (fun j => f (h j)) i (f x) := by
  funext j; simp only [upd]; split <;> rfl

theorem foldl_map_comm {α β γ : Type} {F : α → β} {h : α → γ → α} {h' : β → γ → β} (hh : ∀ a x, h' (F a) x = F (h a x)) :
    ∀ (l : List γ) (a : α), l.foldl h' (F a) = F (l.foldl h a)
  | [], _ => rfl
  | x :: l, a => by rw [List.foldl_cons, List.foldl_cons, hh, foldl_map_comm hh l]

/-! ### Arcs -/

theorem addArcNode_map (g : G σ) (e n : Nat) : addArcNode (g.map f) e n = (addArcNode g e n).map f := by
  unfold addArcNode
  by_cases h1 : g.es e = n
  · rw [if_pos h1, if_pos (show (g.map f).es e = n from h1)]; rfl
  · rw [if_neg h1, if_neg (show ¬(g.map f).es e = n from h1)]
    by_cases h2 : g.ed e = n
    · rw [if_pos h2, if_pos (show (g.map f).ed e = n from h2)]; rfl
    · rw [if_neg h2, if_neg (show ¬(g.map f).ed e = n from h2)]

theorem addArc_map (g : G σ) (e : Nat) : addArc (g.map f) e = (addArc g e).map f := by
  simp only [addArc]
  rw [addArcNode_map]
  exact addArcNode_map _ _ _

theorem addEdge_map (g : G σ) (p c : Nat) (l o : Int) : addEdge (g.map f) p c l o = (addEdge g p c l o).map f := by
  exact addArc_map (f := f) { g with
    es := upd g.es g.ne p, ed := upd g.ed g.ne c, el := upd g.el g.ne l, eo := upd g.eo g.ne o, ne := g.ne + 1 } g.ne

theorem disconnect_map (g : G σ) (n : Nat) : disconnect (g.map f) n = (disconnect g n).map f := by
  have h1 := foldl_map_comm (F := G.map f) (h := unlinkKid) (h' := unlinkKid) (fun _ _ => rfl) (g.par n) g
  unfold disconnect
  rw [show (g.map f).par n = g.par n from rfl, h1]
  generalize (g.par n).foldl unlinkKid g = g1
  have h2 := foldl_map_comm (F := G.map f) (h := unlinkPar) (h' := unlinkPar) (fun _ _ => rfl) (g1.kids n)
    { g1 with par := upd g1.par n [] }
  exact congrArg (fun x : G κ => { x with kids := upd x.kids n [] }) h2

theorem transferArcs_map (g : G σ) (d r : Nat) : transferArcs (g.map f) d r = (transferArcs g d r).map f := by
  simp only [transferArcs, show (g.map f).par = g.par from rfl]
  rw [foldl_map_comm (F := G.map f) (h := fun g e => addArc { g with ed := upd g.ed e r } e) (fun g e => addArc_map (f := f) { g with ed := upd g.ed e r } e)]
  generalize (g.par d).foldl (fun g e => addArc { g with ed := upd g.ed e r } e) g = g1
  simp only [show (g1.map f).kids = g1.kids from rfl]
  rw [foldl_map_comm (F := G.map f) (h := fun g e => addArc { g with es := upd g.es e r } e) (fun g e => addArc_map (f := f) { g with es := upd g.es e r } e)]
  exact disconnect_map _ _

/-! ### Nodes -/

/-- Steps of `visit` (src/dd.cpp:421-443), named for the proof. -/
def visDom (dom : Option Nat) (g : G σ) : G σ := if dom.isSome then { g with an := g.an.dropLast } else g
def visLab (s : Sense) (ep : Int) (c p : Nat) (l : Int) (g : G σ) : G σ :=
  if s.better ep (g.bound c) then { g with bound := upd g.bound c ep, lab := upd g.lab c (g.lab p ++ [l]) } else g
def visLay (c p : Nat) (g : G σ) : G σ := { g with layer := upd g.layer c (max (g.layer c) (g.layer p + 1)) }

theorem visit_eq [Same σ] (m : Mdl σ) (primal : Int) (cands : List Nat) (g : G σ) (p : Nat) (l : Int) :
    visit m primal cands g p l = match transition m primal g p l with
    | (g1, none) => (g1, none)
    | (g1, some c) =>
      let dom := if (g1.par c).isEmpty then findDom m g1 cands c (g1.bound p + m.stc (g1.st p) l) else none
      let g5 := visLay (dom.getD c) p (visLab m.sense (g1.bound p + m.stc (g1.st p) l) (dom.getD c) p l
        (addEdge (visDom dom g1) p (dom.getD c) l (m.stc (g1.st p) l)))
      (g5, if dom.isNone && (g1.par c).isEmpty && !(m.eqs (g5.st (dom.getD c))) then some (dom.getD c) else none) := rfl

variable [Same σ] [Same κ] (hS : ∀ a b : σ, Same.same (f a) (f b) = Same.same a b) (hm : HomR f m k)
include hS hm

omit hm in
theorem findNode_map (g : G σ) (s : σ) : findNode (g.map f) (f s) = findNode g s := by
  simp only [findNode, G.map, hS]

theorem makeNode_map (g : G σ) (s : σ) (pe : Bool) :
    makeNode k (g.map f) (f s) pe = ((makeNode m g s pe).1.map f, (makeNode m g s pe).2) := by
  simp only [makeNode, findNode_map hS, hm.sense]
  cases findNode g s with
  | some a =>
    simp only [show (g.map f).ex = g.ex from rfl, show (g.map f).par = g.par from rfl, show (g.map f).root = g.root from rfl,
      show (g.map f).trg = g.trg from rfl]
    split <;> rfl
  | none =>
    simp only [G.map, upd_map]

theorem start2_map (r : Src σ) : start2 k (r.map f) = (start2 m r).map f := by
  have := makeNode_map hS hm (start r) m.stt true
  simp only [start2, hm.stt, show start (r.map f) = (start r).map f from rfl, this]
  rfl

theorem transition_map (p : Int) (g : G σ) (n : Nat) (l : Int) :
    transition k p (g.map f) n l = ((transition m p g n l).1.map f, (transition m p g n l).2) := by
  simp only [transition, show (g.map f).st n = f (g.st n) from rfl, hm.stf, hm.loc, hm.stc, hm.sense]
  cases m.stf (g.st n) l with
  | none => rfl
  | some s' =>
    simp only [Option.map_some]
    cases k.loc with
    | none => simp only [Option.map_none, makeNode_map hS hm]; rfl
    | some h =>
      simp only [Option.map_some, makeNode_map hS hm, show (g.map f).bound = g.bound from rfl, show (g.map f).ex = g.ex from rfl]
      split
      · simp only [show ∀ g : G σ, (g.map f).bound = g.bound from fun _ => rfl]
        split <;> rfl
      · rfl

omit hm in
theorem mergeLow_map (g : G σ) (c : σ) (a b : Nat) : mergeLow (g.map f) (f c) a b = mergeLow g c a b := by
  unfold mergeLow
  rw [findNode_map hS]
  rfl

omit hm in
theorem merge_map (hm : Hom f m k) (g : G σ) (a b : Nat) : merge k (g.map f) a b = ((merge m g a b).1.map f, (merge m g a b).2) := by
  unfold merge
  rw [show ∀ n, (g.map f).st n = f (g.st n) from fun _ => rfl, show ∀ n, (g.map f).st n = f (g.st n) from fun _ => rfl, hm.smf, hm.sense]
  cases m.smf (g.st a) (g.st b) with
  | none => rfl
  | some c =>
    simp only [Option.map_some, makeNode_map hS hm.toHomR, mergeLow_map hS]
    by_cases h0 : mergeLow g c a b = true
    · rw [if_pos h0, if_pos h0]
    · rw [if_neg h0, if_neg h0]
      generalize makeNode m g c true = r
      have h1 : (if m.sense.better ((r.1.map f).bound a) ((r.1.map f).bound r.2) = true then copyBL (r.1.map f) r.2 a else r.1.map f)
          = G.map f (if m.sense.better (r.1.bound a) (r.1.bound r.2) = true then copyBL r.1 r.2 a else r.1) := by
        rw [show (r.1.map f).bound = r.1.bound from rfl]
        split <;> rfl
      rw [h1]
      generalize (if m.sense.better (r.1.bound a) (r.1.bound r.2) = true then copyBL r.1 r.2 a else r.1) = g1
      refine Prod.ext ?_ rfl
      simp only [show (g1.map f).bound = g1.bound from rfl]
      split <;> rfl

omit hS [Same σ] [Same κ] in
theorem findDom_map (g : G σ) (cs : List Nat) (n : Nat) (o : Int) : findDom k (g.map f) cs n o = findDom m g cs n o := by
  simp only [findDom, hm.sdom, hm.sense]
  cases k.sdom <;> rfl

omit hS hm [Same σ] [Same κ] in
theorem visDom_map (dom : Option Nat) (g : G σ) : visDom dom (g.map f) = (visDom dom g).map f := by
  unfold visDom; split <;> rfl

omit hS hm [Same σ] [Same κ] in
theorem visLab_map (s : Sense) (ep : Int) (c p : Nat) (l : Int) (g : G σ) : visLab s ep c p l (g.map f) = (visLab s ep c p l g).map f := by
  unfold visLab
  rw [show (g.map f).bound = g.bound from rfl]
  split <;> rfl

theorem visit_map (p : Int) (cs : List Nat) (g : G σ) (n : Nat) (l : Int) :
    visit k p cs (g.map f) n l = ((visit m p cs g n l).1.map f, (visit m p cs g n l).2) := by
  rw [visit_eq, visit_eq, transition_map hS hm]
  generalize transition m p g n l = t
  obtain ⟨g1, c⟩ := t
  cases c with
  | none => rfl
  | some c =>
    simp only [show (g1.map f).par = g1.par from rfl, show (g1.map f).bound = g1.bound from rfl,
      show ∀ n, (g1.map f).st n = f (g1.st n) from fun _ => rfl, hm.stc, findDom_map hm, hm.sense, visDom_map, addEdge_map,
      visLab_map]
    refine Prod.ext rfl ?_
    simp only [show ∀ (g : G σ) (a b n : Nat), (visLay a b (g.map f)).st n = f ((visLay a b g).st n) from fun _ _ _ _ => rfl, hm.eqs]

omit hS [Same σ] [Same κ] in
theorem tightenLoop_map (g : G σ) : ∀ (es : List Nat) (c : Int) (lb : List Int),
    tightenLoop k (g.map f) es c lb = tightenLoop m g es c lb
  | [], _, _ => rfl
  | e :: es, c, lb => by
    simp only [tightenLoop, hm.sense, tightenLoop_map g es]
    rfl

omit hS [Same σ] [Same κ] in
theorem tighten_map (g : G σ) (n : Nat) : tighten k (g.map f) n = (tighten m g n).map f := by
  simp only [tighten, tightenLoop_map hm, hm.sense]
  rfl

/-! ### Restricted -/

theorem resLabels_map (p : Int) (w n : Nat) : ∀ (ls : List Int) (g : G σ) (q : List Nat),
    resLabels k p w n ls (g.map f) q = ((resLabels m p w n ls g q).1.map f, (resLabels m p w n ls g q).2)
  | [], _, _ => rfl
  | l :: ls, g, q => by
    simp only [resLabels, visit_map hS hm]
    generalize visit m p q g n l = t
    obtain ⟨g1, c⟩ := t
    cases c with
    | none => exact resLabels_map p w n ls g1 q
    | some c =>
      simp only [show estimate (g1.map f) (q ++ [c]) = estimate g1 (q ++ [c]) from rfl]
      split
      · rfl
      · exact resLabels_map p w n ls g1 _

theorem resNodes_map (p : Int) (w : Nat) : ∀ (ps : List Nat) (g : G σ) (q : List Nat),
    resNodes k p w ps (g.map f) q = ((resNodes m p w ps g q).1.map f, (resNodes m p w ps g q).2)
  | [], _, _ => rfl
  | n :: ps, g, q => by
    simp only [resNodes, show ∀ n, (g.map f).st n = f (g.st n) from fun _ => rfl, hm.lgf, resLabels_map hS hm]
    generalize resLabels m p w n (m.lgf (g.st n)) g q = t
    obtain ⟨g1, q1, b⟩ := t
    cases b with
    | true => rfl
    | false => exact resNodes_map p w ps g1 q1

theorem resLoop_map (p : Int) (w : Nat) : ∀ (fu : Nat) (g : G σ) (q : List Nat),
    resLoop k p w fu (g.map f) q = (resLoop m p w fu g q).map (G.map f)
  | 0, _, _ => rfl
  | fu + 1, g, q => by
    simp only [resLoop, show pullLayer k (g.map f) q = pullLayer m g q by simp only [pullLayer, hm.sense]; rfl, resNodes_map hS hm]
    split
    · rfl
    · exact resLoop_map p w fu _ _

theorem restricted_map (p : Int) (w fu : Nat) (r : Src σ) :
    restricted k p w fu (r.map f) = (restricted m p w fu r).map (G.map f) := by
  simp only [restricted, start2_map hS hm]
  rw [show (G.map f (start2 m r)).root = (start2 m r).root from rfl, resLoop_map hS hm]
  cases resLoop m p w fu (start2 m r) [(start2 m r).root] with
  | none => rfl
  | some g => simp only [Option.map_some]; rw [show (G.map f g).trg = g.trg from rfl, tighten_map hm]

/-! ### Relaxed -/

omit hS hm [Same σ] [Same κ] in
theorem absorb_map (g : G σ) (d n : Nat) : absorb (g.map f) d n = (absorb g d n).map f := by
  unfold absorb
  split
  · simp only [transferArcs_map]; rfl
  · rfl

omit hS hm [Same σ] [Same κ] in
theorem mergePair_map (g : G σ) (mn a b : Nat) : mergePair (g.map f) mn a b = ((mergePair g mn a b).1.map f, (mergePair g mn a b).2) := by
  simp only [mergePair]
  refine Prod.ext ?_ rfl
  simp only []
  rw [← absorb_map, ← absorb_map]
  rfl

omit hm in
theorem mergeFind_map (hm : Hom f m k) (g : G σ) (n1 : Nat) : ∀ (r pre : List Nat),
    mergeFind k (g.map f) n1 pre r = (mergeFind m g n1 pre r).map (fun x => (x.1.map f, x.2))
  | [], _ => rfl
  | n2 :: r, pre => by
    simp only [mergeFind, merge_map hS hm, mergeFind_map hm g n1 r]
    simp only [show (g.map f).kids = g.kids from rfl, show (g.map f).layer = g.layer from rfl]
    split
    · generalize merge m g n1 n2 = t
      obtain ⟨g1, c⟩ := t
      cases c <;> rfl
    · rfl

omit hS [Same σ] [Same κ] in
theorem adjustBounds_map : ∀ (fu : Nat) (g : G σ) (n : Nat), adjustBounds k fu (g.map f) n = (adjustBounds m fu g n).map f
  | 0, _, _ => rfl
  | fu + 1, g, n => by
    simp only [adjustBounds]
    refine foldl_map_comm (F := G.map f) (fun g e => ?_) _ _
    simp only [hm.sense]
    by_cases h : m.sense.better (g.bound n + g.eo e) (g.bound (g.ed e)) = true
    · rw [if_pos h, if_pos (show m.sense.better ((g.map f).bound n + (g.map f).eo e) ((g.map f).bound ((g.map f).ed e)) = true from h)]
      exact adjustBounds_map fu { g with bound := upd g.bound (g.ed e) (g.bound n + g.eo e), lab := upd g.lab (g.ed e) (g.lab n ++ [g.el e]) } (g.ed e)
    · rw [if_neg h, if_neg (show ¬ m.sense.better ((g.map f).bound n + (g.map f).eo e) ((g.map f).bound ((g.map f).ed e)) = true from h)]

omit hm in
theorem mergeOne_map (hm : Hom f m k) (g : G σ) (n1 : Nat) (rest skip : List Nat) :
    mergeOne k (g.map f) n1 rest skip = ((mergeOne m g n1 rest skip).1.map f, (mergeOne m g n1 rest skip).2) := by
  simp only [mergeOne, mergeFind_map hS hm, show (g.map f).kids = g.kids from rfl]
  split
  · generalize mergeFind m g n1 [] rest = t
    cases t with
    | none => rfl
    | some t =>
      obtain ⟨g1, mn, n2, rest'⟩ := t
      simp only [Option.map_some, mergePair_map]
      generalize mergePair g1 mn n1 n2 = t
      obtain ⟨g2, a⟩ := t
      cases a with
      | delay =>
        simp only
        rw [show (g2.map f).nn = g2.nn from rfl, adjustBounds_map hm.toHomR]
      | inFront => rfl
      | noop => rfl
  · rfl

omit hm in
theorem mergeLoop_map (hm : Hom f m k) (w : Nat) : ∀ (fu : Nat) (g : G σ) (ly sk : List Nat),
    mergeLoop k w fu (g.map f) ly sk = ((mergeLoop m w fu g ly sk).1.map f, (mergeLoop m w fu g ly sk).2)
  | 0, _, _, _ => rfl
  | fu + 1, g, ly, sk => by
    simp only [mergeLoop]
    split
    · cases ly with
      | nil => rfl
      | cons n1 rest =>
        simp only [mergeOne_map hS hm]
        exact mergeLoop_map hm w fu _ _ _
    · rfl

omit hS [Same σ] [Same κ] in
theorem relSort_map (g : G σ) (l : List Nat) : relSort k (g.map f) l = relSort m g l := by
  have hi : ∀ (x : Nat) (l : List Nat), relIns k (g.map f) x l = relIns m g x l := by
    intro x l
    induction l with
    | nil => rfl
    | cons y ys ih => simp only [relIns, ih, hm.sense]; rfl
  unfold relSort
  congr 1
  funext acc x
  exact hi x acc

omit hm in
theorem pull_map (hm : Hom f m k) (w : Nat) (g : G σ) (q : LQ) : q.pull k w (g.map f) = ((q.pull m w g).1.map f, (q.pull m w g).2) := by
  simp only [LQ.pull, mergeLayer, relSort_map hm.toHomR, mergeLoop_map hS hm]
  cases q.rest <;> rfl

theorem relLabels_map (p : Int) (n : Nat) : ∀ (ls : List Int) (g : G σ) (q : LQ),
    relLabels k p n ls (g.map f) q = ((relLabels m p n ls g q).1.map f, (relLabels m p n ls g q).2)
  | [], _, _ => rfl
  | l :: ls, g, q => by
    simp only [relLabels, visit_map hS hm]
    generalize visit m p q.next g n l = t
    obtain ⟨g1, c⟩ := t
    cases c with
    | none => exact relLabels_map p n ls g1 q
    | some c => exact relLabels_map p n ls g1 _

theorem relNodes_map (p : Int) : ∀ (ps : List Nat) (g : G σ) (q : LQ),
    relNodes k p ps (g.map f) q = ((relNodes m p ps g q).1.map f, (relNodes m p ps g q).2)
  | [], _, _ => rfl
  | n :: ps, g, q => by
    simp only [relNodes, show ∀ n, (g.map f).st n = f (g.st n) from fun _ => rfl, hm.lgf, relLabels_map hS hm]
    exact relNodes_map p ps _ _

omit hm in
theorem relLoop_map (hm : Hom f m k) (p : Int) (w : Nat) : ∀ (fu : Nat) (g : G σ) (q : LQ),
    relLoop k p w fu (g.map f) q = (relLoop m p w fu g q).map (G.map f)
  | 0, _, _ => rfl
  | fu + 1, g, q => by
    simp only [relLoop, pull_map hS hm, relNodes_map hS hm.toHomR]
    split
    · rfl
    · exact relLoop_map hm p w fu _ _

omit hS [Same σ] [Same κ] in
theorem cbbLoop_map (nl : Nat → Option Nat) : ∀ (n : Nat) (h : DH) (g : G σ),
    cbbLoop k nl n h (g.map f) = (cbbLoop m nl n h g).map (G.map f)
  | 0, _, _ => rfl
  | n + 1, h, g => by
    simp only [cbbLoop, show ∀ n, bestKid k (g.map f) n = bestKid m g n by intro n; simp only [bestKid, hm.sense]; rfl]
    simp only [show (g.map f).par = g.par from rfl, show (g.map f).es = g.es from rfl]
    cases topoDec nl ((g.par (Heap.extractMax dord h).2.1).map g.es) (Heap.extractMax dord h).1 with
    | none => rfl
    | some h1 =>
      exact cbbLoop_map nl n h1 { g with bb := upd g.bb (Heap.extractMax dord h).2.1 (bestKid m g (Heap.extractMax dord h).2.1) }

omit hS [Same σ] [Same κ] in
theorem computeBestBackward_map (g : G σ) : computeBestBackward k (g.map f) = (computeBestBackward m g).map (G.map f) := by
  simp only [computeBestBackward, hm.sense]
  exact cbbLoop_map hm _ _ _ { g with bb := fun n => if n ∈ g.an then (if n = g.trg then 0 else m.sense.best0) else g.bb n }

omit hm in
theorem relaxed_map (hm : Hom f m k) (p : Int) (w fu : Nat) (r : Src σ) : relaxed k p w fu (r.map f) = (relaxed m p w fu r).map (G.map f) := by
  simp only [relaxed, start2_map hS hm.toHomR]
  rw [show (G.map f (start2 m r)).root = (start2 m r).root from rfl,
    show LQ.enQueue (G.map f (start2 m r)) ⟨[], []⟩ (start2 m r).root = LQ.enQueue (start2 m r) ⟨[], []⟩ (start2 m r).root from rfl,
    relLoop_map hS hm]
  cases relLoop m p w fu (start2 m r) (LQ.enQueue (start2 m r) ⟨[], []⟩ (start2 m r).root) with
  | none => rfl
  | some g =>
    simp only [Option.map_some, Option.bind_some]
    rw [show (G.map f g).trg = g.trg from rfl, tighten_map hm.toHomR, computeBestBackward_map hm.toHomR]

/-! ### Exact -/

theorem exLabels_map (p : Int) (n : Nat) : ∀ (ls : List Int) (g : G σ) (q : List Nat),
    exLabels k p n ls (g.map f) q = ((exLabels m p n ls g q).1.map f, (exLabels m p n ls g q).2)
  | [], _, _ => rfl
  | l :: ls, g, q => by
    simp only [exLabels, transition_map hS hm]
    generalize transition m p g n l = t
    obtain ⟨g1, c⟩ := t
    cases c with
    | none => exact exLabels_map p n ls g1 q
    | some c =>
      simp only [show ∀ (g : G σ) n, (g.map f).st n = f (g.st n) from fun _ _ => rfl, hm.stc, addEdge_map, hm.eqs]
      exact exLabels_map p n ls _ _

theorem exLoop_map (p : Int) : ∀ (fu : Nat) (g : G σ) (q : List Nat), exLoop k p fu (g.map f) q = (exLoop m p fu g q).map (G.map f)
  | 0, _, _ => rfl
  | _ + 1, _, [] => rfl
  | fu + 1, g, n :: q => by
    simp only [exLoop, show ∀ n, (g.map f).st n = f (g.st n) from fun _ => rfl, hm.lgf, exLabels_map hS hm]
    exact exLoop_map p fu _ _

omit hS [Same σ] [Same κ] in
theorem bestPar_map (g : G σ) (n : Nat) : bestPar k (g.map f) n = bestPar m g n := by
  have : ∀ (es : List Nat) (c : Int) (lb : List Int), bestPar.go k (g.map f) es c lb = bestPar.go m g es c lb := by
    intro es
    induction es with
    | nil => intros; rfl
    | cons e es ih => intro c lb; simp only [bestPar.go, ih, hm.sense]; rfl
  simp only [bestPar, this, hm.sense]
  rfl

omit hS [Same σ] [Same κ] in
theorem cbLoop_map (nl : Nat → Option Nat) : ∀ (n : Nat) (h : DH) (g : G σ),
    cbLoop k nl n h (g.map f) = (cbLoop m nl n h g).map (G.map f)
  | 0, _, _ => rfl
  | n + 1, h, g => by
    simp only [cbLoop, bestPar_map hm]
    simp only [show (g.map f).kids = g.kids from rfl, show (g.map f).ed = g.ed from rfl]
    cases topoDec nl ((g.kids (Heap.extractMax dord h).2.1).map g.ed) (Heap.extractMax dord h).1 with
    | none => rfl
    | some h1 =>
      exact cbLoop_map nl n h1 { g with
        bound := upd g.bound (Heap.extractMax dord h).2.1 (bestPar m g (Heap.extractMax dord h).2.1).1
        lab := upd g.lab (Heap.extractMax dord h).2.1 (bestPar m g (Heap.extractMax dord h).2.1).2 }

theorem exactDD_map (p : Int) (fu : Nat) (r : Src σ) : exactDD k p fu (r.map f) = (exactDD m p fu r).map (G.map f) := by
  simp only [exactDD, start2_map hS hm]
  rw [show (G.map f (start2 m r)).root = (start2 m r).root from rfl, exLoop_map hS hm]
  cases exLoop m p fu (start2 m r) [(start2 m r).root] with
  | none => rfl
  | some g =>
    simp only [Option.map_some, Option.bind_some, computeBest, hm.sense]
    exact cbLoop_map hm _ _ _ { g with bound := fun n => if n ∈ g.an ∧ n ≠ g.root then m.sense.best0 else g.bound n }

omit hS hm [Same σ] [Same κ] in
theorem cutSet_map (g : G σ) : cutSet (g.map f) = cutSet g := by
  have : ∀ (fu : Nat) (q i c : List Nat), cutLoop (g.map f) fu q i c = cutLoop g fu q i c := by
    intro fu
    induction fu with
    | zero => intros; rfl
    | succ fu ih =>
      intro q i c
      cases q with
      | nil => rfl
      | cons n q => simp only [cutLoop, ih]; rfl
  exact this _ _ _ _

end Verif.DD

namespace Verif.BB
open Verif.DD
variable {σ κ : Type} {f : σ → κ} {m : Mdl σ} {k : Mdl κ} [Same σ] [Same κ]

omit [Same σ] [Same κ] in
theorem domScan_map (sm : k.sense = m.sense) {sd : σ → σ → Bool} {sd' : κ → κ → Bool} (hd : ∀ a b, sd' (f a) (f b) = sd a b)
    (s : BS σ) (st : σ) (bd : Int) : ∀ (ls acc : List Nat), domScan k sd' (s.map f) (f st) bd ls acc = domScan m sd s st bd ls acc
  | [], _ => rfl
  | l :: ls, acc => by
    simp only [domScan, sm, domScan_map sm hd s st bd ls]
    rw [show (s.map f).pst ((s.map f).pq.val l).1 = f (s.pst (s.pq.val l).1) from rfl, hd, hd]
    rfl

omit [Same σ] [Same κ] in
theorem domStep_map (hm : HomR f m k) (s : BS σ) (st : σ) (bd : Int) :
    domStep k (s.map f) (f st) bd = ((domStep m s st bd).1, (domStep m s st bd).2.map f) := by
  unfold domStep
  rw [hm.sdom]
  cases k.sdom with
  | none => rfl
  | some sd' =>
    simp only [Option.map_some]
    rw [domScan_map hm.sense (sd := fun a b => sd' (f a) (f b)) (fun _ _ => rfl), show qord k = qord m by unfold qord; rw [hm.sense]]
    rfl

omit [Same σ] [Same κ] in
theorem insKey_map {lc : Option (σ → Ctx → Int)} {lc' : Option (κ → Ctx → Int)} (hl : lc = lc'.map (fun h s c => h (f s) c)) (g : G σ)
    (n : Nat) : insKey lc' (g.map f) n = insKey lc g n := by
  subst hl; cases lc' <;> rfl

variable (hS : ∀ a b : σ, Same.same (f a) (f b) = Same.same a b)
include hS

theorem findPool_map (s : BS σ) (x : σ) : findPool (s.map f) (f x) = findPool s x := by
  simp only [findPool, BS.map, hS]

theorem cutStep_map (hm : HomR f m k) {lc : Option (σ → Ctx → Int)} {lc' : Option (κ → Ctx → Int)}
    (hl : lc = lc'.map (fun h s c => h (f s) c)) (g : G σ) (cur : Nat) (s0 : BS σ) (n : Nat) :
    cutStep k lc' (g.map f) cur (s0.map f) n = (cutStep m lc g cur s0 n).map f := by
  unfold cutStep
  have e0 : (if n = (g.map f).root then { s0.map f with wrel := (s0.map f).wrel + 1 } else s0.map f)
      = BS.map f (if n = g.root then { s0 with wrel := s0.wrel + 1 } else s0) := by
    rw [show (g.map f).root = g.root from rfl]; split <;> rfl
  simp only [e0]
  generalize (if n = g.root then { s0 with wrel := s0.wrel + 1 } else s0) = s
  rw [hm.sense, show ∀ n, (g.map f).st n = f (g.st n) from fun _ => rfl]
  by_cases h1 : m.sense.better (g.bound n + g.bb n) s.primal = true
  · rw [if_pos h1, if_pos (show m.sense.better ((g.map f).bound n + (g.map f).bb n) (s.map f).primal = true from h1),
      show (g.map f).bound = g.bound from rfl, domStep_map hm]
    generalize domStep m s (g.st n) (g.bound n) = t
    obtain ⟨b, s1⟩ := t
    cases b with
    | true => rfl
    | false =>
      simp only []
      rw [findPool_map hS]
      cases findPool s1 (g.st n) with
      | some o => rfl
      | none =>
        simp only []
        rw [insKey_map hl, show clone (s1.map f) (f (g.st n)) ((g.map f).lab n) (g.bound n) ((g.map f).bb n)
            = (clone s1 (g.st n) (g.lab n) (g.bound n) (g.bb n)).map f by simp only [clone, BS.map, upd_map]; rfl,
          show qord k = qord m by unfold qord; rw [hm.sense]]
        generalize clone s1 (g.st n) (g.lab n) (g.bound n) (g.bb n) = s2
        rw [show (s2.map f).primal = s2.primal from rfl]
        split <;> rfl
  · rw [if_neg h1, if_neg (show ¬ m.sense.better ((g.map f).bound n + (g.map f).bb n) (s.map f).primal = true from h1)]
    rfl

omit hS [Same σ] [Same κ] in
theorem setPrimal_map (hm : HomR f m k) (s : BS σ) (v : Int) (lb : List Int) : setPrimal k (s.map f) v lb = (setPrimal m s v lb).map f := by
  simp only [setPrimal, hm.sense]
  rfl

/-- An expansion, once the relaxed diagrams correspond. -/
theorem expandP_mapR (hm : HomR f m k) {M : Int → Mdl σ} {K : Int → Mdl κ} (hM : ∀ p, HomR f (M p) (K p))
    {lc : Int → Option (σ → Ctx → Int)} {lc' : Int → Option (κ → Ctx → Int)}
    (hl : ∀ p, lc p = (lc' p).map (fun h s c => h (f s) c)) (w fu : Nat) (s : BS σ) (cur : Nat)
    (hX : relaxed (K s.primal) s.primal s.wrel fu ((s.src cur).map f) = (relaxed (M s.primal) s.primal s.wrel fu (s.src cur)).map (G.map f)) :
    expandP k K lc' w fu (s.map f) cur = (expandP m M lc w fu s cur).map (BS.map f) := by
  unfold expandP
  rw [show (s.map f).src cur = (s.src cur).map f from rfl, show (s.map f).primal = s.primal from rfl,
    show (s.map f).wrel = s.wrel from rfl, hX, hm.sense]
  cases relaxed (M s.primal) s.primal s.wrel fu (s.src cur) with
  | none => rfl
  | some g =>
    simp only [Option.map_some, Option.bind_some]
    rw [show (g.map f).bound (g.map f).trg = g.bound g.trg from rfl]
    by_cases h1 : m.sense.better (g.bound g.trg) s.primal = true
    · rw [if_pos h1, if_pos h1]
      have e1 : (if (g.map f).exact = true then setPrimal k (s.map f) (g.bound g.trg) ((g.map f).lab (g.map f).trg) else s.map f)
          = BS.map f (if g.exact = true then setPrimal m s (g.bound g.trg) (g.lab g.trg) else s) := by
        rw [show (g.map f).exact = g.exact from rfl]
        split
        · exact setPrimal_map hm _ _ _
        · rfl
      rw [e1]
      generalize (if g.exact = true then setPrimal m s (g.bound g.trg) (g.lab g.trg) else s) = s1
      rw [show (s1.map f).src cur = (s1.src cur).map f from rfl, show (s1.map f).primal = s1.primal from rfl,
        restricted_map hS (hM _)]
      cases restricted (M s1.primal) s1.primal w fu (s1.src cur) with
      | none => rfl
      | some r =>
        simp only [Option.map_some, Option.bind_some]
        rw [show (r.map f).bound (r.map f).trg = r.bound r.trg from rfl]
        have e2 : (if m.sense.better (r.bound r.trg) s1.primal = true then setPrimal k (s1.map f) (r.bound r.trg) ((r.map f).lab (r.map f).trg) else s1.map f)
            = BS.map f (if m.sense.better (r.bound r.trg) s1.primal = true then setPrimal m s1 (r.bound r.trg) (r.lab r.trg) else s1) := by
          split
          · exact setPrimal_map hm _ _ _
          · rfl
        rw [e2]
        generalize (if m.sense.better (r.bound r.trg) s1.primal = true then setPrimal m s1 (r.bound r.trg) (r.lab r.trg) else s1) = s2
        rw [show (r.map f).exact = r.exact from rfl, show (g.map f).exact = g.exact from rfl, cutSet_map,
          show (s2.map f).primal = s2.primal from rfl]
        split
        · cases cutSet g with
          | none => rfl
          | some cs =>
            simp only [Option.map_some]
            rw [foldl_map_comm (F := BS.map f) (h := cutStep m (lc s2.primal) g cur) (fun s n => cutStep_map hS hm (hl _) g cur s n)]
        · rfl
    · rw [if_neg h1, if_neg h1]; rfl

theorem expandP_map (hm : Hom f m k) {M : Int → Mdl σ} {K : Int → Mdl κ} (hM : ∀ p, Hom f (M p) (K p))
    {lc : Int → Option (σ → Ctx → Int)} {lc' : Int → Option (κ → Ctx → Int)}
    (hl : ∀ p, lc p = (lc' p).map (fun h s c => h (f s) c)) (w fu : Nat) (s : BS σ) (cur : Nat) :
    expandP k K lc' w fu (s.map f) cur = (expandP m M lc w fu s cur).map (BS.map f) :=
  expandP_mapR hS hm.toHomR (fun p => (hM p).toHomR) hl w fu s cur (relaxed_map hS (hM _) _ _ _ _)

theorem loopP_map (hm : Hom f m k) {M : Nat → Int → Mdl σ} {K : Nat → Int → Mdl κ} (hM : ∀ i p, Hom f (M i p) (K i p))
    {lc : Nat → Int → Option (σ → Ctx → Int)} {lc' : Nat → Int → Option (κ → Ctx → Int)}
    (hl : ∀ i p, lc i p = (lc' i p).map (fun h s c => h (f s) c)) (w fu : Nat) (lim : Nat → Bool) :
    ∀ (n i : Nat) (s : BS σ), loopP k K lc' w fu lim n i (s.map f) = (loopP m M lc w fu lim n i s).map (BS.map f)
  | 0, _, _ => rfl
  | n + 1, i, s => by
    unfold loopP
    rw [show (s.map f).pq = s.pq from rfl, show qord k = qord m by unfold qord; rw [hm.sense], hm.sense]
    by_cases h1 : Heap.empty s.pq = true
    · rw [if_pos h1, if_pos h1]; rfl
    · rw [if_neg h1, if_neg h1]
      simp only []
      by_cases h2 : lim i = true
      · rw [if_pos h2, if_pos h2]; rfl
      · rw [if_neg h2, if_neg h2]
        rw [show (s.map f).primal = s.primal from rfl]
        have key := expandP_map hS hm (hM i) (hl i) w fu { s with pq := (Heap.extractMax (qord m) s.pq).1 }
          (Heap.extractMax (qord m) s.pq).2.1
        split
        · refine Eq.trans (congrArg (fun x => Option.bind x _) key) ?_
          cases expandP m (M i) (lc i) w fu { s with pq := (Heap.extractMax (qord m) s.pq).1 } (Heap.extractMax (qord m) s.pq).2.1 with
          | none => rfl
          | some s' => exact loopP_map hm hM hl w fu lim n (i + 1) s'
        · exact loopP_map hm hM hl w fu lim n (i + 1) { s with pq := (Heap.extractMax (qord m) s.pq).1 }

/-- The search with the states' own equality is the search on what that equality keeps, when forgetting the rest is
a map of models: same bounds, solutions, order of nodes and end. -/
theorem searchT_map (hm : Hom f m k) {M : Nat → Int → Mdl σ} {K : Nat → Int → Mdl κ} (hM : ∀ i p, Hom f (M i p) (K i p))
    {lc : Nat → Int → Option (σ → Ctx → Int)} {lc' : Nat → Int → Option (κ → Ctx → Int)}
    (hl : ∀ i p, lc i p = (lc' i p).map (fun h s c => h (f s) c)) (w fu : Nat) (lim : Nat → Bool) (n : Nat) (p0 : Int) :
    searchT k K lc' w fu lim n p0 = (searchT m M lc w fu lim n p0).map (BS.map f) := by
  unfold searchT
  rw [show init k w p0 = (init m w p0).map f by
    simp only [init, hm.sense, hm.loc, hm.sti, show qord k = qord m by unfold qord; rw [hm.sense]]
    cases k.loc <;> rfl]
  exact loopP_map hS hm hM hl w fu lim n 0 _

end Verif.BB

namespace Verif.Ex
open Verif.DD

/-! ### C109: when the equality may ignore part of a state -/

section
variable {σ κ : Type} [DecidableEq κ] {f : σ → κ} {m : Mdl σ} {k : Mdl κ} {n : Nat} {eqv : σ → σ → Bool} {hash : σ → Nat}

theorem tabSame_same (he : ∀ a b, eqv a b = true ↔ f a = f b) (hh : ∀ a b, f a = f b → hash a = hash b) (a b : σ) :
    Same.same (f a) (f b) = (tabSame n eqv hash).same a b := by
  rw [same_eq]
  show _ = (eqv a b && hash a % n == hash b % n)
  by_cases h : f a = f b
  · rw [(he a b).2 h, hh a b h]; simp [h]
  · have : eqv a b = false := by cases h1 : eqv a b with
      | false => rfl
      | true => exact absurd ((he a b).1 h1) h
    simp [h, this]

/-- C109.  `f` is what the user's equality compares, and the user's hash depends on nothing else.  If the user's functions only
read and write what is compared, then the whole search over the hash tables with that equality is the search
on the compared parts alone, with true equality: the same answer, the same solutions in the same order. -/
theorem state_equality (he : ∀ a b, eqv a b = true ↔ f a = f b) (hh : ∀ a b, f a = f b → hash a = hash b) {M : Int → Mdl σ}
    {K : Int → Mdl κ} (hm : Hom f m k) (hM : ∀ p, Hom f (M p) (K p)) (w fu : Nat) (lim : Nat → Bool) (N : Nat) (p0 : Int) :
    (@BB.searchP σ (tabSame n eqv hash) m M w fu lim N p0).map (fun s => (s.primal, s.inc, s.sols, s.stopped, s.wrel, s.log)) =
      (BB.searchP k K w fu lim N p0).map (fun s => (s.primal, s.inc, s.sols, s.stopped, s.wrel, s.log)) := by
  have h := @BB.searchT_map σ κ f m k (tabSame n eqv hash) _ (tabSame_same he hh) hm (fun _ => M) (fun _ => K) (fun _ => hM)
    (fun _ p => (M p).loc) (fun _ p => (K p).loc) (fun _ p => (hM p).loc) w fu lim N p0
  unfold BB.searchP
  rw [h, Option.map_map]
  rfl

/-- C109 for one relaxed diagram: bounds, labels and cut set do not depend on what the equality ignores. -/
theorem state_equality_relaxed (he : ∀ a b, eqv a b = true ↔ f a = f b) (hh : ∀ a b, f a = f b → hash a = hash b) (hm : Hom f m k)
    (p : Int) (w fu : Nat) (r : Src σ) :
    (@relaxed σ (tabSame n eqv hash) m p w fu r).map (fun g => (g.bound g.trg, g.lab g.trg, g.exact, cutSet g)) =
      (relaxed k p w fu ⟨f r.st, r.lab, r.bound, r.bb⟩).map (fun g => (g.bound g.trg, g.lab g.trg, g.exact, cutSet g)) := by
  have h := @relaxed_map σ κ f m k (tabSame n eqv hash) _ (tabSame_same he hh) hm p w fu r
  rw [show (⟨f r.st, r.lab, r.bound, r.bb⟩ : Src κ) = r.map f from rfl, h, Option.map_map]
  congr 1
  funext g
  show _ = ((g.map f).bound (g.map f).trg, (g.map f).lab (g.map f).trg, (g.map f).exact, cutSet (g.map f))
  rw [cutSet_map]
  rfl

end

variable (t : Tsp4)

theorem Tsp4.hom2 (J : Int) : Hom Tsp2L.x (t.mdl2L J) (t.mdl2 J) where
  sense := rfl
  sti := rfl
  stt := rfl
  lgf := fun _ => rfl
  stf := fun s l => by simp only [Tsp4.mdl2L, Option.map_map]; cases (t.mdl2 J).stf s.x l <;> rfl
  stc := fun _ _ => rfl
  smf := fun a b => by simp only [Tsp4.mdl2L, Option.map_map]; cases (t.mdl2 J).smf a.x b.x <;> rfl
  eqs := fun _ => rfl
  loc := rfl
  sdom := rfl

theorem Tsp4.hom3 (J : Int) : Hom Tsp3L.x (t.mdl3L J) (t.mdl3 J) where
  sense := rfl
  sti := rfl
  stt := rfl
  lgf := fun _ => rfl
  stf := fun s l => by simp only [Tsp4.mdl3L, Option.map_map]; cases (t.mdl3 J).stf s.x l <;> rfl
  stc := fun _ _ => rfl
  smf := fun a b => by simp only [Tsp4.mdl3L, Option.map_map]; cases (t.mdl3 J).smf a.x b.x <;> rfl
  eqs := fun _ => rfl
  loc := rfl
  sdom := rfl

/-- C109 for tsp_test2 and tsp_test3: the running cost `lb` kept in the states, which their equality ignores, changes nothing. -/
theorem tsp_lb_unused (J : Int) (w fu : Nat) (lim : Nat → Bool) (N : Nat) (p0 : Int) :
    (BB.search (t.mdl2L J) w fu lim N p0).map (fun s => (s.primal, s.inc, s.sols)) =
        (BB.search (t.mdl2 J) w fu lim N p0).map (fun s => (s.primal, s.inc, s.sols)) ∧
      (BB.search (t.mdl3L J) w fu lim N p0).map (fun s => (s.primal, s.inc, s.sols)) =
        (BB.search (t.mdl3 J) w fu lim N p0).map (fun s => (s.primal, s.inc, s.sols)) := by
  have h2 := BB.searchT_map (f := Tsp2L.x) (fun _ _ => rfl) (t.hom2 J) (fun _ _ => t.hom2 J)
    (lc := fun _ _ => (t.mdl2L J).loc) (lc' := fun _ _ => (t.mdl2 J).loc) (fun _ _ => (t.hom2 J).loc) w fu lim N p0
  have h3 := BB.searchT_map (f := Tsp3L.x) (fun _ _ => rfl) (t.hom3 J) (fun _ _ => t.hom3 J)
    (lc := fun _ _ => (t.mdl3L J).loc) (lc' := fun _ _ => (t.mdl3 J).loc) (fun _ _ => (t.hom3 J).loc) w fu lim N p0
  unfold BB.search BB.searchP
  rw [h2, h3, Option.map_map, Option.map_map]
  exact ⟨rfl, rfl⟩

/-- A case of `state_equality`: five cities, 64 buckets, the hash of examples/tsp_test2.cpp:21-27.  States with
different `lb` meet: the paths 0-1-2-3 and 0-2-1-3 cost differently. -/
def l5 : Tsp4 := ⟨5, fun i j => (([[0,3,9,8,4],[3,0,5,9,7],[9,5,0,3,6],[8,9,3,0,2],[4,7,6,2,0]] : List (List Int)).getD i []).getD j 0⟩

example (w fu : Nat) (lim : Nat → Bool) (N : Nat) (p0 : Int) :
    (@BB.searchP Tsp2L (tabSame 64 (fun a b => decide (a.x = b.x)) (fun a => a.x.A <<< 24 ||| a.x.e <<< 16 ||| a.x.hops)) (l5.mdl2L 0)
      (fun _ => l5.mdl2L 0) w fu lim N p0).map (fun s => (s.primal, s.inc, s.sols, s.stopped, s.wrel, s.log)) =
    (BB.searchP (l5.mdl2 0) (fun _ => l5.mdl2 0) w fu lim N p0).map (fun s => (s.primal, s.inc, s.sols, s.stopped, s.wrel, s.log)) :=
  state_equality (f := Tsp2L.x) (fun _ _ => decide_eq_true_iff) (fun a b h => by simp only [h]) (l5.hom2 0) (fun _ => l5.hom2 0) w fu lim N p0

/-- The states after 1, 2, 3 and after 2, 1, 3 differ in `lb` and are one node. -/
example : ∃ a b : Tsp2L, (((l5.mdl2L 0).stf (l5.mdl2L 0).sti 1).bind fun s => ((l5.mdl2L 0).stf s 2).bind fun s => (l5.mdl2L 0).stf s 3) = some a ∧
    (((l5.mdl2L 0).stf (l5.mdl2L 0).sti 2).bind fun s => ((l5.mdl2L 0).stf s 1).bind fun s => (l5.mdl2L 0).stf s 3) = some b ∧
    Same.same a b = true ∧ a.lb = 11 ∧ b.lb = 23 := ⟨_, _, rfl, rfl, rfl, rfl, rfl⟩

/-! ### C110: gruler's equality ignores what its functions read -/

/-- Tables made for 200000 entries (src/dd.hpp:351, 560) have 200191 buckets. -/
theorem gruler_buckets : Hash.tabSize 200000 = some 200191 := by decide +kernel

/-- Rulers with 8 marks of length at most 40. -/
def g840 : Gol := ⟨8, 39, optTable⟩

/-- The state after the marks 0, 1, 5, 17, 25. -/
def g840s : GolS := ⟨2 ^ 0 ||| 2 ^ 1 ||| 2 ^ 5 ||| 2 ^ 17 ||| 2 ^ 25, 2 ^ 1 ||| 2 ^ 4 ||| 2 ^ 5 ||| 2 ^ 8 ||| 2 ^ 12 ||| 2 ^ 16 ||| 2 ^ 17 ||| 2 ^ 20 ||| 2 ^ 24 ||| 2 ^ 25, 5, 25⟩

/-- C110 is false.  The marks 0, 1, 5, 17, 25 can be completed to a ruler of 8 marks and length 40; the relaxed diagram below that
state, built over the hash tables with the program's own equality, says that no completion exists.  With equality of
whole states its bound is 40. -/
theorem gruler_equality_false :
    (∃ ms : List Nat, [1, 5, 17, 25] <+: ms ∧ Golomb (0 :: ms) ∧ ms.length + 1 = 8 ∧ ms.getLast?.getD 0 = 40) ∧
    Path g840.full g840.full.sti [1, 5, 17, 25] 25 g840s ∧
    (∃ g, @relaxed GolS gruSame (g840.fam 2147483647) 2147483647 1 20 ⟨g840s, [1, 5, 17, 25], 25, 0⟩ = some g ∧ g.bound g.trg = 2147483647) ∧
    (∃ g, relaxed (g840.fam 2147483647) 2147483647 1 20 ⟨g840s, [1, 5, 17, 25], 25, 0⟩ = some g ∧ g.bound g.trg = 40) := by
  refine ⟨⟨[1, 5, 17, 25, 31, 38, 40], by decide, ⟨by decide, ?_⟩, rfl, rfl⟩, ?_, ?_, ?_⟩
  · have : ∀ a ∈ [0, 1, 5, 17, 25, 31, 38, 40], ∀ b ∈ [0, 1, 5, 17, 25, 31, 38, 40], ∀ c ∈ [0, 1, 5, 17, 25, 31, 38, 40],
        ∀ d ∈ [0, 1, 5, 17, 25, 31, 38, 40], a < b → c < d → b - a = d - c → a = c ∧ b = d := by decide +kernel
    exact fun a b c d ha hb hc hd => this a ha b hb c hc d hd
  · have p1 : Path g840.full g840.full.sti [1, 5, 17, 25] _ g840s :=
      Path.cons (s' := ⟨3, 2, 2, 1⟩) ⟨by decide +kernel, by decide +kernel, by decide +kernel⟩
        (Path.cons (s' := ⟨35, 50, 3, 5⟩) ⟨by decide +kernel, by decide +kernel, by decide +kernel⟩
        (Path.cons (s' := ⟨131107, 200754, 4, 17⟩) ⟨by decide +kernel, by decide +kernel, by decide +kernel⟩
        (Path.cons (s' := g840s) ⟨by decide +kernel, by decide +kernel, by decide +kernel⟩ (Path.nil _))))
    exact p1
  · have hv : (@relaxed GolS gruSame (g840.fam 2147483647) 2147483647 1 20 ⟨g840s, [1, 5, 17, 25], 25, 0⟩).map
        (fun g => g.bound g.trg) = some 2147483647 := by decide +kernel
    exact Option.map_eq_some_iff.1 hv
  · have hv : (relaxed (g840.fam 2147483647) 2147483647 1 20 ⟨g840s, [1, 5, 17, 25], 25, 0⟩).map
        (fun g => g.bound g.trg) = some 40 := by decide +kernel
    exact Option.map_eq_some_iff.1 hv

end Verif.Ex
