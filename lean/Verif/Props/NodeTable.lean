import Verif.BB
import Verif.Same
import Verif.Props.Hash
/-!
# C143: the node tables behind the diagrams and the search

The engine model looks a state up with `findNode` (`findPool`): the first of all nodes made so far that the table would
find.  Here the table itself is put behind it: chains, stamps and buckets of `Hash.lean`, filled by `makeNode` since the
last `reset`.  No hypothesis on the model; the user's equality is an equivalence, his hash is arbitrary.
-/
namespace Verif.DD
variable {σ : Type} [Same σ]

/-- Nodes are only added, keep their state, and a new one is not found among the older ones. -/
structure Ext (g g' : G σ) : Prop where
  le : g.nn ≤ g'.nn
  st : ∀ i, i < g.nn → g'.st i = g.st i
  new : ∀ j, g.nn ≤ j → j < g'.nn → ∀ i, i < j → Same.same (g'.st i) (g'.st j) = false

theorem Ext.rfl' {g : G σ} : Ext g g := ⟨Nat.le_refl _, fun _ _ => rfl, fun j h1 h2 => by omega⟩

theorem Ext.trans {a b c : G σ} (h : Ext a b) (k : Ext b c) : Ext a c where
  le := Nat.le_trans h.le k.le
  st := fun i hi => (k.st i (Nat.lt_of_lt_of_le hi h.le)).trans (h.st i hi)
  new := fun j h1 h2 i hi => by
    by_cases hj : j < b.nn
    · rw [k.st j hj, k.st i (by omega)]; exact h.new j h1 hj i hi
    · exact k.new j (by omega) h2 i hi

/-- Nothing happens to the states. -/
def Kp (g g' : G σ) : Prop := g'.st = g.st ∧ g'.nn = g.nn

omit [Same σ] in
theorem Kp.trans {a b c : G σ} (h : Kp a b) (k : Kp b c) : Kp a c := ⟨k.1.trans h.1, k.2.trans h.2⟩

theorem Kp.ext {g g' : G σ} (h : Kp g g') : Ext g g' :=
  ⟨by rw [h.2]; exact Nat.le_refl _, fun _ _ => by rw [h.1], fun j h1 h2 => by rw [h.2] at h2; omega⟩

omit [Same σ] in
theorem kp_foldl {α : Type} (F : G σ → α → G σ) (hF : ∀ g a, Kp g (F g a)) : ∀ (l : List α) (g : G σ), Kp g (l.foldl F g)
  | [], _ => ⟨rfl, rfl⟩
  | a :: l, g => (hF g a).trans (kp_foldl F hF l (F g a))

omit [Same σ] in
theorem kp_addArcNode (g : G σ) (e n : Nat) : Kp g (addArcNode g e n) := by
  unfold addArcNode
  split
  · exact ⟨rfl, rfl⟩
  · split <;> exact ⟨rfl, rfl⟩

omit [Same σ] in
theorem kp_addArc (g : G σ) (e : Nat) : Kp g (addArc g e) := (kp_addArcNode _ _ _).trans (kp_addArcNode _ _ _)

omit [Same σ] in
theorem kp_addEdge (g : G σ) (p c : Nat) (l o : Int) : Kp g (addEdge g p c l o) := by
  unfold addEdge
  exact Kp.trans (b := { g with es := _, ed := _, el := _, eo := _, ne := g.ne + 1 }) ⟨rfl, rfl⟩ (kp_addArc _ _)

omit [Same σ] in
theorem kp_disconnect (g : G σ) (n : Nat) : Kp g (disconnect g n) := by
  unfold disconnect
  have h1 := kp_foldl unlinkKid (fun _ _ => ⟨rfl, rfl⟩) (g.par n) g
  have h2 := kp_foldl unlinkPar (fun _ _ => ⟨rfl, rfl⟩)
    ({ (g.par n).foldl unlinkKid g with par := upd ((g.par n).foldl unlinkKid g).par n [] }.kids n)
    { (g.par n).foldl unlinkKid g with par := upd ((g.par n).foldl unlinkKid g).par n [] }
  exact ⟨h2.1.trans h1.1, h2.2.trans h1.2⟩

omit [Same σ] in
theorem kp_transferArcs (g : G σ) (d r : Nat) : Kp g (transferArcs g d r) := by
  unfold transferArcs
  have h1 := kp_foldl (fun (g : G σ) e => addArc { g with ed := upd g.ed e r } e)
    (fun g e => Kp.trans (b := { g with ed := upd g.ed e r }) ⟨rfl, rfl⟩ (kp_addArc _ _)) (g.par d) g
  revert h1
  generalize (g.par d).foldl (fun (g : G σ) e => addArc { g with ed := upd g.ed e r } e) g = g1
  intro h1
  have h2 := kp_foldl (fun (g : G σ) e => addArc { g with es := upd g.es e r } e)
    (fun g e => Kp.trans (b := { g with es := upd g.es e r }) ⟨rfl, rfl⟩ (kp_addArc _ _)) (g1.kids d) g1
  exact (h1.trans h2).trans (kp_disconnect _ _)

omit [Same σ] in
theorem kp_ite {c : Prop} [Decidable c] {g a b : G σ} (ha : Kp g a) (hb : Kp g b) : Kp g (if c then a else b) := by
  split
  · exact ha
  · exact hb

omit [Same σ] in
theorem kp_absorb (g : G σ) (d r : Nat) : Kp g (absorb g d r) := by
  unfold absorb
  split
  · exact Kp.trans (kp_transferArcs g d r) ⟨rfl, rfl⟩
  · exact ⟨rfl, rfl⟩

omit [Same σ] in
theorem kp_mergePair (g : G σ) (mn a b : Nat) : Kp g (mergePair g mn a b).1 := by
  unfold mergePair
  dsimp only
  generalize hg : (G.mk _ _ _ _ _ _ _ _ _ _ _ _ _ _ _ _ _ _ _ _ : G σ) = g1
  have h1 : Kp g g1 := by rw [← hg]; exact ⟨rfl, rfl⟩
  exact (h1.trans (kp_absorb _ _ _)).trans (kp_absorb _ _ _)

omit [Same σ] in
theorem kp_adjust (m : Mdl σ) : ∀ (f : Nat) (g : G σ) (n : Nat), Kp g (adjustBounds m f g n)
  | 0, _, _ => ⟨rfl, rfl⟩
  | f + 1, g, n => by
    unfold adjustBounds
    refine kp_foldl _ (fun g e => ?_) _ _
    dsimp only
    split
    · exact Kp.trans (b := { g with bound := _, lab := _ }) ⟨rfl, rfl⟩ (kp_adjust m f _ _)
    · exact ⟨rfl, rfl⟩

omit [Same σ] in
theorem kp_cbLoop (m : Mdl σ) (nl : Nat → Option Nat) : ∀ (k : Nat) (h : DH) (g g' : G σ), cbLoop m nl k h g = some g' → Kp g g'
  | 0, _, g, g', h => by cases h; exact ⟨rfl, rfl⟩
  | k + 1, h, g, g', e => by
    unfold cbLoop at e
    dsimp only at e
    split at e
    · cases e
    · have := kp_cbLoop m nl k _ _ _ e
      exact ⟨this.1, this.2⟩

omit [Same σ] in
theorem kp_cbbLoop (m : Mdl σ) (nl : Nat → Option Nat) : ∀ (k : Nat) (h : DH) (g g' : G σ), cbbLoop m nl k h g = some g' → Kp g g'
  | 0, _, g, g', h => by cases h; exact ⟨rfl, rfl⟩
  | k + 1, h, g, g', e => by
    unfold cbbLoop at e
    dsimp only at e
    split at e
    · cases e
    · have := kp_cbbLoop m nl k _ _ _ e
      exact ⟨this.1, this.2⟩

theorem ext_makeNode (m : Mdl σ) (g : G σ) (s : σ) (pe : Bool) : Ext g (makeNode m g s pe).1 := by
  unfold makeNode
  cases hf : findNode g s with
  | some a =>
    dsimp only
    split
    · exact Kp.ext ⟨rfl, rfl⟩
    · exact Kp.ext ⟨rfl, rfl⟩
  | none =>
    unfold findNode at hf
    rw [List.find?_eq_none] at hf
    refine ⟨Nat.le_succ _, fun i hi => ?_, fun j h1 h2 i hi => ?_⟩
    · show upd g.st g.nn s i = _; rw [upd_ne _ _ (by omega)]
    · have h2 : j < g.nn + 1 := h2
      have : j = g.nn := by omega
      subst this
      show Same.same (upd g.st g.nn s i) (upd g.st g.nn s g.nn) = false
      rw [upd_ne _ _ (by omega), upd_same]
      have := hf i (List.mem_range.2 hi)
      simpa using this

theorem ext_transition (m : Mdl σ) (v : Int) (g : G σ) (p : Nat) (l : Int) : Ext g (transition m v g p l).1 := by
  unfold transition
  split
  · exact .rfl'
  · split
    · dsimp only
      split
      · dsimp only
        split
        · exact ext_makeNode _ _ _ _
        · exact (ext_makeNode m g _ (g.ex p)).trans (Kp.ext ⟨rfl, rfl⟩)
      · exact .rfl'
    · exact ext_makeNode _ _ _ _

theorem ext_merge (m : Mdl σ) (g : G σ) (a b : Nat) : Ext g (merge m g a b).1 := by
  unfold merge
  split
  · exact .rfl'
  · split
    · exact .rfl'
    · rename_i c _ _
      refine (ext_makeNode m g c true).trans (Kp.ext ?_)
      dsimp only
      generalize makeNode m g c true = r
      have h1 : Kp r.1 (if m.sense.better (r.1.bound a) (r.1.bound r.2) then copyBL r.1 r.2 a else r.1) := kp_ite ⟨rfl, rfl⟩ ⟨rfl, rfl⟩
      revert h1
      generalize (if m.sense.better (r.1.bound a) (r.1.bound r.2) then copyBL r.1 r.2 a else r.1) = g1
      intro h1
      exact h1.trans (kp_ite ⟨rfl, rfl⟩ ⟨rfl, rfl⟩)

theorem ext_visit (m : Mdl σ) (v : Int) (cs : List Nat) (g : G σ) (p : Nat) (l : Int) : Ext g (visit m v cs g p l).1 := by
  unfold visit
  have ht := ext_transition m v g p l
  cases e : transition m v g p l with
  | mk g1 o =>
    rw [e] at ht
    cases o with
    | none => exact ht
    | some c =>
      refine ht.trans (Kp.ext ?_)
      dsimp only
      generalize (if (g1.par c).isEmpty then findDom m g1 cs c (g1.bound p + m.stc (g1.st p) l) else none) = dom
      have h2 : Kp g1 (if dom.isSome then { g1 with an := g1.an.dropLast } else g1) := by split <;> exact ⟨rfl, rfl⟩
      have h3 := h2.trans (kp_addEdge _ p (dom.getD c) l (m.stc (g1.st p) l))
      revert h3
      generalize addEdge _ p (dom.getD c) l (m.stc (g1.st p) l) = g3
      intro h3
      refine ⟨?_, ?_⟩
      · dsimp only; split <;> exact h3.1
      · dsimp only; split <;> exact h3.2

theorem ext_start2 (m : Mdl σ) (r : Src σ) : Ext (start r) (start2 m r) :=
  (ext_makeNode m (start r) m.stt true).trans (Kp.ext ⟨rfl, rfl⟩)

theorem ext_resLabels (m : Mdl σ) (v : Int) (w p : Nat) : ∀ (ls : List Int) (g : G σ) (q : List Nat), Ext g (resLabels m v w p ls g q).1
  | [], _, _ => .rfl'
  | l :: ls, g, q => by
    unfold resLabels
    have hv := ext_visit m v q g p l
    cases e : visit m v q g p l with
    | mk g1 o =>
      rw [e] at hv
      cases o with
      | none => exact hv.trans (ext_resLabels m v w p ls g1 q)
      | some c =>
        dsimp only
        split
        · exact hv.trans (Kp.ext ⟨rfl, rfl⟩)
        · exact hv.trans (ext_resLabels m v w p ls g1 _)

theorem ext_resNodes (m : Mdl σ) (v : Int) (w : Nat) : ∀ (ps : List Nat) (g : G σ) (q : List Nat), Ext g (resNodes m v w ps g q).1
  | [], _, _ => .rfl'
  | p :: ps, g, q => by
    unfold resNodes
    have hv := ext_resLabels m v w p (m.lgf (g.st p)) g q
    cases e : resLabels m v w p (m.lgf (g.st p)) g q with
    | mk g1 o =>
      rw [e] at hv
      cases o with
      | mk q1 b =>
        cases b with
        | true => exact hv
        | false => exact hv.trans (ext_resNodes m v w ps g1 q1)

theorem ext_resLoop (m : Mdl σ) (v : Int) (w : Nat) : ∀ (f : Nat) (g g' : G σ) (q : List Nat), resLoop m v w f g q = some g' → Ext g g'
  | 0, _, _, _, h => by cases h
  | f + 1, g, g', q, h => by
    unfold resLoop at h
    split at h
    · cases h; exact .rfl'
    · exact (ext_resNodes m v w _ g _).trans (ext_resLoop m v w f _ g' _ h)

theorem ext_restricted {m : Mdl σ} {v : Int} {w f : Nat} {r : Src σ} {g : G σ} (h : restricted m v w f r = some g) : Ext (start r) g := by
  unfold restricted at h
  obtain ⟨g1, h1, rfl⟩ := Option.map_eq_some_iff.1 h
  exact (ext_start2 m r).trans ((ext_resLoop m v w f _ _ _ h1).trans (Kp.ext ⟨rfl, rfl⟩))

theorem ext_mergeFind (m : Mdl σ) (g : G σ) (n1 : Nat) : ∀ (l pre : List Nat) (g1 : G σ) (mn n2 : Nat) (rest : List Nat),
    mergeFind m g n1 pre l = some (g1, mn, n2, rest) → Ext g g1
  | [], _, _, _, _, _, h => by cases h
  | n2 :: r, pre, g1, mn, n2', rest, h => by
    unfold mergeFind at h
    split at h
    · have hm := ext_merge m g n1 n2
      cases e : merge m g n1 n2 with
      | mk g2 o =>
        rw [e] at h hm
        cases o with
        | some mn =>
          simp only [Option.some.injEq, Prod.mk.injEq] at h
          obtain ⟨h, _⟩ := h
          exact h ▸ hm
        | none => exact ext_mergeFind m g n1 r _ g1 mn n2' rest h
    · exact ext_mergeFind m g n1 r _ g1 mn n2' rest h

theorem ext_mergeOne (m : Mdl σ) (g : G σ) (n1 : Nat) (rest skip : List Nat) : Ext g (mergeOne m g n1 rest skip).1 := by
  unfold mergeOne
  split
  · cases e : mergeFind m g n1 [] rest with
    | none => exact .rfl'
    | some x =>
      obtain ⟨g1, mn, n2, rest'⟩ := x
      have h1 := ext_mergeFind m g n1 rest [] g1 mn n2 rest' e
      have h2 := kp_mergePair g1 mn n1 n2
      dsimp only
      cases e2 : mergePair g1 mn n1 n2 with
      | mk g2 a =>
        rw [e2] at h2
        cases a with
        | delay => exact h1.trans (Kp.ext (h2.trans (kp_adjust m _ _ _)))
        | inFront => exact h1.trans (Kp.ext h2)
        | noop => exact h1.trans (Kp.ext h2)
  · exact .rfl'

theorem ext_mergeLoop (m : Mdl σ) (w : Nat) : ∀ (f : Nat) (g : G σ) (l skip : List Nat), Ext g (mergeLoop m w f g l skip).1
  | 0, _, _, _ => .rfl'
  | f + 1, g, l, skip => by
    unfold mergeLoop
    split
    · cases l with
      | nil => exact .rfl'
      | cons n1 rest => exact (ext_mergeOne m g n1 rest skip).trans (ext_mergeLoop m w f _ _ _)
    · exact .rfl'

theorem ext_pull (m : Mdl σ) (w : Nat) (g : G σ) (q : LQ) : Ext g (q.pull m w g).1 := by
  unfold LQ.pull
  have h := ext_mergeLoop m w ((relSort m g q.next).length + 1) g (relSort m g q.next) []
  dsimp only
  split <;> exact h

theorem ext_relLabels (m : Mdl σ) (v : Int) (p : Nat) : ∀ (ls : List Int) (g : G σ) (q : LQ), Ext g (relLabels m v p ls g q).1
  | [], _, _ => .rfl'
  | l :: ls, g, q => by
    unfold relLabels
    have hv := ext_visit m v q.next g p l
    cases e : visit m v q.next g p l with
    | mk g1 o =>
      rw [e] at hv
      cases o with
      | none => exact hv.trans (ext_relLabels m v p ls g1 q)
      | some c => exact hv.trans (ext_relLabels m v p ls g1 _)

theorem ext_relNodes (m : Mdl σ) (v : Int) : ∀ (ps : List Nat) (g : G σ) (q : LQ), Ext g (relNodes m v ps g q).1
  | [], _, _ => .rfl'
  | p :: ps, g, q => by
    unfold relNodes
    exact (ext_relLabels m v p (m.lgf (g.st p)) g q).trans (ext_relNodes m v ps _ _)

theorem ext_relLoop (m : Mdl σ) (v : Int) (w : Nat) : ∀ (f : Nat) (g g' : G σ) (q : LQ), relLoop m v w f g q = some g' → Ext g g'
  | 0, _, _, _, h => by cases h
  | f + 1, g, g', q, h => by
    unfold relLoop at h
    split at h
    · cases h; exact .rfl'
    · exact ((ext_pull m w g q).trans (ext_relNodes m v _ _ _)).trans (ext_relLoop m v w f _ g' _ h)

theorem ext_relaxed {m : Mdl σ} {v : Int} {w f : Nat} {r : Src σ} {g : G σ} (h : relaxed m v w f r = some g) : Ext (start r) g := by
  unfold relaxed at h
  obtain ⟨g1, h1, h2⟩ := Option.bind_eq_some_iff.1 h
  unfold computeBestBackward at h2
  have h3 := kp_cbbLoop m _ _ _ _ _ h2
  exact (ext_start2 m r).trans ((ext_relLoop m v w f _ _ _ h1).trans (Kp.ext ⟨h3.1, h3.2⟩))

theorem ext_exLabels (m : Mdl σ) (v : Int) (p : Nat) : ∀ (ls : List Int) (g : G σ) (q : List Nat), Ext g (exLabels m v p ls g q).1
  | [], _, _ => .rfl'
  | l :: ls, g, q => by
    unfold exLabels
    have hv := ext_transition m v g p l
    cases e : transition m v g p l with
    | mk g1 o =>
      rw [e] at hv
      cases o with
      | none => exact hv.trans (ext_exLabels m v p ls g1 q)
      | some c => exact (hv.trans (Kp.ext (kp_addEdge _ _ _ _ _))).trans (ext_exLabels m v p ls _ _)

theorem ext_exLoop (m : Mdl σ) (v : Int) : ∀ (f : Nat) (g g' : G σ) (q : List Nat), exLoop m v f g q = some g' → Ext g g'
  | 0, _, _, _, h => by cases h
  | f + 1, g, g', [], h => by cases h; exact .rfl'
  | f + 1, g, g', p :: q, h => by
    unfold exLoop at h
    exact (ext_exLabels m v p _ g q).trans (ext_exLoop m v f _ g' _ h)

theorem ext_exactDD {m : Mdl σ} {v : Int} {f : Nat} {r : Src σ} {g : G σ} (h : exactDD m v f r = some g) : Ext (start r) g := by
  unfold exactDD at h
  obtain ⟨g1, h1, h2⟩ := Option.bind_eq_some_iff.1 h
  unfold computeBest at h2
  have h3 := kp_cbLoop m _ _ _ _ _ h2
  exact (ext_start2 m r).trans ((ext_exLoop m v f _ _ _ h1).trans (Kp.ext ⟨h3.1, h3.2⟩))

end Verif.DD

namespace Verif.BB
open Verif.DD
variable {σ : Type} [Same σ]

/-- The same for the node pool of the search. -/
structure PExt (s s' : BS σ) : Prop where
  le : s.pn ≤ s'.pn
  st : ∀ i, i < s.pn → s'.pst i = s.pst i
  new : ∀ j, s.pn ≤ j → j < s'.pn → ∀ i, i < j → Same.same (s'.pst i) (s'.pst j) = false

theorem PExt.trans {a b c : BS σ} (h : PExt a b) (k : PExt b c) : PExt a c where
  le := Nat.le_trans h.le k.le
  st := fun i hi => (k.st i (Nat.lt_of_lt_of_le hi h.le)).trans (h.st i hi)
  new := fun j h1 h2 i hi => by
    by_cases hj : j < b.pn
    · rw [k.st j hj, k.st i (by omega)]; exact h.new j h1 hj i hi
    · exact k.new j (by omega) h2 i hi

theorem PExt.keep {s s' : BS σ} (h1 : s'.pst = s.pst) (h2 : s'.pn = s.pn) : PExt s s' :=
  ⟨by rw [h2]; exact Nat.le_refl _, fun _ _ => by rw [h1], fun j h h' => by rw [h2] at h'; omega⟩

omit [Same σ] in
theorem pext_domStep (m : Mdl σ) (s : BS σ) (x : σ) (b : Int) : (domStep m s x b).2.pst = s.pst ∧ (domStep m s x b).2.pn = s.pn := by
  unfold domStep
  split <;> exact ⟨rfl, rfl⟩

theorem pext_cutStep (m : Mdl σ) (lc : Option (σ → Ctx → Int)) (g : G σ) (cur : Nat) (s0 : BS σ) (n : Nat) : PExt s0 (cutStep m lc g cur s0 n) := by
  unfold cutStep
  have h0 : PExt s0 (if n = g.root then { s0 with wrel := s0.wrel + 1 } else s0) := by split <;> exact .keep rfl rfl
  dsimp only
  revert h0
  generalize (if n = g.root then { s0 with wrel := s0.wrel + 1 } else s0) = s
  intro h0
  refine h0.trans ?_
  split
  · have hd := pext_domStep m s (g.st n) (g.bound n)
    cases e : domStep m s (g.st n) (g.bound n) with
    | mk b s1 =>
      rw [e] at hd
      have h1 : PExt s s1 := .keep hd.1 hd.2
      cases b with
      | true => exact h1.trans (.keep rfl rfl)
      | false =>
        refine h1.trans ?_
        dsimp only
        cases hf : findPool s1 (g.st n) with
        | some o => exact .keep rfl rfl
        | none =>
          unfold findPool at hf
          rw [List.find?_eq_none] at hf
          have h2 : PExt s1 (clone s1 (g.st n) (g.lab n) (g.bound n) (g.bb n)) := by
            refine ⟨Nat.le_succ _, fun i hi => ?_, fun j a1 a2 i hi => ?_⟩
            · show upd s1.pst s1.pn (g.st n) i = _; rw [upd_ne _ _ (by omega)]
            · have a2 : j < s1.pn + 1 := a2
              have : j = s1.pn := by omega
              subst this
              show Same.same (upd s1.pst s1.pn (g.st n) i) (upd s1.pst s1.pn (g.st n) s1.pn) = false
              rw [upd_ne _ _ (by omega), upd_same]
              simpa using hf i (List.mem_range.2 hi)
          dsimp only
          split
          · exact h2.trans (.keep rfl rfl)
          · exact h2.trans (.keep rfl rfl)
  · exact .keep rfl rfl

theorem pext_foldl (m : Mdl σ) (lc : Option (σ → Ctx → Int)) (g : G σ) (cur : Nat) : ∀ (l : List Nat) (s : BS σ), PExt s (l.foldl (cutStep m lc g cur) s)
  | [], _ => .keep rfl rfl
  | n :: l, s => (pext_cutStep m lc g cur s n).trans (pext_foldl m lc g cur l _)

theorem pext_expand {m : Mdl σ} {M : Int → Mdl σ} {lc : Int → Option (σ → Ctx → Int)} {wr fu : Nat} {s s' : BS σ} {cur : Nat}
    (h : expandP m M lc wr fu s cur = some s') : PExt s s' := by
  unfold expandP at h
  obtain ⟨g, _, h⟩ := Option.bind_eq_some_iff.1 h
  split at h
  · have h1 : PExt s (if g.exact then setPrimal m s (g.bound g.trg) (g.lab g.trg) else s) := by split <;> exact .keep rfl rfl
    dsimp only at h
    revert h h1
    generalize (if g.exact then setPrimal m s (g.bound g.trg) (g.lab g.trg) else s) = s1
    intro h h1
    obtain ⟨r, _, h⟩ := Option.bind_eq_some_iff.1 h
    have h2 : PExt s1 (if m.sense.better (r.bound r.trg) s1.primal then setPrimal m s1 (r.bound r.trg) (r.lab r.trg) else s1) := by
      split <;> exact .keep rfl rfl
    revert h h2
    generalize (if m.sense.better (r.bound r.trg) s1.primal then setPrimal m s1 (r.bound r.trg) (r.lab r.trg) else s1) = s2
    intro h h2
    split at h
    · obtain ⟨cs, _, rfl⟩ := Option.map_eq_some_iff.1 h
      exact (h1.trans h2).trans (pext_foldl _ _ _ _ _ _)
    · cases h; exact h1.trans h2
  · cases h; exact .keep rfl rfl

theorem pext_loop {m : Mdl σ} {M : Nat → Int → Mdl σ} {lc : Nat → Int → Option (σ → Ctx → Int)} {wr fu : Nat} {lim : Nat → Bool} :
    ∀ (f k : Nat) (s s' : BS σ), loopP m M lc wr fu lim f k s = some s' → PExt s s'
  | 0, _, _, _, h => by cases h
  | f + 1, k, s, s', h => by
    unfold loopP at h
    split at h
    · cases h; exact .keep rfl rfl
    · dsimp only at h
      have h0 : PExt s { s with pq := (Heap.extractMax (qord m) s.pq).1 } := .keep rfl rfl
      split at h
      · cases h; exact .keep rfl rfl
      · split at h
        · obtain ⟨s1, h1, h2⟩ := Option.bind_eq_some_iff.1 h
          exact (h0.trans (pext_expand h1)).trans (pext_loop f (k + 1) _ _ h2)
        · exact h0.trans (pext_loop f (k + 1) _ _ h)

theorem pext_search {m : Mdl σ} {M : Nat → Int → Mdl σ} {lc : Nat → Int → Option (σ → Ctx → Int)} {w fu : Nat} {lim : Nat → Bool} {N : Nat} {p0 : Int}
    {s : BS σ} (h : searchT m M lc w fu lim N p0 = some s) : PExt (init m w p0) s := pext_loop _ _ _ _ h

end Verif.BB

namespace Verif.Hash
open Verif.Ex (tabSame)
open Verif.DD (Same)
variable {σ : Type}

/-- The user's `std::equal_to` is an equivalence. -/
structure EqOK (eqv : σ → σ → Bool) : Prop where
  refl : ∀ a, eqv a a = true
  symm : ∀ a b, eqv a b = true → eqv b a = true
  trans : ∀ a b c, eqv a b = true → eqv b c = true → eqv a c = true

/-- The table after the nodes below `k` were made: `makeNode`, `duplicate` and `cloneNode` insert a node where `getLoc` of its
state found nothing (src/dd.hpp:352-367, 446-461, 586-608). -/
def build (hash : σ → Nat) (eqv : σ → σ → Bool) (h : HT σ Nat) (st : Nat → σ) : Nat → HT σ Nat
  | 0 => h
  | k + 1 => (probe hash eqv (build hash eqv h st k) (st k) k).1

variable {hash : σ → Nat} {eqv : σ → σ → Bool}

theorem build_mxs (h : HT σ Nat) (st : Nat → σ) : ∀ k, (build hash eqv h st k).mxs = h.mxs ∧ (build hash eqv h st k).magic = h.magic
  | 0 => ⟨rfl, rfl⟩
  | k + 1 => by
    have ih := build_mxs h st k
    unfold build probe
    split
    · exact ih
    · exact ih

theorem find_bucket (l : List (σ × Nat)) (n : Nat) (s : σ) :
    (l.filter (fun e => hash e.1 % n == hash s % n)).find? (fun e => eqv e.1 s) = l.find? (fun e => (tabSame n eqv hash).same e.1 s) := by
  rw [List.find?_filter]
  congr 1
  funext e
  show _ = (eqv e.1 s && hash e.1 % n == hash s % n)
  rw [Bool.eq_iff_iff, decide_eq_true_iff, Bool.and_eq_true]
  exact And.comm

theorem find_rev (p : Nat → Bool) (k : Nat) (hu : ∀ i j, i < k → j < k → p i = true → p j = true → i = j) :
    (List.range k).reverse.find? p = (List.range k).find? p := by
  cases h : (List.range k).find? p with
  | none =>
    rw [List.find?_eq_none] at h ⊢
    exact fun x hx => h x (List.mem_reverse.1 hx)
  | some a =>
    have h1 := List.find?_some h
    have h2 := List.mem_range.1 (List.mem_of_find?_eq_some h)
    cases h' : (List.range k).reverse.find? p with
    | none =>
      rw [List.find?_eq_none] at h'
      exact absurd h1 (h' a (List.mem_reverse.2 (List.mem_range.2 h2)))
    | some b =>
      have h3 := List.find?_some h'
      have h4 := List.mem_range.1 (List.mem_reverse.1 (List.mem_of_find?_eq_some h'))
      rw [hu b a h4 h2 h3 h1]

/-- What the table holds after `k` nodes, what it finds, and that the next node is not found. -/
theorem build_spec (E : EqOK eqv) {h : HT σ Nat} (R : Rep hash h []) {st : Nat → σ} {n : Nat}
    (hd : ∀ j, j < n → ∀ i, i < j → (tabSame h.mxs eqv hash).same (st i) (st j) = false) : ∀ k, k ≤ n →
    Rep hash (build hash eqv h st k) ((List.range k).reverse.map fun i => (st i, i)) ∧
      (∀ s, get hash eqv (build hash eqv h st k) s = (List.range k).find? (fun i => (tabSame h.mxs eqv hash).same (st i) s)) ∧
      (k < n → get hash eqv (build hash eqv h st k) (st k) = none) := by
  have key : ∀ k, k ≤ n → Rep hash (build hash eqv h st k) ((List.range k).reverse.map fun i => (st i, i)) →
      ∀ s, get hash eqv (build hash eqv h st k) s = (List.range k).find? (fun i => (tabSame h.mxs eqv hash).same (st i) s) := by
    intro k hk R s
    unfold get
    rw [R.chains _ (Nat.mod_lt _ R.pos), find_bucket, (build_mxs h st k).1, List.find?_map, Option.map_map]
    have : ((fun x : σ × Nat => x.2) ∘ fun i => (st i, i)) = id := rfl
    rw [this, Option.map_id, id]
    refine find_rev (fun i => (tabSame h.mxs eqv hash).same (st i) s) k (fun i j hi hj h1 h2 => ?_)
    have h1 : (eqv (st i) s && hash (st i) % h.mxs == hash s % h.mxs) = true := h1
    have h2 : (eqv (st j) s && hash (st j) % h.mxs == hash s % h.mxs) = true := h2
    rw [Bool.and_eq_true, beq_iff_eq] at h1 h2
    have sm : ∀ a b, eqv (st a) s = true → hash (st a) % h.mxs = hash s % h.mxs → eqv (st b) s = true → hash (st b) % h.mxs = hash s % h.mxs →
        (tabSame h.mxs eqv hash).same (st a) (st b) = true := by
      intro a b a1 a2 b1 b2
      show (eqv (st a) (st b) && hash (st a) % h.mxs == hash (st b) % h.mxs) = true
      rw [Bool.and_eq_true, beq_iff_eq]
      exact ⟨E.trans _ _ _ a1 (E.symm _ _ b1), a2.trans b2.symm⟩
    rcases Nat.lt_trichotomy i j with c | c | c
    · have := hd j (by omega) i c
      rw [sm i j h1.1 h1.2 h2.1 h2.2] at this; cases this
    · exact c
    · have := hd i (by omega) j c
      rw [sm j i h2.1 h2.2 h1.1 h1.2] at this; cases this
  have nx : ∀ k, k < n → Rep hash (build hash eqv h st k) ((List.range k).reverse.map fun i => (st i, i)) →
      get hash eqv (build hash eqv h st k) (st k) = none := by
    intro k hk R
    rw [key k (by omega) R, List.find?_eq_none]
    intro i hi
    rw [hd k hk i (List.mem_range.1 hi)]
    simp
  intro k
  induction k with
  | zero => intro hk; exact ⟨R, key 0 hk R, fun h => nx 0 h R⟩
  | succ k ih =>
    intro hk
    obtain ⟨R1, _, h3⟩ := ih (by omega)
    have R2 : Rep hash (build hash eqv h st (k + 1)) ((List.range (k + 1)).reverse.map fun i => (st i, i)) := by
      unfold build probe
      rw [h3 (by omega), List.range_succ, List.reverse_append]
      exact R1.link (st k) k
    exact ⟨R2, key _ hk R2, fun h => nx _ h R2⟩

/-- The table holds something in any case. -/
theorem build_holds {h : HT σ Nat} (R : Rep hash h []) (st : Nat → σ) : ∀ k, ∃ l, Rep hash (build hash eqv h st k) l
  | 0 => ⟨[], R⟩
  | k + 1 => by
    obtain ⟨l, ih⟩ := build_holds R st k
    unfold build probe
    split
    · exact ⟨l, ih⟩
    · exact ⟨_, ih.link (st k) k⟩

theorem Rep.clear {h : HT σ Nat} {l : List (σ × Nat)} (R : Rep hash h l) (hm : h.magic + 1 < 2 ^ 32) :
    Rep hash (Hash.clear h) [] ∧ (Hash.clear h).magic = h.magic + 1 ∧ (Hash.clear h).mxs = h.mxs := by
  refine ⟨⟨R.pos, fun i hi => ?_, fun i => ?_, rfl⟩, by show (h.magic + 1) % 2 ^ 32 = _; omega, rfl⟩
  · show (if h.mgc i = (h.magic + 1) % 2 ^ 32 then h.tab i else []) = _
    have := R.stamp i
    rw [if_neg (by omega)]; rfl
  · show h.mgc i ≤ (h.magic + 1) % 2 ^ 32
    have := R.stamp i
    omega

/-- The table of a `DD` object that compiled diagrams with these nodes, with a `reset` after each (src/dd.hpp:610-619). -/
def life (hash : σ → Nat) (eqv : σ → σ → Bool) (h : HT σ Nat) : List ((Nat → σ) × Nat) → HT σ Nat
  | [] => h
  | d :: ds => life hash eqv (Hash.clear (build hash eqv h d.1 d.2)) ds

theorem life_empty : ∀ (ds : List ((Nat → σ) × Nat)) {h : HT σ Nat}, Rep hash h [] → h.magic + ds.length < 2 ^ 32 →
    Rep hash (life hash eqv h ds) [] ∧ (life hash eqv h ds).mxs = h.mxs
  | [], h, R, _ => ⟨R, rfl⟩
  | d :: ds, h, R, hm => by
    rw [List.length_cons] at hm
    obtain ⟨l, Rb⟩ := build_holds (eqv := eqv) R d.1 d.2
    have hb := build_mxs (hash := hash) (eqv := eqv) h d.1 d.2
    obtain ⟨R1, h1, h2⟩ := Rb.clear (by rw [hb.2]; omega)
    obtain ⟨R2, h3⟩ := life_empty ds R1 (by rw [h1, hb.2]; omega)
    exact ⟨R2, by show (life hash eqv (Hash.clear (build hash eqv h d.1 d.2)) ds).mxs = _; rw [h3, h2, hb.1]⟩

theorem fresh_empty {h : HT σ Nat} (hh : mk' 200000 = some h) : Rep hash h [] ∧ h.mxs = 200191 ∧ h.magic = 1 := by
  have hs : tabSize 200000 = some 200191 := by decide +kernel
  unfold mk' at hh
  rw [hs, Option.map_some, Option.some.injEq] at hh
  subst hh
  exact ⟨⟨by show 0 < 200191; omega, fun i _ => rfl, fun i => Nat.zero_le _, rfl⟩, rfl, rfl⟩

end Verif.Hash

namespace Verif.Ex
open Verif.DD Verif.Hash

/-- What a table gives while the nodes `st 0, ..., st (n-1)` are made, and what `reset` visits. -/
structure Backed {σ : Type} (hash : σ → Nat) (eqv : σ → σ → Bool) (h : HT σ Nat) (st : Nat → σ) (n : Nat) : Prop where
  /-- after `k` nodes a lookup gives the oldest of them with that state and bucket -/
  find : ∀ k, k ≤ n → ∀ s, Hash.get hash eqv (build hash eqv h st k) s = (List.range k).find? (fun i => eqv (st i) s && hash (st i) % 200191 == hash s % 200191)
  /-- a node is made only where the lookup fails -/
  fresh : ∀ k, k < n → Hash.get hash eqv (build hash eqv h st k) (st k) = none
  /-- every node is visited once, so that its state is destroyed once -/
  all : ((doOnAll (build hash eqv h st n)).map (·.2)).Perm (List.range n)

theorem backed {σ : Type} {hash : σ → Nat} {eqv : σ → σ → Bool} (E : EqOK eqv) {h : HT σ Nat} (R : Rep hash h []) (hm : h.mxs = 200191) {st : Nat → σ} {n : Nat}
    (hd : ∀ j, j < n → ∀ i, i < j → (tabSame 200191 eqv hash).same (st i) (st j) = false) : Backed hash eqv h st n := by
  have key := build_spec E R (st := st) (n := n) (by rw [hm]; exact hd)
  refine ⟨fun k hk s => ?_, fun k hk => (key k (by omega)).2.2 hk, ?_⟩
  · rw [(key k hk).2.1 s, hm]; rfl
  · refine ((doOnAll_perm (key n (Nat.le_refl _)).1).map _).trans ?_
    rw [List.map_map]
    have : ((fun x : σ × Nat => x.2) ∘ fun i => (st i, i)) = id := rfl
    rw [this, List.map_id]
    exact List.reverse_perm _

theorem dist_of_ext {σ : Type} [Same σ] {r : Src σ} {g : G σ} (h : Ext (start r) g) : ∀ j, j < g.nn → ∀ i, i < j → Same.same (g.st i) (g.st j) = false := by
  intro j hj i hi
  exact h.new j (by show 1 ≤ j; omega) hj i hi

variable {σ : Type} {hash : σ → Nat} {eqv : σ → σ → Bool}

/-- C143.  A `DD` object whose table was made by its constructor and that compiled fewer than `2^32 - 2` diagrams before, whatever they
were.  For every model: the next diagram, compiled by the engine model, is backed by the table. -/
theorem node_table (E : EqOK eqv) {h0 : HT σ Nat} (hh : mk' 200000 = some h0) (ds : List ((Nat → σ) × Nat)) (hl : ds.length + 1 < 2 ^ 32)
    (m : Mdl σ) (v : Int) (w f : Nat) (r : Src σ) (g : G σ)
    (hg : @exactDD _ (tabSame 200191 eqv hash) m v f r = some g ∨ @restricted _ (tabSame 200191 eqv hash) m v w f r = some g ∨
      @relaxed _ (tabSame 200191 eqv hash) m v w f r = some g) :
    Backed hash eqv (life hash eqv h0 ds) g.st g.nn := by
  obtain ⟨R, h1, h2⟩ := fresh_empty (hash := hash) hh
  obtain ⟨R1, h3⟩ := life_empty (eqv := eqv) ds R (by omega)
  refine backed E R1 (h3.trans h1) (@dist_of_ext _ (tabSame 200191 eqv hash) r g ?_)
  rcases hg with hg | hg | hg
  · exact @ext_exactDD _ (tabSame 200191 eqv hash) _ _ _ _ _ hg
  · exact @ext_restricted _ (tabSame 200191 eqv hash) _ _ _ _ _ _ hg
  · exact @ext_relaxed _ (tabSame 200191 eqv hash) _ _ _ _ _ _ hg

/-- C143.  The node pool of the search, for all models, also with labels and local bounds that change. -/
theorem pool_table (E : EqOK eqv) {h0 : HT σ Nat} (hh : mk' 200000 = some h0) (m : Mdl σ) (M : Nat → Int → Mdl σ) (lc : Nat → Int → Option (σ → Ctx → Int))
    (w fu : Nat) (lim : Nat → Bool) (N : Nat) (p0 : Int) (s : BB.BS σ) (hs : @BB.searchT _ (tabSame 200191 eqv hash) m M lc w fu lim N p0 = some s) :
    Backed hash eqv h0 s.pst s.pn := by
  obtain ⟨R, h1, h2⟩ := fresh_empty (hash := hash) hh
  have h := @BB.pext_search _ (tabSame 200191 eqv hash) _ _ _ _ _ _ _ _ _ hs
  exact backed E R h1 (fun j hj i hi => @BB.PExt.new _ (tabSame 200191 eqv hash) _ _ h j (by show 1 ≤ j; omega) hj i hi)

end Verif.Ex
