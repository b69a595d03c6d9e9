import Verif.Cut
/-!
# Diagrams whose first layer is never merged

If no two children of a state merge, as when a merge asks for equal last decisions, the children of the
root stay exact and the root is not in its own cut set.
-/
namespace Verif.DD
set_option linter.unusedSectionVars false
variable {σ : Type} {Vl : σ → Int → Prop} {m : Mdl σ} {rank : σ → Nat} {r : Src σ} {prim : Int}

/-- Arc operations leave states, flags and the number of nodes alone. -/
def Fr (g g' : G σ) : Prop := g'.ex = g.ex ∧ g'.st = g.st ∧ g'.nn = g.nn

theorem Fr.rfl' (g : G σ) : Fr g g := ⟨rfl, rfl, rfl⟩
theorem Fr.trans {a b c : G σ} (h1 : Fr a b) (h2 : Fr b c) : Fr a c :=
  ⟨h2.1.trans h1.1, h2.2.1.trans h1.2.1, h2.2.2.trans h1.2.2⟩

theorem Fr.foldl {β : Type} {f : G σ → β → G σ} (hf : ∀ g b, Fr g (f g b)) : ∀ (l : List β) (g : G σ), Fr g (l.foldl f g) := by
  intro l
  induction l with
  | nil => intro g; exact Fr.rfl' g
  | cons b l ih => intro g; exact (hf g b).trans (ih _)

theorem addArcNode_fr (g : G σ) (e n : Nat) : Fr g (addArcNode g e n) := by
  unfold addArcNode
  split
  · exact ⟨rfl, rfl, rfl⟩
  · split <;> exact ⟨rfl, rfl, rfl⟩

theorem addArc_fr (g : G σ) (e : Nat) : Fr g (addArc g e) := (addArcNode_fr _ _ _).trans (addArcNode_fr _ _ _)

theorem addEdge_fr (g : G σ) (p c : Nat) (l o : Int) : Fr g (addEdge g p c l o) :=
  Fr.trans (b := { g with
    es := upd g.es g.ne p, ed := upd g.ed g.ne c, el := upd g.el g.ne l, eo := upd g.eo g.ne o,
    ne := g.ne + 1 }) ⟨rfl, rfl, rfl⟩ (addArc_fr _ _)

theorem disconnect_fr (g : G σ) (n : Nat) : Fr g (disconnect g n) := by
  unfold disconnect
  have h1 := Fr.foldl (f := unlinkKid) (fun (g : G σ) b => ⟨rfl, rfl, rfl⟩) (g.par n) g
  refine h1.trans ?_
  generalize (g.par n).foldl unlinkKid g = g1
  have h2 := Fr.foldl (f := unlinkPar) (fun (g : G σ) b => ⟨rfl, rfl, rfl⟩) (({ g1 with par := upd g1.par n [] } : G σ).kids n) { g1 with par := upd g1.par n [] }
  exact ⟨h2.1, h2.2.1, h2.2.2⟩

theorem transferArcs_fr (g : G σ) (d n : Nat) : Fr g (transferArcs g d n) := by
  unfold transferArcs
  have h1 := Fr.foldl (f := fun (g : G σ) e => addArc { g with ed := upd g.ed e n } e) (fun g b =>
    Fr.trans (b := { g with ed := upd g.ed b n }) ⟨rfl, rfl, rfl⟩ (addArc_fr _ _)) (g.par d) g
  refine h1.trans ?_
  generalize (g.par d).foldl (fun (g : G σ) e => addArc { g with ed := upd g.ed e n } e) g = g1
  have h2 := Fr.foldl (f := fun (g : G σ) e => addArc { g with es := upd g.es e n } e) (fun g b =>
    Fr.trans (b := { g with es := upd g.es b n }) ⟨rfl, rfl, rfl⟩ (addArc_fr _ _)) (g1.kids d) g1
  exact h2.trans (disconnect_fr _ _)

theorem absorb_fr (g : G σ) (d n : Nat) : Fr g (absorb g d n) := by
  unfold absorb
  split
  · exact ⟨(transferArcs_fr g d n).1, (transferArcs_fr g d n).2.1, (transferArcs_fr g d n).2.2⟩
  · exact Fr.rfl' g

theorem adjustBounds_fr : ∀ (f : Nat) (g : G σ) (n : Nat), Fr g (adjustBounds m f g n) := by
  intro f
  induction f with
  | zero => intro g n; exact Fr.rfl' g
  | succ f ih =>
    intro g n
    unfold adjustBounds
    refine Fr.foldl (fun g e => ?_) _ _
    dsimp only
    split
    · exact Fr.trans (b := { g with bound := upd g.bound (g.ed e) (g.bound n + g.eo e), lab := upd g.lab (g.ed e) (g.lab n ++ [g.el e]) }) ⟨rfl, rfl, rfl⟩ (ih _ _)
    · exact Fr.rfl' g

variable [Same σ]

/-- What `makeNode` does to states and flags. -/
theorem makeNode_ex (g : G σ) (s : σ) (pe : Bool) :
    (∀ i, i ≠ (makeNode m g s pe).2 → (makeNode m g s pe).1.ex i = g.ex i) ∧
    (∀ i, i < g.nn → (makeNode m g s pe).1.st i = g.st i) ∧
    (pe = true → ∀ i, i < g.nn → (makeNode m g s pe).1.ex i = g.ex i) ∧
    ((makeNode m g s pe).2 < g.nn ∧ (makeNode m g s pe).1.nn = g.nn ∧ Same.same (g.st (makeNode m g s pe).2) s = true ∨
      (makeNode m g s pe).2 = g.nn ∧ (makeNode m g s pe).1.nn = g.nn + 1 ∧ (makeNode m g s pe).1.st g.nn = s ∧ (makeNode m g s pe).1.ex g.nn = pe) := by
  unfold makeNode
  cases h : findNode g s with
  | some a =>
    obtain ⟨h1, h2⟩ := findNode_some h
    dsimp only
    split
    · refine ⟨fun i hi => upd_ne _ _ hi, fun _ _ => rfl, ?_, .inl ⟨h1, rfl, h2⟩⟩
      rintro rfl i _
      dsimp only
      by_cases e : i = a
      · rw [e, upd_same, Bool.and_true]
      · exact upd_ne _ _ e
    · refine ⟨fun i hi => upd_ne _ _ hi, fun _ _ => rfl, ?_, .inl ⟨h1, rfl, h2⟩⟩
      rintro rfl i _
      dsimp only
      by_cases e : i = a
      · rw [e, upd_same, Bool.and_true]
      · exact upd_ne _ _ e
  | none =>
    dsimp only
    exact ⟨fun i hi => upd_ne _ _ hi, fun i hi => upd_ne _ _ (by omega), fun _ i hi => upd_ne _ _ (by omega),
      .inr ⟨rfl, rfl, upd_same _ _ _, upd_same _ _ _⟩⟩

/-- A visit is a node made, or nothing, up to arcs and bounds. -/
theorem visit_fr (cands : List Nat) (g : G σ) (p : Nat) (l : Int) :
    Fr g (visit m prim cands g p l).1 ∨
    ∃ s', m.stf (g.st p) l = some s' ∧ Fr (makeNode m g s' (g.ex p)).1 (visit m prim cands g p l).1 := by
  unfold visit
  rcases transition_cases m prim g p l with ⟨h1, h2⟩ | ⟨s', f, h1, hf, hb, h2⟩ | ⟨s', x, h1, hb, h2⟩
  · rw [h2]; exact .inl (Fr.rfl' g)
  · rw [h2]; exact .inl (Fr.rfl' g)
  · rw [h2]
    refine .inr ⟨s', h1, ?_⟩
    generalize makeNode m g s' (g.ex p) = v
    obtain ⟨g1, c⟩ := v
    dsimp only
    have hi : ∀ (b : Prop) [Decidable b] (y z : G σ), Fr g1 y → Fr g1 z → Fr g1 (if b then y else z) := by
      intro b _ y z hy hz; split <;> assumption
    generalize (if (g1.par c).isEmpty = true then findDom m { g1 with bb := x } cands c _ else none) = dm
    have h3 := addEdge_fr (if dm.isSome = true then { g1 with bb := x, an := g1.an.dropLast } else { g1 with bb := x } : G σ) p (dm.getD c) l (m.stc (g1.st p) l)
    have h3 := Fr.trans (hi (dm.isSome = true) ({ g1 with bb := x, an := g1.an.dropLast }) ({ g1 with bb := x }) ⟨rfl, rfl, rfl⟩ ⟨rfl, rfl, rfl⟩) h3
    generalize addEdge (if dm.isSome = true then { g1 with bb := x, an := g1.an.dropLast } else { g1 with bb := x } : G σ) p (dm.getD c) l (m.stc (g1.st p) l) = g3 at h3
    split
    · exact ⟨h3.1, h3.2.1, h3.2.2⟩
    · exact ⟨h3.1, h3.2.1, h3.2.2⟩

/-- Open nodes up to rank `k` are exact. -/
def Kin (m : Mdl σ) (rank : σ → Nat) (k : Nat) (g : G σ) : Prop :=
  ∀ i, i < g.nn → m.eqs (g.st i) = false → rank (g.st i) ≤ k → g.ex i = true

theorem Kin.fr {k : Nat} {g g' : G σ} (h : Kin m rank k g) (f : Fr g g') : Kin m rank k g' := by
  obtain ⟨f1, f2, f3⟩ := f
  intro i hi
  rw [f1, f2]
  exact h i (by omega)

/-- A node made keeps low nodes exact if its parent is exact or the state is deep. -/
theorem Kin.makeNode {k : Nat} {g : G σ} (h : Kin m rank k g) {s : σ} {pe : Bool}
    (hs : ∀ c, c < g.nn → Same.same (g.st c) s = true → m.eqs (g.st c) = false → rank (g.st c) ≤ k → pe = true)
    (hs' : m.eqs s = false → rank s ≤ k → pe = true) : Kin m rank k (makeNode m g s pe).1 := by
  obtain ⟨a1, a2, a3, a4⟩ := makeNode_ex (m := m) g s pe
  intro i hi hq hk
  rcases a4 with ⟨b1, b2, b3⟩ | ⟨b1, b2, b3, b4⟩
  · rw [b2] at hi
    rw [a2 i hi] at hq hk
    by_cases e : i = (DD.makeNode m g s pe).2
    · rw [a3 (hs i hi (by rw [e]; exact b3) hq hk) i hi]
      exact h i hi hq hk
    · rw [a1 i e]; exact h i hi hq hk
  · by_cases e : i = g.nn
    · subst e
      rw [b3] at hq hk
      rw [b4]; exact hs' hq hk
    · have hi : i < g.nn := by omega
      rw [a2 i hi] at hq hk
      rw [a1 i (by omega)]; exact h i hi hq hk

theorem Kin.visit (H : LayeredV Vl m rank r.st r.bound) {k : Nat} {g : G σ} {rel : Bool} {d : Nat} {A B cands : List Nat} {p : Nat} {l : Int} {rem : List Int}
    (h : Inv Vl m rank r prim rel g d A B p rem) (hp : Cur m rank r g d A B p) (hl : l ∈ m.lgf (g.st p))
    (hk : Kin m rank k g) : Kin m rank k (visit m prim cands g p l).1 := by
  rcases visit_fr (m := m) (prim := prim) cands g p l with f | ⟨s', h1, f⟩
  · exact hk.fr f
  · refine Kin.fr ?_ f
    have hst : Step m (g.st p) l s' := ⟨hp.ne, hl, h1⟩
    have hrx := (h.relx p hp.lv).step hst
    have hrk := H.step _ _ _ _ (h.relx p hp.lv) hst
    have key : m.eqs s' = false → rank s' ≤ k → g.ex p = true := by
      intro hq hr
      rw [hq] at hrk
      have := hrk.resolve_left (by simp)
      exact hk p hp.lv.1 hp.ne (by omega)
    refine hk.makeNode ?_ key
    intro c hc hsm hq hr
    have h1c : c ≠ 1 := by
      rintro rfl
      rw [h.st1, H.sink] at hq; cases hq
    obtain ⟨v, hv⟩ := h.rxs c hc h1c
    obtain ⟨l1, l2, _⟩ := H.fair.like _ _ _ _ hv hrx hsm
    exact key (by rw [← l1]; exact hq) (by omega)

theorem relLabels_kin (H : LayeredV Vl m rank r.st r.bound) {k d p : Nat} {A : List Nat} {rel : Bool} :
    ∀ (ls : List Int) (g : G σ) (q : LQ), q.rest = [] →
      Inv Vl m rank r prim rel g d A q.next p ls → Cur m rank r g d A q.next p → AnOK g 1 →
      (∀ l, l ∈ ls → l ∈ m.lgf (g.st p)) → Kin m rank k g → Kin m rank k (relLabels m prim p ls g q).1 := by
  intro ls
  induction ls with
  | nil => intro g q _ _ _ _ _ hk; exact hk
  | cons l ls ih =>
    intro g q hr h hc ha hl hk
    unfold relLabels
    have hk1 := Kin.visit H (cands := q.next) h hc (hl l (by simp)) hk
    generalize hv : visit m prim q.next g p l = v at hk1
    obtain ⟨g1, o⟩ := v
    obtain ⟨v1, v2, v3, v4, v5⟩ := visit_inv H h hc ha (hl l (by simp)) hv
    cases o with
    | none =>
      obtain ⟨i1, c1⟩ := v1 rfl
      exact ih g1 q hr i1 c1 v3 (fun x hx => by rw [v5]; exact hl x (by simp [hx])) hk1
    | some c =>
      obtain ⟨hcB, i1, c1⟩ := v2 c rfl
      have hq : (q.enQueue g1 c).rest = [] ∧ (q.enQueue g1 c).next = c :: q.next := by
        unfold LQ.enQueue
        cases hn : q.next with
        | nil => exact ⟨hr, rfl⟩
        | cons a as =>
          dsimp only
          have h1 := (i1.Bm a (by simp [hn])).2.2.1
          have h2 := (i1.Bm c (by simp)).2.2.1
          rw [if_pos (by omega)]
          exact ⟨hr, by simp⟩
      have nd : (c :: q.next).Nodup := List.nodup_cons.2 ⟨hcB, h.Bn⟩
      have i2 : Inv Vl m rank r prim rel g1 d A (q.enQueue g1 c).next p ls := by
        rw [hq.2]; exact i1.perm h.An nd (fun _ => Iff.rfl) (by intro i; simp [or_comm])
      have c2 : Cur m rank r g1 d A (q.enQueue g1 c).next p := by
        refine ⟨c1.lv, c1.ne, c1.nA, ?_, c1.rk, c1.ly⟩
        rw [hq.2]; have := c1.nB; simp at this ⊢; exact ⟨this.2, this.1⟩
      exact ih g1 _ hq.1 i2 c2 v3 (fun x hx => by rw [v5]; exact hl x (by simp [hx])) hk1

theorem relNodes_kin (H : LayeredV Vl m rank r.st r.bound) {k d : Nat} {rel : Bool} :
    ∀ (ps : List Nat) (g : G σ) (q : LQ) (p0 : Nat), q.rest = [] →
      Inv Vl m rank r prim rel g d ps q.next p0 [] → AnOK g 1 → Kin m rank k g → Kin m rank k (relNodes m prim ps g q).1 := by
  intro ps
  induction ps with
  | nil => intro g q p0 _ _ _ hk; exact hk
  | cons p ps ih =>
    intro g q p0 hr h ha hk
    unfold relNodes
    obtain ⟨i1, c1⟩ := h.take
    have hk1 := relLabels_kin H (m.lgf (g.st p)) g q hr i1 c1 ha (fun _ hx => hx) hk
    generalize hv : relLabels m prim p (m.lgf (g.st p)) g q = v at hk1
    obtain ⟨g1, q1⟩ := v
    obtain ⟨w1, w2, w3, w4⟩ := relLabels_inv H _ g q hr i1 c1 ha (fun _ hx => hx) g1 q1 hv
    exact ih g1 q1 p w1 w2 w3 hk1

/-- Different open states of rank `k` never merge. -/
def NoMix (m : Mdl σ) (rank : σ → Nat) (s0 : σ) (v0 : Int) (k : Nat) : Prop :=
  ∀ a b c va vb, Relx m rank s0 v0 a va → Relx m rank s0 v0 b vb → m.eqs a = false → m.eqs b = false →
    rank a = k → rank b = k → m.smf a b = some c → Same.same a b = true

theorem Kin.mergeOne (H : LayeredV Vl m rank r.st r.bound) {k : Nat} (hA : ∀ j, rank r.st < j → j ≤ k → NoMix m rank r.st r.bound j) {g : G σ} {d p n1 : Nat} {rest skip : List Nat}
    (h : Inv Vl m rank r prim true g d [] (skip ++ n1 :: rest) p []) (hk : Kin m rank k g) :
    Kin m rank k (mergeOne m g n1 rest skip).1 := by
  unfold DD.mergeOne
  split
  · split
    · rename_i g1 mn n2 rest1 hmf
      obtain ⟨u, v, hu, hr1, hmg⟩ := mergeFind_some hmf
      subst hu
      obtain ⟨l1, e1, y1, r1⟩ := h.Bm n1 (by simp)
      obtain ⟨l2, e2, y2, r2⟩ := h.Bm n2 (by simp)
      have h12 : n1 ≠ n2 := by
        rintro rfl
        have := h.Bn
        rw [List.nodup_append] at this
        have := (List.nodup_cons.1 this.2.1).1
        exact this (by simp)
      obtain ⟨cst, g0, q1, q2, v', b, L, x, hg', hx, _⟩ := merge_some hmg
      obtain ⟨mq, mr, _⟩ := H.merge _ _ _ _ _ (h.relx n1 l1) (h.relx n2 l2) e1 e2 (by omega) q1
      have hdeep : k < rank cst := by
        apply Classical.byContradiction
        intro hh
        exact h12 (h.inj n1 n2 l1.1 l2.1 (hA (rank cst) (by omega) (by omega) _ _ _ _ _ (h.relx n1 l1) (h.relx n2 l2) e1 e2 (by omega) (by omega) q1))
      have hL := (h.relx n1 l1).mergeL (h.relx n2 l2) e1 e2 (by omega) q1
      obtain ⟨a1, a2, a3, a4⟩ := makeNode_ex (m := m) g cst true
      have hk0 := hk.makeNode (s := cst) (pe := true) (fun _ _ _ _ _ => rfl) (fun _ _ => rfl)
      rw [q2] at a1 a2 a3 a4 hk0
      dsimp only at a1 a2 a3 a4 hk0
      -- the merged node is deep
      have hmn : mn < g0.nn ∧ (m.eqs (g0.st mn) = false → k < rank (g0.st mn)) := by
        rcases a4 with ⟨b1, b2, b3⟩ | ⟨b1, b2, b3, b4⟩
        · refine ⟨by omega, ?_⟩
          rw [a2 mn b1]
          intro hq
          have h1c : mn ≠ 1 := by
            rintro rfl
            rw [h.st1, H.sink] at hq; cases hq
          obtain ⟨w, hw⟩ := h.rxs mn b1 h1c
          rw [(H.fair.like _ _ _ _ hw hL b3).2.1]; exact hdeep
        · rw [b1, b3]
          exact ⟨by omega, fun _ => hdeep⟩
      have hk1 : ∀ i, i ≠ mn → g1.ex i = g0.ex i := by rw [hg']; exact hx
      have hk2 : ∀ (g2 : G σ), g2.st = g1.st → g2.nn = g1.nn → (∀ i, i ≠ mn → g2.ex i = g1.ex i) → Kin m rank k g2 := by
        intro g2 w1 w2 w3 i hi hq hr
        have f1 : g1.st = g0.st := by rw [hg']
        have f2 : g1.nn = g0.nn := by rw [hg']
        rw [w1, f1] at hq hr
        by_cases e : i = mn
        · subst e
          have := hmn.2 hq; omega
        · rw [w3 i e, hk1 i e]
          exact hk0 i (by omega) hq hr
      have hk3 : Kin m rank k (mergePair g1 mn n1 n2).1 := by
        have f := (absorb_fr ({ g1 with
            layer := upd (if (g1.par mn).isEmpty then upd g1.layer mn (g1.layer n1) else g1.layer) mn (max ((if (g1.par mn).isEmpty then upd g1.layer mn (g1.layer n1) else g1.layer) mn) ((if (g1.par mn).isEmpty then upd g1.layer mn (g1.layer n1) else g1.layer) n1)), ex := upd g1.ex mn false, exact := false } : G σ) n1 mn).trans
          (absorb_fr _ n2 mn)
        exact hk2 _ f.2.1 f.2.2 (fun i hi => by
          show (absorb (absorb _ n1 mn) n2 mn).ex i = _
          rw [f.1]; exact upd_ne _ _ hi)
      generalize mergePair g1 mn n1 n2 = z at hk3
      obtain ⟨g2, act⟩ := z
      cases act with
      | delay => exact hk3.fr (adjustBounds_fr _ _ _)
      | inFront => exact hk3
      | noop => exact hk3
    · exact hk
  · exact hk

theorem mergeLoop_kin (H : LayeredV Vl m rank r.st r.bound) {k : Nat} (hA : ∀ j, rank r.st < j → j ≤ k → NoMix m rank r.st r.bound j) {d p : Nat} (w : Nat) :
    ∀ (f : Nat) (g : G σ) (layer skip : List Nat),
    Inv Vl m rank r prim true g d [] (skip ++ layer) p [] → AnOK g 1 → Kin m rank k g → Kin m rank k (mergeLoop m w f g layer skip).1 := by
  intro f
  induction f with
  | zero => intro g layer skip _ _ hk; exact hk
  | succ f ih =>
    intro g layer skip h ha hk
    unfold mergeLoop
    split
    · cases layer with
      | nil => exact hk
      | cons n1 rest =>
        dsimp only
        have hk1 := Kin.mergeOne H hA h hk
        generalize ho : DD.mergeOne m g n1 rest skip = q at hk1
        obtain ⟨g', rest', skip'⟩ := q
        obtain ⟨w1, w2, _⟩ := mergeOne_inv H h ha ho
        exact ih g' rest' skip' w1 w2 hk1
    · exact hk

theorem relLoop_kin (H : LayeredV Vl m rank r.st r.bound) {k : Nat} (hA : ∀ j, rank r.st < j → j ≤ k → NoMix m rank r.st r.bound j) (w : Nat) :
    ∀ (f : Nat) (g : G σ) (q : LQ) (d p : Nat),
    q.rest = [] → Inv Vl m rank r prim true g d [] q.next p [] → AnOK g 1 → Kin m rank k g →
    ∀ g', relLoop m prim w f g q = some g' → Kin m rank k g' := by
  intro f
  induction f with
  | zero => intro g q d p _ _ _ _ g' he; simp [relLoop] at he
  | succ f ih =>
    intro g q d p hr h ha hk g' he
    unfold relLoop at he
    split at he
    · simp at he; subst he; exact hk
    · dsimp only at he
      obtain ⟨w1, w2, w3⟩ := pull_inv H w hr h ha
      have hkp : Kin m rank k (q.pull m w g).1 := by
        have hp := relSort_perm (m := m) g q.next
        have h1 := h.perm (A' := []) List.nodup_nil (hp.nodup_iff.2 h.Bn) (fun _ => Iff.rfl) (fun i => hp.mem_iff)
        have := mergeLoop_kin (p := p) H hA w ((relSort m g q.next).length + 1) g (relSort m g q.next) [] (by simpa using h1) ha hk
        unfold LQ.pull
        simp only [hr]
        exact this
      rw [w3] at he
      have hk1 := relNodes_kin H (q.pull m w g).2.1 (q.pull m w g).1 ⟨[], []⟩ p rfl w1.shift w2 hkp
      generalize hv : relNodes m prim (q.pull m w g).2.1 (q.pull m w g).1 ⟨[], []⟩ = v at he hk1
      obtain ⟨g1, q1⟩ := v
      obtain ⟨x1, ⟨p', x2⟩, x3, x4⟩ := relNodes_inv H _ _ _ p rfl w1.shift w2 g1 q1 hv
      exact ih g1 q1 (d + 1) p' x1 x2 x3 hk1 g' he

/-- Layers that never merge stay exact in a relaxed diagram. -/
theorem relaxed_kin (H : LayeredV Vl m rank r.st r.bound) {k : Nat} (hA : ∀ j, rank r.st < j → j ≤ k → NoMix m rank r.st r.bound j) {w f : Nat} {g : G σ}
    (h : relaxed m prim w f r = some g) : Kin m rank k g := by
  obtain ⟨h1, h2, hx⟩ := start2_inv (prim := prim) (rel := true) H
  have hk0 : Kin m rank k (start2 m r) := fun i hi _ _ => h1.exa hx i hi
  unfold relaxed at h
  simp only [Option.bind_eq_some_iff] at h
  obtain ⟨g0, h0, hb⟩ := h
  have hg0 : Kin m rank k g0 := by
    have hroot := h1.root
    rw [hroot] at h0
    cases f with
    | zero => simp [relLoop] at h0
    | succ f =>
      unfold relLoop at h0
      simp only [LQ.enQueue, List.isEmpty_cons, Bool.false_eq_true, false_and, if_false] at h0
      have hp : LQ.pull m w (start2 m r) ⟨[0], []⟩ = (start2 m r, [0], ⟨[], []⟩) := by
        unfold LQ.pull
        have : relSort m (start2 m r) [0] = [0] := rfl
        rw [this, mergeLayer_single]
      rw [hp] at h0
      dsimp only at h0
      have hk1 := relNodes_kin H [0] (start2 m r) ⟨[], []⟩ 0 rfl h1 h2 hk0
      generalize hv : relNodes m prim [0] (start2 m r) ⟨[], []⟩ = v at h0 hk1
      obtain ⟨g1, q1⟩ := v
      obtain ⟨x1, ⟨p', x2⟩, x3, x4⟩ := relNodes_inv H _ _ _ 0 rfl h1 h2 g1 q1 hv
      exact relLoop_kin H hA w f g1 q1 0 p' x1 x2 x3 hk1 g0 h0
  obtain ⟨⟨d, p, hi⟩, ha⟩ := relaxed_inv H h0
  obtain ⟨bd, lb, t1, t2, t3⟩ := tighten_trg (m := m) hi.trg (fin_inrange H ⟨d, p, hi⟩)
  rw [t1] at hb
  obtain ⟨ρ, wg⟩ := fin_wg (m := m) (rank := rank) (r := r) (prim := prim) (rel := true) ⟨d, p, hi⟩ ha
  have wg' : Wg ({ g0 with bound := upd g0.bound 1 bd, lab := upd g0.lab 1 lb } : G σ) ρ :=
    ⟨wg.nd, wg.kids, wg.par, wg.kn, wg.pn, wg.src, wg.dst, wg.up⟩
  obtain ⟨b, c1, _⟩ := computeBestBackward_eq (m := m) wg'
  rw [c1] at hb
  simp only [Option.some.injEq] at hb
  subst hb
  exact hg0

/-- No state but the sink is terminal, among those relaxation reaches. -/
def OneEnd (m : Mdl σ) (rank : σ → Nat) (s0 : σ) (v0 : Int) : Prop :=
  ∀ s v, Relx m rank s0 v0 s v → m.eqs s = true → s = m.stt

/-- If the layers up to `k` never merge, the cut set lies at rank `k` or deeper. -/
theorem cut_deep (H : LayeredV Vl m rank r.st r.bound) (hE : OneEnd m rank r.st r.bound) {k : Nat} (hA : ∀ j, rank r.st < j → j ≤ k → NoMix m rank r.st r.bound j)
    {w f : Nat} {g : G σ} (h : relaxed m prim w f r = some g) {cs : List Nat} (hc : cutSet g = some cs) :
    ∀ n, n ∈ cs → k ≤ rank (g.st n) := by
  intro n hn
  have hk := relaxed_kin H hA h
  obtain ⟨g0, F⟩ := relaxed_facts H h
  obtain ⟨V, cs', hc', C⟩ := relaxed_cut F
  rw [hc] at hc'
  cases hc'
  obtain ⟨hV, ha⟩ := (C.csm n).1 hn
  obtain ⟨hl, h1⟩ := cut_live F C hV
  obtain ⟨d, p, hi⟩ := F.inv
  obtain ⟨f1, f2, f3, f4, f5, f6, f7, f8, f9, f10, f11, f12, f13, f14⟩ := F.fields
  apply Classical.byContradiction
  intro hh
  have : allKidsExact g n = true := by
    unfold allKidsExact
    rw [List.all_eq_true]
    intro e he
    rw [f3] at he
    obtain ⟨e1, e2⟩ := (hi.kids n e).1 he
    rw [Bool.or_eq_true, decide_eq_true_eq, f5, f11]
    have hlt := (hi.edge e e1).2
    by_cases hq : m.eqs (g0.st (g0.ed e)) = true
    · left
      apply Classical.byContradiction
      intro hne
      obtain ⟨v, hv⟩ := hi.rxs _ hlt hne
      exact hne (hi.toStr.one_of_stt hi.st1 hlt (hE _ _ hv hq) H.fair.refl)
    · right
      have hq : m.eqs (g0.st (g0.ed e)) = false := by simpa using hq
      have hr := (hi.erank e e1).resolve_left (by simp [hq])
      rw [e2] at hr
      refine hk _ (by rw [f12]; exact hlt) (by rw [f1]; exact hq) ?_
      rw [f1] at hh ⊢
      omega
  rw [this] at ha; cases ha

/-- What relaxation reaches in the first two layers, when merging a state with itself changes nothing and the
children of the root do not merge. -/
theorem relx_first {σ : Type} [DecidableEq σ] {Vl : σ → Int → Prop} {m : Mdl σ} {rank : σ → Nat} {s0 : σ} {v0 : Int} (H : LayeredV Vl m rank s0 v0)
    (hi : ∀ a c, m.smf a a = some c → c = a)
    (hk : ∀ l l' a b c, Step m s0 l a → Step m s0 l' b → m.eqs a = false → m.eqs b = false → m.smf a b = some c → a = b)
    {x : σ} {v : Int} (h : Relx m rank s0 v0 x v) :
    m.eqs x = false → rank s0 ≤ rank x ∧ (rank x = rank s0 → x = s0) ∧ (rank x = rank s0 + 1 → ∃ l, Step m s0 l x) := by
  have mrg : ∀ {a b c : σ}, m.eqs a = false → m.eqs b = false → rank a = rank b → m.smf a b = some c → rank c = rank a →
      (m.eqs a = false → rank s0 ≤ rank a ∧ (rank a = rank s0 → a = s0) ∧ (rank a = rank s0 + 1 → ∃ l, Step m s0 l a)) →
      (m.eqs b = false → rank s0 ≤ rank b ∧ (rank b = rank s0 → b = s0) ∧ (rank b = rank s0 + 1 → ∃ l, Step m s0 l b)) →
      rank s0 ≤ rank c ∧ (rank c = rank s0 → c = s0) ∧ (rank c = rank s0 + 1 → ∃ l, Step m s0 l c) := by
    intro a b c ha hb hr hm hc ia ib
    obtain ⟨i1, i2, i3⟩ := ia ha
    obtain ⟨j1, j2, j3⟩ := ib hb
    refine ⟨by omega, fun e => ?_, fun e => ?_⟩
    · have ea := i2 (by omega)
      have eb := j2 (by omega)
      subst ea eb
      exact hi _ _ hm
    · obtain ⟨l, hl⟩ := i3 (by omega)
      obtain ⟨l', hl'⟩ := j3 (by omega)
      have := hk _ _ _ _ _ hl hl' ha hb hm
      subst this
      rw [hi _ _ hm]
      exact ⟨l, hl⟩
  induction h with
  | root => exact fun _ => ⟨Nat.le_refl _, fun _ => rfl, fun e => by omega⟩
  | step h hs ih =>
    intro hq
    have hr := (H.step _ _ _ _ h hs).resolve_left (by simp [hq])
    obtain ⟨i1, i2, _⟩ := ih hs.1
    refine ⟨by omega, fun e => by omega, fun e => ?_⟩
    have := i2 (by omega)
    subst this
    exact ⟨_, hs⟩
  | mergeL h1 h2 ha hb hr hm ih1 ih2 => exact fun _ => mrg ha hb hr hm (H.merge _ _ _ _ _ h1 h2 ha hb hr hm).2.1 ih1 ih2
  | mergeR h1 h2 ha hb hr hm ih1 ih2 => exact fun _ => mrg ha hb hr hm (H.merge _ _ _ _ _ h1 h2 ha hb hr hm).2.1 ih1 ih2
  | swap h1 _ hsw ih1 _ => exact ih1

theorem kids_apart {σ : Type} [DecidableEq σ] {Vl : σ → Int → Prop} {m : Mdl σ} {rank : σ → Nat} {s0 : σ} {v0 : Int} (H : LayeredV Vl m rank s0 v0)
    (hi : ∀ a c, m.smf a a = some c → c = a)
    (hk : ∀ l l' a b c, Step m s0 l a → Step m s0 l' b → m.eqs a = false → m.eqs b = false → m.smf a b = some c → a = b) :
    NoMix m rank s0 v0 (rank s0 + 1) := by
  intro a b c va vb ha hb qa qb ra rb hm
  obtain ⟨l, hl⟩ := (relx_first H hi hk ha qa).2.2 ra
  obtain ⟨l', hl'⟩ := (relx_first H hi hk hb qb).2.2 rb
  exact (same_iff _ _).2 (hk _ _ _ _ _ hl hl' qa qb hm)

/-- Steps that end a solution reach the sink. -/
theorem one_end {σ : Type} [DecidableEq σ] {Vl : σ → Int → Prop} {m : Mdl σ} {rank : σ → Nat} {s0 : σ} {v0 : Int} (H : LayeredV Vl m rank s0 v0)
    (hs : ∀ s v l s', Relx m rank s0 v0 s v → Step m s l s' → m.eqs s' = true → s' = m.stt) : OneEnd m rank s0 v0 := by
  intro s v h hq
  have src := H.src
  induction h with
  | root => rw [src] at hq; cases hq
  | step h h1 ih => exact hs _ _ _ _ h h1 hq
  | mergeL h1 h2 ha hb hr hm _ _ => rw [(H.merge _ _ _ _ _ h1 h2 ha hb hr hm).1] at hq; cases hq
  | mergeR h1 h2 ha hb hr hm _ _ => rw [(H.merge _ _ _ _ _ h1 h2 ha hb hr hm).1] at hq; cases hq
  | swap _ _ _ ih _ => exact ih hq

end Verif.DD
