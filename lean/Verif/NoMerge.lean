import Verif.Props.Wide
/-!
# C101: diagrams in which every merge is refused

`merge` gives up when the merged state is already held by a node of a lower layer (src/dd.hpp:520-525).  A
model whose merged states are all reachable earlier is compiled as if it had no merge function.
-/
namespace Verif.DD
set_option linter.unusedSectionVars false
variable {σ : Type} {m : Mdl σ} {rank : σ → Nat} {r : Src σ} {prim : Int} [DecidableEq σ]

/-- The model without merge function and with another test for terminal states. -/
def Mdl.bare (m : Mdl σ) (e0 : σ → Bool) : Mdl σ :=
  { m with
    smf := fun _ _ => none
    eqs := e0 }

/-- The two tests for terminal states agree wherever a transition leads. -/
def SameEnd (m : Mdl σ) (e0 : σ → Bool) : Prop := ∀ s l s', m.stf s l = some s' → m.eqs s' = e0 s'

theorem addArcNode_st (g : G σ) (e n : Nat) : (addArcNode g e n).st = g.st ∧ (addArcNode g e n).nn = g.nn := by
  unfold addArcNode
  split
  · exact ⟨rfl, rfl⟩
  · split <;> exact ⟨rfl, rfl⟩

theorem addEdge_st (g : G σ) (p c : Nat) (l o : Int) : (addEdge g p c l o).st = g.st ∧ (addEdge g p c l o).nn = g.nn := by
  unfold addEdge addArc
  dsimp only
  rw [(addArcNode_st _ _ _).1, (addArcNode_st _ _ _).1, (addArcNode_st _ _ _).2, (addArcNode_st _ _ _).2]
  exact ⟨rfl, rfl⟩

theorem makeNode_st (g : G σ) (s : σ) (pe : Bool) : (makeNode m g s pe).2 < (makeNode m g s pe).1.nn ∧
    (makeNode m g s pe).1.st (makeNode m g s pe).2 = s ∧ g.nn ≤ (makeNode m g s pe).1.nn ∧
    (∀ i, i < g.nn → (makeNode m g s pe).1.st i = g.st i) ∧
    (∀ i, i < (makeNode m g s pe).1.nn → i < g.nn ∨ (i = (makeNode m g s pe).2 ∧ (makeNode m g s pe).1.par i = [])) := by
  unfold makeNode
  cases h : findNode g s with
  | some a =>
    obtain ⟨h1, h2⟩ := findNode_someEq h
    dsimp only
    split <;> exact ⟨h1, h2, Nat.le_refl _, fun _ _ => rfl, fun i hi => .inl hi⟩
  | none =>
    dsimp only
    refine ⟨Nat.lt_succ_self _, upd_same _ _ _, Nat.le_succ _, fun i hi => upd_ne _ _ (by omega), fun i hi => ?_⟩
    by_cases e : i = g.nn
    · exact .inr ⟨e, by rw [e]; exact upd_same _ _ _⟩
    · left; omega

/-- What one visit does to the states of the nodes: the old ones stay, and the child is there. -/
theorem visit_states (hl : m.loc = none) (hd : m.sdom = none) (cands : List Nat) (g : G σ) (p : Nat) (l : Int) {g' : G σ} {o : Option Nat}
    (h : visit m prim cands g p l = (g', o)) :
    g.nn ≤ g'.nn ∧ (∀ i, i < g.nn → g'.st i = g.st i) ∧
    (∀ s', m.stf (g.st p) l = some s' → ∃ j, j < g'.nn ∧ g'.st j = s') ∧
    (∀ i, i < g'.nn → i < g.nn ∨ m.eqs (g'.st i) = true ∨ o = some i) := by
  unfold visit at h
  rcases transition_cases m prim g p l with ⟨h1, h2⟩ | ⟨s', f, h1, hf, hb, h2⟩ | ⟨s', x, h1, hb, h2⟩
  · rw [h2] at h
    simp at h
    obtain ⟨rfl, rfl⟩ := h
    exact ⟨Nat.le_refl _, fun _ _ => rfl, (fun s' hs => by rw [h1] at hs; cases hs), fun i hi => .inl hi⟩
  · rw [hl] at hf; cases hf
  · rw [h2] at h
    obtain ⟨k1, k2, k3, k4, k5⟩ := makeNode_st (m := m) g s' (g.ex p)
    generalize makeNode m g s' (g.ex p) = v at h k1 k2 k3 k4 k5
    obtain ⟨g1, c⟩ := v
    dsimp only at h k1 k2 k3 k4 k5
    have hfd : ∀ (gg : G σ) n ob, findDom m gg cands n ob = none := by intro gg n ob; unfold findDom; rw [hd]
    simp only [hfd, ite_self, Option.isSome_none, Bool.false_eq_true, if_false, Option.getD_none, Option.isNone_none, Bool.true_and] at h
    have key : g'.st = g1.st ∧ g'.nn = g1.nn ∧ o = (if ((g1.par c).isEmpty && !m.eqs (g'.st c)) = true then some c else none) := by
      have e := addEdge_st ({ g1 with bb := x } : G σ) p c l (m.stc (g1.st p) l)
      generalize addEdge ({ g1 with bb := x } : G σ) p c l (m.stc (g1.st p) l) = ge at h e
      rw [Prod.mk.injEq] at h
      obtain ⟨rfl, rfl⟩ := h
      refine ⟨?_, ?_, rfl⟩
      · show (if _ then _ else _ : G σ).st = _
        split
        · exact e.1
        · exact e.1
      · show (if _ then _ else _ : G σ).nn = _
        split
        · exact e.2
        · exact e.2
    obtain ⟨q1, q2, q3⟩ := key
    refine ⟨by omega, fun i hi => by rw [q1]; exact k4 i hi, fun s'' hs => ?_, fun i hi => ?_⟩
    · rw [h1] at hs
      cases hs
      exact ⟨c, by omega, by rw [q1]; exact k2⟩
    · rcases k5 i (by omega) with h | ⟨h, h'⟩
      · exact .inl h
      · right
        subst h
        cases he : m.eqs (g'.st i) with
        | true => exact .inl rfl
        | false => right; rw [q3, he, h']; rfl

theorem visit_bare {e0 : σ → Bool} (_hl : m.loc = none) (hd : m.sdom = none) (hE : SameEnd m e0) (cands : List Nat) (g : G σ) (p : Nat) (l : Int) :
    visit m prim cands g p l = visit (m.bare e0) prim cands g p l := by
  have ht : transition m prim g p l = transition (m.bare e0) prim g p l := rfl
  unfold visit
  rw [← ht]
  rcases transition_cases m prim g p l with ⟨h1, h2⟩ | ⟨s', f, h1, hf, hb, h2⟩ | ⟨s', x, h1, hb, h2⟩
  · rw [h2]
  · rw [h2]
  · rw [h2]
    obtain ⟨k1, k2, k3, k4, k5⟩ := makeNode_st (m := m) g s' (g.ex p)
    generalize makeNode m g s' (g.ex p) = v at k1 k2 k3 k4 k5
    obtain ⟨g1, c⟩ := v
    dsimp only at k1 k2 k3 k4 k5
    have hfd : ∀ (gg : G σ) n ob, findDom m gg cands n ob = none := by intro gg n ob; unfold findDom; rw [hd]
    have hfd' : ∀ (gg : G σ) n ob, findDom (m.bare e0) gg cands n ob = none := hfd
    simp only [hfd, hfd', ite_self, Option.isSome_none, Bool.false_eq_true, if_false, Option.getD_none, Option.isNone_none, Bool.true_and]
    have hst : ∀ (ge : G σ) (b : Prop) [Decidable b] (f : Nat → Int) (k : Nat → List Int), (if b then ({ ge with bound := f, lab := k } : G σ) else ge).st = ge.st := by
      intro ge b _ f k; split <;> rfl
    rw [Prod.mk.injEq]
    refine ⟨rfl, ?_⟩
    rw [hst, hst, (addEdge_st _ _ _ _ _).1, (addEdge_st _ _ _ _ _).1]
    show (if (_ && !m.eqs (g1.st c)) = true then _ else _) = (if (_ && !e0 (g1.st c)) = true then _ else _)
    rw [k2, hE _ _ _ h1]

theorem relLabels_bare {e0 : σ → Bool} (hl : m.loc = none) (hd : m.sdom = none) (hE : SameEnd m e0) (p : Nat) : ∀ (ls : List Int) (g : G σ) (q : LQ),
    relLabels m prim p ls g q = relLabels (m.bare e0) prim p ls g q := by
  intro ls
  induction ls with
  | nil => intro g q; rfl
  | cons l ls ih =>
    intro g q
    unfold relLabels
    rw [visit_bare hl hd hE]
    generalize visit (m.bare e0) prim q.next g p l = v
    obtain ⟨g1, o⟩ := v
    cases o with
    | none => exact ih _ _
    | some c => exact ih _ _

theorem relNodes_bare {e0 : σ → Bool} (hl : m.loc = none) (hd : m.sdom = none) (hE : SameEnd m e0) : ∀ (ps : List Nat) (g : G σ) (q : LQ),
    relNodes m prim ps g q = relNodes (m.bare e0) prim ps g q := by
  intro ps
  induction ps with
  | nil => intro g q; rfl
  | cons p ps ih =>
    intro g q
    unfold relNodes
    rw [relLabels_bare hl hd hE, ih]
    rfl

theorem resLabels_bare {e0 : σ → Bool} (hl : m.loc = none) (hd : m.sdom = none) (hE : SameEnd m e0) (w p : Nat) : ∀ (ls : List Int) (g : G σ) (q : List Nat),
    resLabels m prim w p ls g q = resLabels (m.bare e0) prim w p ls g q := by
  intro ls
  induction ls with
  | nil => intro g q; rfl
  | cons l ls ih =>
    intro g q
    unfold resLabels
    rw [visit_bare hl hd hE]
    generalize visit (m.bare e0) prim q g p l = v
    obtain ⟨g1, o⟩ := v
    cases o with
    | none => exact ih _ _
    | some c =>
      dsimp only
      split
      · rfl
      · exact ih _ _

theorem resNodes_bare {e0 : σ → Bool} (hl : m.loc = none) (hd : m.sdom = none) (hE : SameEnd m e0) (w : Nat) : ∀ (ps : List Nat) (g : G σ) (q : List Nat),
    resNodes m prim w ps g q = resNodes (m.bare e0) prim w ps g q := by
  intro ps
  induction ps with
  | nil => intro g q; rfl
  | cons p ps ih =>
    intro g q
    unfold resNodes
    rw [resLabels_bare hl hd hE]
    have : (m.bare e0).lgf = m.lgf := rfl
    rw [this]
    generalize resLabels (m.bare e0) prim w p (m.lgf (g.st p)) g q = v
    obtain ⟨g1, q1, b⟩ := v
    cases b with
    | true => rfl
    | false => exact ih _ _

theorem resLoop_bare {e0 : σ → Bool} (hl : m.loc = none) (hd : m.sdom = none) (hE : SameEnd m e0) (w : Nat) : ∀ (f : Nat) (g : G σ) (q : List Nat),
    resLoop m prim w f g q = resLoop (m.bare e0) prim w f g q := by
  intro f
  induction f with
  | zero => intro g q; rfl
  | succ f ih =>
    intro g q
    unfold resLoop
    have hp : pullLayer (m.bare e0) g q = pullLayer m g q := by unfold pullLayer; cases q <;> rfl
    rw [hp]
    split
    · rfl
    · dsimp only
      rw [resNodes_bare hl hd hE]
      exact ih _ _

theorem tightenLoop_bare {e0 : σ → Bool} (g : G σ) : ∀ (es : List Nat) (cur : Int) (lb : List Int), tightenLoop m g es cur lb = tightenLoop (m.bare e0) g es cur lb := by
  intro es
  induction es with
  | nil => intro cur lb; rfl
  | cons e es ih =>
    intro cur lb
    unfold tightenLoop
    have : (m.bare e0).sense = m.sense := rfl
    rw [this]
    simp only [ih]

theorem tighten_bare {e0 : σ → Bool} (g : G σ) (n : Nat) : tighten m g n = tighten (m.bare e0) g n := by
  unfold tighten
  dsimp only
  rw [tightenLoop_bare (e0 := e0)]
  rfl

/-- Restricted diagrams ask nothing of the merge function. -/
theorem restricted_bare {e0 : σ → Bool} (hl : m.loc = none) (hd : m.sdom = none) (hE : SameEnd m e0) (w f : Nat) :
    restricted m prim w f r = restricted (m.bare e0) prim w f r := by
  unfold restricted
  have h1 : start2 (m.bare e0) r = start2 m r := rfl
  dsimp only
  rw [h1, resLoop_bare hl hd hE]
  congr 1
  funext g
  exact tighten_bare g g.trg

theorem cbbLoop_bare {e0 : σ → Bool} (nl : Nat → Option Nat) : ∀ (k : Nat) (h : DH) (g : G σ), cbbLoop m nl k h g = cbbLoop (m.bare e0) nl k h g := by
  intro k
  induction k with
  | zero => intro h g; rfl
  | succ k ih =>
    intro h g
    unfold cbbLoop
    dsimp only
    have : ∀ n, bestKid (m.bare e0) g n = bestKid m g n := fun n => rfl
    rw [this]
    split
    · rfl
    · exact ih _ _

theorem computeBestBackward_bare {e0 : σ → Bool} (g : G σ) : computeBestBackward m g = computeBestBackward (m.bare e0) g := by
  unfold computeBestBackward
  exact cbbLoop_bare _ _ _ _

theorem relIns_bare {e0 : σ → Bool} (g : G σ) (x : Nat) : ∀ l, relIns (m.bare e0) g x l = relIns m g x l := by
  intro l
  induction l with
  | nil => rfl
  | cons y l ih =>
    unfold relIns
    rw [ih]
    rfl

theorem relSort_bare {e0 : σ → Bool} (g : G σ) (l : List Nat) : relSort (m.bare e0) g l = relSort m g l := by
  unfold relSort
  congr 1
  funext a x
  exact relIns_bare g x a

/-! ### Layers in which nothing merges -/

theorem mergeFind_none {g : G σ} {n1 : Nat} : ∀ (l pre : List Nat), (∀ b, b ∈ l → g.layer n1 = g.layer b → (merge m g n1 b).2 = none) → mergeFind m g n1 pre l = none := by
  intro l
  induction l with
  | nil => intro pre _; rfl
  | cons b l ih =>
    intro pre h
    unfold mergeFind
    have hi := fun pre => ih pre (fun x hx => h x (List.mem_cons_of_mem _ hx))
    split
    · rename_i hc
      have hb := h b List.mem_cons_self hc.2
      generalize merge m g n1 b = v at hb
      obtain ⟨g1, o⟩ := v
      dsimp only at hb
      subst hb
      exact hi _
    · exact hi _

theorem mergeLoop_none {g : G σ} {w : Nat} : ∀ (f : Nat) (layer skip : List Nat), layer.length < f → layer.Nodup →
    (∀ a b, a ∈ layer → b ∈ layer → a ≠ b → g.layer a = g.layer b → (merge m g a b).2 = none) → mergeLoop m w f g layer skip = (g, skip ++ layer) := by
  intro f
  induction f with
  | zero => intro layer skip h; omega
  | succ f ih =>
    intro layer skip hf hn h
    unfold mergeLoop
    split
    · cases layer with
      | nil => simp
      | cons a l =>
        rw [List.nodup_cons] at hn
        dsimp only
        have ho : mergeOne m g a l skip = (g, l, skip ++ [a]) := by
          unfold mergeOne
          rw [mergeFind_none l [] fun b hb hl => h a b List.mem_cons_self (List.mem_cons_of_mem _ hb) (fun e => hn.1 (e ▸ hb)) hl]
          simp
        rw [ho]
        dsimp only
        rw [ih l (skip ++ [a]) (by simp at hf; omega) hn.2 fun x y hx hy => h x y (List.mem_cons_of_mem _ hx) (List.mem_cons_of_mem _ hy)]
        simp
    · rfl

theorem mergeLayer_none {g : G σ} {w : Nat} {layer : List Nat} (hn : layer.Nodup)
    (h : ∀ a b, a ∈ layer → b ∈ layer → a ≠ b → g.layer a = g.layer b → (merge m g a b).2 = none) : mergeLayer m w g layer = (g, layer) := by
  unfold mergeLayer
  rw [mergeLoop_none _ _ _ (Nat.lt_succ_self _) hn h]
  rfl

/-- Nothing merges without a merge function. -/
theorem mergeLayer_bare {e0 : σ → Bool} {g : G σ} {w : Nat} {layer : List Nat} (hn : layer.Nodup) : mergeLayer (m.bare e0) w g layer = (g, layer) :=
  mergeLayer_none hn fun _ _ _ _ _ _ => rfl

/-! ### Every reachable state of a finished layer is there -/

/-- The diagram holds the state. -/
def Holds (g : G σ) (s : σ) : Prop := ∃ j, j < g.nn ∧ g.st j = s

/-- Node `i` has all its children. -/
def Whole (m : Mdl σ) (g : G σ) (i : Nat) : Prop := ∀ l s', l ∈ m.lgf (g.st i) → m.stf (g.st i) l = some s' → Holds g s'

/-- The states of `g` stay in `g'`. -/
def Stay (g g' : G σ) : Prop := g.nn ≤ g'.nn ∧ ∀ i, i < g.nn → g'.st i = g.st i

theorem Stay.refl (g : G σ) : Stay g g := ⟨Nat.le_refl _, fun _ _ => rfl⟩

theorem Stay.trans {a b c : G σ} (h1 : Stay a b) (h2 : Stay b c) : Stay a c :=
  ⟨Nat.le_trans h1.1 h2.1, fun i hi => (h2.2 i (Nat.lt_of_lt_of_le hi h1.1)).trans (h1.2 i hi)⟩

theorem Holds.keep {g g' : G σ} {s : σ} (h : Holds g s) (k : Stay g g') : Holds g' s := by
  obtain ⟨j, h1, h2⟩ := h
  exact ⟨j, Nat.lt_of_lt_of_le h1 k.1, by rw [k.2 j h1]; exact h2⟩

theorem Whole.keep {g g' : G σ} {i : Nat} (h : Whole m g i) (hi : i < g.nn) (k : Stay g g') : Whole m g' i := by
  intro l s' h1 h2
  rw [k.2 i hi] at h1 h2
  exact (h l s' h1 h2).keep k

/-- In the queue. -/
def LQ.has (q : LQ) (i : Nat) : Prop := i ∈ q.next ∨ i ∈ q.rest

theorem enQueue_has (g : G σ) (q : LQ) (n i : Nat) : (q.enQueue g n).has i ↔ i = n ∨ q.has i := by
  unfold LQ.enQueue LQ.has
  obtain ⟨nx, rs⟩ := q
  cases nx with
  | nil => simp
  | cons a t =>
    dsimp only
    split <;> simp
    · constructor
      · rintro ((h | h | h) | h)
        · exact .inl h
        · exact .inr (.inl (.inl h))
        · exact .inr (.inl (.inr h))
        · exact .inr (.inr h)
      · rintro (h | (h | h) | h)
        · exact .inl (.inl h)
        · exact .inl (.inr (.inl h))
        · exact .inl (.inr (.inr h))
        · exact .inr h
    · constructor
      · rintro ((h | h) | h | h)
        · exact .inr (.inl (.inl h))
        · exact .inr (.inl (.inr h))
        · exact .inr (.inr h)
        · exact .inl h
      · rintro (h | (h | h) | h)
        · exact .inr (.inr h)
        · exact .inl (.inl h)
        · exact .inl (.inr h)
        · exact .inr (.inl h)

theorem relLabels_states (hl : m.loc = none) (hd : m.sdom = none) (p : Nat) : ∀ (ls : List Int) (g : G σ) (q : LQ), p < g.nn → ∀ g' q',
    relLabels m prim p ls g q = (g', q') →
    Stay g g' ∧ (∀ l s', l ∈ ls → m.stf (g.st p) l = some s' → Holds g' s') ∧ (∀ i, q.has i → q'.has i) ∧
    (∀ i, i < g'.nn → i < g.nn ∨ m.eqs (g'.st i) = true ∨ q'.has i) := by
  intro ls
  induction ls with
  | nil =>
    intro g q _ g' q' h
    simp [relLabels] at h
    obtain ⟨rfl, rfl⟩ := h
    exact ⟨Stay.refl g, fun l s' hl => by simp at hl, fun _ h => h, fun i hi => .inl hi⟩
  | cons l ls ih =>
    intro g q hp g' q' h
    unfold relLabels at h
    generalize hv : visit m prim q.next g p l = v at h
    obtain ⟨g1, o⟩ := v
    obtain ⟨v1, v2, v3, v4⟩ := visit_states hl hd q.next g p l hv
    have hk : Stay g g1 := ⟨v1, v2⟩
    have fin : ∀ q1 : LQ, (∀ i, q.has i → q1.has i) → (∀ i, o = some i → q1.has i) → relLabels m prim p ls g1 q1 = (g', q') →
        Stay g g' ∧ (∀ l' s', l' ∈ l :: ls → m.stf (g.st p) l' = some s' → Holds g' s') ∧ (∀ i, q.has i → q'.has i) ∧
        (∀ i, i < g'.nn → i < g.nn ∨ m.eqs (g'.st i) = true ∨ q'.has i) := by
      intro q1 hq ho he
      obtain ⟨i1, i2, i3, i4⟩ := ih g1 q1 (Nat.lt_of_lt_of_le hp v1) g' q' he
      refine ⟨hk.trans i1, fun l' s' hl' hs => ?_, fun i hi => i3 i (hq i hi), fun i hi => ?_⟩
      · rcases List.mem_cons.1 hl' with rfl | hl'
        · exact Holds.keep (v3 s' hs) i1
        · exact i2 l' s' hl' (by rw [v2 p hp]; exact hs)
      · rcases i4 i hi with h | h
        · rcases v4 i h with h' | h' | h'
          · exact .inl h'
          · right; left; rw [i1.2 i h]; exact h'
          · exact .inr (.inr (i3 i (ho i h')))
        · exact .inr h
    cases o with
    | none => exact fin q (fun _ h => h) (fun i h => by cases h) h
    | some c =>
      exact fin _ (fun i hi => (enQueue_has g1 q c i).2 (.inr hi)) (fun i h => by cases h; exact (enQueue_has g1 q c c).2 (.inl rfl)) h

theorem relNodes_states (hl : m.loc = none) (hd : m.sdom = none) : ∀ (ps : List Nat) (g : G σ) (q : LQ), (∀ p, p ∈ ps → p < g.nn) → ∀ g' q',
    relNodes m prim ps g q = (g', q') →
    Stay g g' ∧ (∀ p, p ∈ ps → Whole m g' p) ∧ (∀ i, q.has i → q'.has i) ∧
    (∀ i, i < g'.nn → i < g.nn ∨ m.eqs (g'.st i) = true ∨ q'.has i) := by
  intro ps
  induction ps with
  | nil =>
    intro g q _ g' q' h
    simp [relNodes] at h
    obtain ⟨rfl, rfl⟩ := h
    exact ⟨Stay.refl g, fun p hp => by simp at hp, fun _ h => h, fun i hi => .inl hi⟩
  | cons p ps ih =>
    intro g q hp g' q' h
    unfold relNodes at h
    have hp0 := hp p List.mem_cons_self
    generalize hv : relLabels m prim p (m.lgf (g.st p)) g q = v at h
    obtain ⟨g1, q1⟩ := v
    obtain ⟨v1, v2, v3, v4⟩ := relLabels_states hl hd p _ g q hp0 g1 q1 hv
    obtain ⟨i1, i2, i3, i4⟩ := ih g1 q1 (fun x hx => Nat.lt_of_lt_of_le (hp x (List.mem_cons_of_mem _ hx)) v1.1) g' q' h
    refine ⟨v1.trans i1, fun x hx => ?_, fun i hi => i3 i (v3 i hi), fun i hi => ?_⟩
    · rcases List.mem_cons.1 hx with rfl | hx
      · refine Whole.keep (g := g1) ?_ (Nat.lt_of_lt_of_le hp0 v1.1) i1
        intro l s' h1 h2
        rw [v1.2 x hp0] at h1 h2
        exact v2 l s' h1 h2
      · exact i2 x hx
    · rcases i4 i hi with h | h
      · rcases v4 i h with h' | h' | h'
        · exact .inl h'
        · right; left; rw [i1.2 i h]; exact h'
        · exact .inr (.inr (i3 i h'))
      · exact .inr h

/-! ### The compilation as if there were no merge function -/

/-- Every merge of two reachable states of one layer gives an open state reachable in a lower layer. -/
def Refused (m : Mdl σ) (e0 : σ → Bool) (rank : σ → Nat) (s0 : σ) : Prop :=
  ∀ a b c la va lb vb, Path (m.bare e0) s0 la va a → Path (m.bare e0) s0 lb vb b → e0 a = false → e0 b = false → rank a = rank b → a ≠ b →
    m.smf a b = some c → e0 c = false ∧ rank c < rank a ∧ ∃ ls v, Path (m.bare e0) s0 ls v c

theorem holds_path {e0 : σ → Bool} (H : Layered (m.bare e0) rank r.st r.bound) {g : G σ} {d p : Nat} {B : List Nat}
    (h : Inv (Val (m.bare e0)) (m.bare e0) rank r prim true g d [] B p []) (hK : ∀ i, i < g.nn → e0 (g.st i) = false → i ∈ B ∨ Whole (m.bare e0) g i) :
    ∀ {s t : σ} {ls : List Int} {v : Int}, Path (m.bare e0) s ls v t → ∀ v0, Relx (m.bare e0) rank r.st r.bound s v0 → Holds g s → e0 t = false →
      rank t ≤ rank r.st + d + 1 → Holds g t := by
  intro s t ls v hp
  induction hp with
  | nil s => intro _ _ hs _ _; exact hs
  | @cons s s' t l ls c hst hp ih =>
    intro v0 hr hs ht hrk
    obtain ⟨i, hi, rfl⟩ := hs
    have hr' := hr.step hst
    have hs' : e0 s' = false := by
      cases he : e0 s' with
      | false => rfl
      | true =>
        obtain ⟨_, _, e⟩ := hp.of_terminal he
        rw [e, ht] at he; cases he
    have h1 := (H.step _ _ _ _ hr hst).resolve_left (fun e => by
      have : e0 s' = true := e
      rw [hs'] at this; cases this)
    have h2 := BB.path_rank H hp _ hr' ht
    refine ih _ hr' ?_ ht hrk
    rcases hK i hi hst.1 with hB | hW
    · have := (h.Bm i hB).2.2.2
      omega
    · exact hW l s' hst.2.1 hst.2.2

theorem relLoop_bare {e0 : σ → Bool} (hl : m.loc = none) (hd : m.sdom = none) (hE : SameEnd m e0) (H : Layered (m.bare e0) rank r.st r.bound)
    (hA : Refused m e0 rank r.st) (w : Nat) : ∀ (f : Nat) (g : G σ) (q : LQ) (d p : Nat),
    q.rest = [] → Inv (Val (m.bare e0)) (m.bare e0) rank r prim true g d [] q.next p [] → AnOK g 1 → g.exact = true →
    (∀ i, i < g.nn → e0 (g.st i) = false → i ∈ q.next ∨ Whole (m.bare e0) g i) →
    relLoop m prim w f g q = relLoop (m.bare e0) prim w f g q ∧ ∀ g', relLoop (m.bare e0) prim w f g q = some g' → g'.exact = true := by
  intro f
  induction f with
  | zero => intro g q d p _ _ _ _ _; exact ⟨rfl, fun g' h => by simp [relLoop] at h⟩
  | succ f ih =>
    intro g q d p hr h ha hx hK
    have hsort := relSort_bare (m := m) (e0 := e0) g q.next
    have hperm := relSort_perm (m := m) g q.next
    have hnd : (relSort m g q.next).Nodup := hperm.nodup_iff.2 h.Bn
    have p0 : q.pull (m.bare e0) w g = (g, relSort m g q.next, ⟨[], []⟩) := by
      unfold LQ.pull
      rw [hsort, mergeLayer_bare hnd, hr]
    have p1 : q.pull m w g = (g, relSort m g q.next, ⟨[], []⟩) := by
      unfold LQ.pull
      rw [mergeLayer_none hnd, hr]
      intro a b hia hib hab hly
      unfold merge
      cases hs : m.smf (g.st a) (g.st b) with
      | none => rfl
      | some c =>
        obtain ⟨a1, a2, a3, a4⟩ := h.Bm a (hperm.mem_iff.1 hia)
        obtain ⟨b1, b2, b3, b4⟩ := h.Bm b (hperm.mem_iff.1 hib)
        obtain ⟨la, _, hpa⟩ := h.gen a a1 (h.exa hx a a1.1)
        obtain ⟨lb, _, hpb⟩ := h.gen b b1 (h.exa hx b b1.1)
        obtain ⟨c1, c2, ls, v, c3⟩ := hA _ _ _ _ _ _ _ hpa hpb a2 b2 (by omega) (fun e => hab (h.injEq a b a1.1 b1.1 e)) hs
        obtain ⟨j, hj, hjs⟩ := holds_path H h hK c3 _ .root ⟨0, by have := h.two; omega, h.st0⟩ c1 (by omega)
        have hlow : mergeLow g c a b = true := by
          unfold mergeLow
          cases hf : findNode g c with
          | none => exact absurd hjs (findNode_noneEq hf j hj)
          | some k =>
            obtain ⟨k1, k2⟩ := findNode_someEq hf
            have hlay := h.lay k k1 (by rw [k2]; exact c1)
            rw [k2] at hlay
            have : g.layer k < max (g.layer a) (g.layer b) := by omega
            simpa using this
        dsimp only
        rw [if_pos hlow]
    unfold relLoop
    rw [p0, p1]
    split
    · exact ⟨rfl, fun g' h => by simp at h; subst h; exact hx⟩
    · dsimp only
      rw [relNodes_bare hl hd hE]
      obtain ⟨w1, w2, w3⟩ := pull_inv H w hr h ha
      rw [p0] at w1 w2
      generalize hv : relNodes (m.bare e0) prim (relSort m g q.next) g ⟨[], []⟩ = v
      obtain ⟨g1, q1⟩ := v
      obtain ⟨x1, ⟨p', x2⟩, x3, x4⟩ := relNodes_inv H _ _ _ p rfl w1.shift w2 g1 q1 hv
      obtain ⟨y1, y2, y3, y4⟩ := relNodes_states (m := m.bare e0) hl hd (relSort m g q.next) g ⟨[], []⟩
        (fun i hi => (h.Bm i (hperm.mem_iff.1 hi)).1.1) g1 q1 hv
      refine ih g1 q1 (d + 1) p' x1 x2 x3 (x4.trans hx) fun i hi he => ?_
      rcases y4 i hi with h' | h' | h'
      · rw [y1.2 i h'] at he
        rcases hK i h' he with h'' | h''
        · exact .inr (y2 i (hperm.mem_iff.2 h''))
        · exact .inr (h''.keep h' y1)
      · have : e0 (g1.st i) = true := h'
        rw [he] at this; cases this
      · rcases h' with h' | h'
        · exact .inl h'
        · rw [x1] at h'; simp at h'

/-- C101: a model whose merges are all refused is compiled as if it had no merge function, and exactly. -/
theorem relaxed_bare {e0 : σ → Bool} (hl : m.loc = none) (hd : m.sdom = none) (hE : SameEnd m e0) (H : Layered (m.bare e0) rank r.st r.bound)
    (hA : Refused m e0 rank r.st) (w f : Nat) :
    relaxed m prim w f r = relaxed (m.bare e0) prim w f r ∧ ∀ g, relaxed (m.bare e0) prim w f r = some g → g.exact = true := by
  have hs : start2 (m.bare e0) r = start2 m r := rfl
  obtain ⟨i1, i2, i3⟩ := start2_inv (prim := prim) (rel := true) H
  have hq : LQ.enQueue (start2 m r) ⟨[], []⟩ (start2 m r).root = ⟨[0], []⟩ := by
    rw [hs] at i1
    rw [i1.root]; rfl
  have hloop : relLoop m prim w f (start2 m r) ⟨[0], []⟩ = relLoop (m.bare e0) prim w f (start2 m r) ⟨[0], []⟩ ∧
      ∀ g', relLoop (m.bare e0) prim w f (start2 m r) ⟨[0], []⟩ = some g' → g'.exact = true := by
    cases f with
    | zero => exact ⟨rfl, fun g' h => by simp [relLoop] at h⟩
    | succ f =>
      have hp : ∀ mm : Mdl σ, LQ.pull mm w (start2 m r) ⟨[0], []⟩ = (start2 m r, [0], ⟨[], []⟩) := by
        intro mm
        unfold LQ.pull
        have : relSort mm (start2 m r) [0] = [0] := rfl
        rw [this, mergeLayer_single]
      unfold relLoop
      rw [hp, hp]
      simp only [List.isEmpty_cons, Bool.false_eq_true, false_and, if_false]
      rw [relNodes_bare hl hd hE]
      rw [hs] at i1 i2 i3
      generalize hv : relNodes (m.bare e0) prim [0] (start2 m r) ⟨[], []⟩ = v
      obtain ⟨g1, q1⟩ := v
      obtain ⟨x1, ⟨p', x2⟩, x3, x4⟩ := relNodes_inv H _ _ _ 0 rfl i1 i2 g1 q1 hv
      obtain ⟨y1, y2, y3, y4⟩ := relNodes_states (m := m.bare e0) hl hd [0] (start2 m r) ⟨[], []⟩
        (fun i hi => by simp at hi; subst hi; have := i1.two; omega) g1 q1 hv
      refine relLoop_bare hl hd hE H hA w f g1 q1 0 p' x1 x2 x3 (x4.trans i3) fun i hi he => ?_
      rcases y4 i hi with h' | h' | h'
      · have h2 : (start2 m r).nn = 2 := by
          have hne : r.st ≠ m.stt := by
            intro hh
            have e := H.src
            rw [hh] at e
            have e' : (m.bare e0).eqs m.stt = true := H.sink
            rw [e'] at e; cases e
          have hf : findNode (start r) m.stt = none := by unfold findNode start; simp [hne]
          unfold start2 makeNode
          rw [hf]
          rfl
        rw [h2] at h'
        by_cases h0 : i = 0
        · subst h0; exact .inr (y2 0 (by simp))
        · have : i = 1 := by omega
          subst this
          rw [y1.2 1 (by rw [h2]; omega), i1.st1] at he
          have := H.sink
          have e : e0 m.stt = true := this
          have e' : e0 m.stt = false := he
          rw [e] at e'; cases e'
      · have : e0 (g1.st i) = true := h'
        rw [he] at this; cases this
      · rcases h' with h' | h'
        · exact .inl h'
        · rw [x1] at h'; simp at h'
  have h1 : relaxed m prim w f r = relaxed (m.bare e0) prim w f r := by
    unfold relaxed
    dsimp only
    rw [hs, hq, hloop.1]
    congr 1
    funext g
    rw [tighten_bare (e0 := e0)]
    exact computeBestBackward_bare _
  refine ⟨h1, fun g h => ?_⟩
  unfold relaxed at h
  dsimp only at h
  rw [hs, hq] at h
  simp only [Option.bind_eq_some_iff] at h
  obtain ⟨g1, h1, h2⟩ := h
  have hx := hloop.2 g1 h1
  have hi := relaxed_inv H (by rw [hs, hq]; exact h1)
  obtain ⟨⟨d, p, hi⟩, ha⟩ := hi
  obtain ⟨bd, lb, t1, t2, t3⟩ := tighten_trg (m := m.bare e0) hi.trg (fin_inrange H ⟨d, p, hi⟩)
  rw [t1] at h2
  obtain ⟨ρ, wg⟩ := fin_wg (m := m.bare e0) (rank := rank) (r := r) (prim := prim) (rel := true) ⟨d, p, hi⟩ ha
  have wg' : Wg ({ g1 with bound := upd g1.bound 1 bd, lab := upd g1.lab 1 lb } : G σ) ρ :=
    ⟨wg.nd, wg.kids, wg.par, wg.kn, wg.pn, wg.src, wg.dst, wg.up⟩
  obtain ⟨b, c1, _⟩ := computeBestBackward_eq (m := m.bare e0) wg'
  rw [c1] at h2
  simp only [Option.some.injEq] at h2
  subst h2
  exact hx

end Verif.DD

namespace Verif.BB
open Verif.DD
set_option linter.unusedSectionVars false
variable {σ : Type} {m : Mdl σ} {rank : σ → Nat} [DecidableEq σ]

theorem loopP_empty {T : Nat → Int → Mdl σ} {lc : Nat → Int → Option (σ → Ctx → Int)} {w dfuel : Nat} {lim : Nat → Bool} {f k : Nat} {s : BS σ}
    (h : Heap.empty s.pq = true) : loopP m T lc w dfuel lim f k s = if f = 0 then none else some s := by
  cases f with
  | zero => rfl
  | succ f => unfold loopP; rw [if_pos h]; simp

theorem expand_bare {e0 : σ → Bool} (hl : m.loc = none) (hd : m.sdom = none) (hE : SameEnd m e0) (H : Layered (m.bare e0) rank m.sti 0)
    (hA : Refused m e0 rank m.sti) {lc : Int → Option (σ → Ctx → Int)} {w dfuel : Nat} (s : BS σ) (cur : Nat) (e1 : (s.src cur).st = m.sti) (e2 : (s.src cur).bound = 0) :
    expandP m (fun _ => m) lc w dfuel s cur = expandP (m.bare e0) (fun _ => m.bare e0) lc w dfuel s cur ∧
    ∀ s', expandP (m.bare e0) (fun _ => m.bare e0) lc w dfuel s cur = some s' → s'.pq = s.pq := by
  obtain ⟨r1, r2⟩ := relaxed_bare (r := s.src cur) (prim := s.primal) (e0 := e0) hl hd hE
      (by rw [e1, e2]; exact H) (by rw [e1]; exact hA) s.wrel dfuel
  have hse : (m.bare e0).sense = m.sense := rfl
  have hsp : ∀ (s : BS σ) v lb, setPrimal (m.bare e0) s v lb = setPrimal m s v lb := fun _ _ _ => rfl
  unfold expandP
  rw [r1]
  generalize relaxed (m.bare e0) s.primal s.wrel dfuel (s.src cur) = o at r2
  cases o with
  | none => exact ⟨rfl, fun s' h => by cases h⟩
  | some g =>
    have hx := r2 g rfl
    simp only [Option.bind_some, hse]
    by_cases hbt : m.sense.better (g.bound g.trg) s.primal = true
    · simp only [if_pos hbt, if_pos hx, hsp]
      generalize hs1 : setPrimal m s (g.bound g.trg) (g.lab g.trg) = s1
      have hq1 : s1.pq = s.pq := by rw [← hs1]; rfl
      rw [restricted_bare (e0 := e0) hl hd hE]
      generalize restricted (m.bare e0) _ w dfuel _ = o2
      cases o2 with
      | none => exact ⟨rfl, fun s' h => by cases h⟩
      | some rr =>
        simp only [Option.bind_some, hx, Bool.not_true, Bool.and_false, Bool.false_eq_true, if_false]
        refine ⟨trivial, fun s' h => ?_⟩
        simp only [Option.some.injEq] at h
        rw [← h, ← hq1]
        split <;> rfl
    · simp only [if_neg hbt]
      exact ⟨trivial, fun s' h => by simp at h; rw [h]⟩

theorem loop_bare {e0 : σ → Bool} (hl : m.loc = none) (hd : m.sdom = none) (hE : SameEnd m e0) (H : Layered (m.bare e0) rank m.sti 0)
    (hA : Refused m e0 rank m.sti) {w dfuel fuel : Nat} {lim : Nat → Bool} {s : BS σ} (hne : Heap.empty s.pq = false)
    (hem : Heap.empty (Heap.extractMax (qord m) s.pq).1 = true) (hst : ∀ i, s.pst i = m.sti) (hbd : ∀ i, s.pbound i = 0) :
    loopP m (fun _ _ => m) (fun _ _ => m.loc) w dfuel lim fuel 0 s = loopP (m.bare e0) (fun _ _ => m.bare e0) (fun _ _ => m.loc) w dfuel lim fuel 0 s := by
  have hqo : qord (m.bare e0) = qord m := rfl
  cases fuel with
  | zero => rfl
  | succ f =>
    unfold loopP
    rw [hne, hqo]
    simp only [Bool.false_eq_true, if_false]
    by_cases hlim : lim 0 = true
    · rw [if_pos hlim, if_pos hlim]
    rw [if_neg hlim, if_neg hlim]
    have hse : (m.bare e0).sense = m.sense := rfl
    rw [hse]
    by_cases hb : m.sense.better (Heap.extractMax (qord m) s.pq).2.2 s.primal = true
    · rw [if_pos hb, if_pos hb]
      obtain ⟨x1, x2⟩ := expand_bare (e0 := e0) (lc := fun _ => m.loc) (w := w) (dfuel := dfuel) hl hd hE H hA
        { s with pq := (Heap.extractMax (qord m) s.pq).1 } (Heap.extractMax (qord m) s.pq).2.1 (hst _) (hbd _)
      rw [x1]
      generalize expandP (m.bare e0) (fun _ => m.bare e0) (fun _ => m.loc) w dfuel _ _ = o at x2
      cases o with
      | none => rw [Option.bind_none, Option.bind_none]
      | some s2 =>
        have h2 : Heap.empty s2.pq = true := by rw [x2 s2 rfl]; exact hem
        rw [Option.bind_some, Option.bind_some, loopP_empty h2, loopP_empty h2]
    · rw [if_neg hb, if_neg hb, loopP_empty hem, loopP_empty hem]

/-- A search whose merges are all refused expands the root only, exactly as without a merge function. -/
theorem search_bare {e0 : σ → Bool} (hl : m.loc = none) (hd : m.sdom = none) (hE : SameEnd m e0) (H : Layered (m.bare e0) rank m.sti 0)
    (hA : Refused m e0 rank m.sti) {p0 : Int} {w dfuel fuel : Nat} {lim : Nat → Bool} :
    search m w dfuel lim fuel p0 = search (m.bare e0) w dfuel lim fuel p0 := by
  obtain ⟨h1, h2, h3, h4, h5, _⟩ := init_inv (m := m.bare e0) H.src H.fair.toUniq w p0
  have hne : Heap.empty (init (m.bare e0) w p0).pq = false := by simp [Heap.empty, h3]
  have hem : Heap.empty (Heap.extractMax (qord m) (init (m.bare e0) w p0).pq).1 = true := by
    obtain ⟨_, _, _, a4, _⟩ := h1.extract hne
    have hqo : qord (m.bare e0) = qord m := rfl
    rw [← hqo]
    simp [Heap.empty]; omega
  exact loop_bare (s := init (m.bare e0) w p0) hl hd hE H hA hne hem (fun _ => rfl) (fun _ => rfl)

/-- C101: such a search, not stopped, ends with the optimum of the problem without merge function, whatever the
width. -/
theorem search_refused {e0 : σ → Bool} (hl : m.loc = none) (hd : m.sdom = none) (hE : SameEnd m e0) (H : Layered (m.bare e0) rank m.sti 0)
    (hA : Refused m e0 rank m.sti) {p0 : Int} (hp0 : m.sense.betterEQ p0 m.sense.best0 = true)
    (hW : ∀ ls c, Sol (m.bare e0) ls c → m.sense.betterEQ m.sense.worst0 c = true)
    {w dfuel fuel : Nat} {lim : Nat → Bool} {s : BS σ}
    (h : search m w dfuel lim fuel p0 = some s) (hns : s.stopped = false) :
    (∀ ls c, Sol (m.bare e0) ls c → m.sense.betterEQ s.primal c = true) ∧
    (Sol (m.bare e0) s.inc s.primal ∨ (s.primal = p0 ∧ ∀ ls c, Sol (m.bare e0) ls c → m.sense.better c p0 = false)) := by
  rw [search_bare (rank := rank) (e0 := e0) hl hd hE H hA] at h
  exact searchT_exact (m := m.bare e0) (rank := rank) (fun _ => Fam.const H) H hp0 (fun _ => hW) (fun k p r g h1 h2 hg =>
    (relaxed_bare (r := r) (prim := p) hl hd hE (by rw [h1, h2]; exact H) (by rw [h1]; exact hA) w dfuel).2 g hg) h hns

end Verif.BB
