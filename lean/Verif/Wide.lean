import Verif.Width
import Verif.Compile
/-!
# Compilations with room for every state

If no layer has more reachable states than the width, nothing is merged or cut.
-/
namespace Verif.DD
set_option linter.unusedSectionVars false
variable {σ : Type} {Vl : σ → Int → Prop} {m : Mdl σ} {rank : σ → Nat} {r : Src σ} {prim : Int} {rel : Bool}

/-- No layer has more than `w` reachable open states. -/
def Room (m : Mdl σ) (rank : σ → Nat) (s0 : σ) (w : Nat) : Prop :=
  ∀ k (L : List σ), L.Nodup → (∀ s, s ∈ L → m.eqs s = false ∧ rank s = k ∧ ∃ ls c, Path m s0 ls c s) → L.length ≤ w

variable [Same σ]

theorem makeNode_exact (g : G σ) (s : σ) (pe : Bool) : (makeNode m g s pe).1.exact = g.exact := by
  unfold makeNode
  split <;> dsimp only
  split <;> rfl

theorem transition_exact (g : G σ) (p : Nat) (l : Int) : (transition m prim g p l).1.exact = g.exact := by
  unfold transition
  split
  · rfl
  · split
    · dsimp only
      split
      · split <;> exact makeNode_exact _ _ _
      · rfl
    · exact makeNode_exact _ _ _

theorem addArcNode_exact (g : G σ) (e n : Nat) : (addArcNode g e n).exact = g.exact := by
  unfold addArcNode
  split
  · rfl
  · split <;> rfl

theorem addEdge_exact (g : G σ) (p c : Nat) (l o : Int) : (addEdge g p c l o).exact = g.exact := by
  unfold addEdge addArc
  dsimp only
  rw [addArcNode_exact, addArcNode_exact]

theorem visit_exact (cands : List Nat) (g : G σ) (p : Nat) (l : Int) : (visit m prim cands g p l).1.exact = g.exact := by
  unfold visit
  have h := transition_exact (m := m) (prim := prim) g p l
  generalize transition m prim g p l = v at h
  obtain ⟨g1, o⟩ := v
  cases o with
  | none => exact h
  | some c =>
    dsimp only
    have ite_exact : ∀ (b : Prop) [Decidable b] (x y : G σ), x.exact = g.exact → y.exact = g.exact → (if b then x else y).exact = g.exact := by
      intro b _ x y hx hy; split <;> assumption
    (repeat' first | refine ite_exact _ _ _ ?_ ?_ | rw [addEdge_exact]) <;> exact h

theorem relLabels_exact (p : Nat) : ∀ (ls : List Int) (g : G σ) (q : LQ), (relLabels m prim p ls g q).1.exact = g.exact := by
  intro ls
  induction ls with
  | nil => intro g q; rfl
  | cons l ls ih =>
    intro g q
    unfold relLabels
    have h := visit_exact (m := m) (prim := prim) q.next g p l
    generalize visit m prim q.next g p l = v at h
    obtain ⟨g1, o⟩ := v
    cases o with
    | none => exact (ih _ _).trans h
    | some c => exact (ih _ _).trans h

theorem relNodes_exact : ∀ (ps : List Nat) (g : G σ) (q : LQ), (relNodes m prim ps g q).1.exact = g.exact := by
  intro ps
  induction ps with
  | nil => intro g q; rfl
  | cons p ps ih =>
    intro g q
    unfold relNodes
    exact (ih _ _).trans (relLabels_exact _ _ _ _)

/-- While the diagram is exact the next layer fits. -/
theorem Inv.fits (H : LayeredV Vl m rank r.st r.bound) {g : G σ} {d p w : Nat} {A B : List Nat} {rem : List Int} (hR : Room m rank r.st w) (h : Inv Vl m rank r prim rel g d A B p rem)
    (hx : g.exact = true) : B.length ≤ w := by
  have := hR (rank r.st + d + 1) (B.map g.st) (by
    rw [List.nodup_iff_pairwise_ne, List.pairwise_map]
    refine List.Pairwise.imp_of_mem (fun {a b} ha hb hab he => hab (h.inj a b (h.Bm a ha).1.1 (h.Bm b hb).1.1 (by rw [he]; exact H.fair.refl _))) h.Bn) (by
    intro s hs
    obtain ⟨i, hi, rfl⟩ := List.mem_map.1 hs
    obtain ⟨b1, b2, _, b4⟩ := h.Bm i hi
    obtain ⟨ls, _, hp⟩ := h.gen i b1 (h.exa hx i b1.1)
    exact ⟨b2, b4, ls, _, hp⟩)
  simpa using this

theorem mergeLayer_small {w : Nat} (g : G σ) {layer : List Nat} (h : layer.length ≤ w) : mergeLayer m w g layer = (g, layer) := by
  unfold mergeLayer mergeLoop
  rw [if_neg (by simp; omega)]
  simp

theorem relLoop_wideExact (H : LayeredV Vl m rank r.st r.bound) {w : Nat} (hR : Room m rank r.st w) : ∀ (f : Nat) (g : G σ) (q : LQ) (d p : Nat),
    q.rest = [] → Inv Vl m rank r prim true g d [] q.next p [] → AnOK g 1 → g.exact = true →
    ∀ g', relLoop m prim w f g q = some g' → g'.exact = true := by
  intro f
  induction f with
  | zero => intro g q d p _ _ _ _ g' he; simp [relLoop] at he
  | succ f ih =>
    intro g q d p hr h ha hx g' he
    unfold relLoop at he
    split at he
    · simp at he; subst he; exact hx
    · dsimp only at he
      obtain ⟨w1, w2, w3⟩ := pull_inv H w hr h ha
      rw [w3] at he
      have hpull : (q.pull m w g).1 = g := by
        unfold LQ.pull
        rw [mergeLayer_small g (by rw [(relSort_perm (m := m) g q.next).length_eq]; exact h.fits H hR hx)]
        rw [hr]
      generalize hv : relNodes m prim (q.pull m w g).2.1 (q.pull m w g).1 ⟨[], []⟩ = v at he
      obtain ⟨g1, q1⟩ := v
      obtain ⟨x1, ⟨p', x2⟩, x3, x4⟩ := relNodes_inv H _ _ _ p rfl w1.shift w2 g1 q1 hv
      have hx1 : g1.exact = true := by
        have := relNodes_exact (m := m) (prim := prim) (q.pull m w g).2.1 (q.pull m w g).1 ⟨[], []⟩
        rw [hv, hpull] at this
        exact this.trans hx
      exact ih g1 q1 (d + 1) p' x1 x2 x3 hx1 g' he

theorem start2_exact : (start2 m r).exact = true := by
  unfold start2
  exact makeNode_exact _ _ _

theorem resLabels_exact (H : LayeredV Vl m rank r.st r.bound) {w : Nat} (hR : Room m rank r.st (wm1 w)) {d p : Nat} {A : List Nat} :
    ∀ (ls : List Int) (g : G σ) (q : List Nat),
      Inv Vl m rank r prim false g d A q p ls → Cur m rank r g d A q p → AnOK g 1 →
      (∀ l, l ∈ ls → l ∈ m.lgf (g.st p)) → g.exact = true →
      ∀ g' q' b, resLabels m prim w p ls g q = (g', q', b) → g'.exact = true := by
  intro ls
  induction ls with
  | nil =>
    intro g q h _ ha _ hx g' q' b he
    simp [resLabels] at he
    obtain ⟨rfl, rfl, rfl⟩ := he
    exact hx
  | cons l ls ih =>
    intro g q h hc ha hl hx g' q' b he
    unfold resLabels at he
    have hx1 := visit_exact (m := m) (prim := prim) q g p l
    generalize hv : visit m prim q g p l = v at he hx1
    obtain ⟨g1, o⟩ := v
    obtain ⟨v1, v2, v3, v4, v5⟩ := visit_inv H h hc ha (hl l (by simp)) hv
    rw [hx] at hx1
    cases o with
    | none =>
      obtain ⟨i1, c1⟩ := v1 rfl
      exact ih g1 q i1 c1 v3 (fun x hx => by rw [v5]; exact hl x (by simp [hx])) hx1 g' q' b he
    | some c =>
      obtain ⟨hcB, i1, c1⟩ := v2 c rfl
      dsimp only at he
      have hle : (q ++ [c]).length ≤ wm1 w := i1.fits H hR hx1
      have hest : estimate g1 (q ++ [c]) ≤ wm1 w := by
        refine Nat.le_trans ?_ hle
        unfold estimate
        split
        · exact Nat.zero_le _
        · exact List.countP_le_length
      rw [if_neg (by omega)] at he
      exact ih g1 _ i1 c1 v3 (fun x hx => by rw [v5]; exact hl x (by simp [hx])) hx1 g' q' b he

theorem resNodes_exact (H : LayeredV Vl m rank r.st r.bound) {w : Nat} (hR : Room m rank r.st (wm1 w)) {d : Nat} :
    ∀ (ps : List Nat) (g : G σ) (q : List Nat) (p0 : Nat),
      Inv Vl m rank r prim false g d ps q p0 [] → AnOK g 1 → g.exact = true →
      ∀ g' q', resNodes m prim w ps g q = (g', q') → g'.exact = true := by
  intro ps
  induction ps with
  | nil =>
    intro g q p0 h ha hx g' q' he
    simp [resNodes] at he
    obtain ⟨rfl, rfl⟩ := he
    exact hx
  | cons p ps ih =>
    intro g q p0 h ha hx g' q' he
    unfold resNodes at he
    obtain ⟨i1, c1⟩ := h.take
    generalize hv : resLabels m prim w p (m.lgf (g.st p)) g q = v at he
    obtain ⟨g1, q1, b⟩ := v
    obtain ⟨w1, w2, w3, w4⟩ := resLabels_inv H w _ g q i1 c1 ha (fun _ hx => hx) g1 q1 b hv
    have hx1 := resLabels_exact H hR _ g q i1 c1 ha (fun _ hx => hx) hx g1 q1 b hv
    cases b with
    | true =>
      simp only [Prod.mk.injEq] at he
      obtain ⟨rfl, rfl⟩ := he
      exact hx1
    | false => exact ih g1 q1 p w1 w2 hx1 g' q' he

theorem resLoop_wideExact (H : LayeredV Vl m rank r.st r.bound) {w : Nat} (hR : Room m rank r.st (wm1 w)) : ∀ (f : Nat) (g : G σ) (q : List Nat) (d p : Nat),
    Inv Vl m rank r prim false g d q [] p [] → AnOK g 1 → g.exact = true →
    ∀ g', resLoop m prim w f g q = some g' → g'.exact = true := by
  intro f
  induction f with
  | zero => intro g q d p _ _ _ g' he; simp [resLoop] at he
  | succ f ih =>
    intro g q d p h ha hx g' he
    unfold resLoop at he
    split at he
    · simp at he; subst he; exact hx
    · dsimp only at he
      obtain ⟨p1, p2⟩ := resPull (m := m) g d q (fun i hi => (h.Am i hi).2.2.1)
      rw [p2] at he
      have h1 := h.perm (p1.nodup_iff.2 h.An) (by simp) (fun i => p1.mem_iff) (fun i => Iff.rfl)
      generalize hv : resNodes m prim w (pullLayer m g q).1 g [] = v at he
      obtain ⟨g1, q1⟩ := v
      obtain ⟨⟨p', x2⟩, x3⟩ := resNodes_inv H w _ _ _ p h1 ha g1 q1 hv
      exact ih g1 q1 (d + 1) p' x2.shift x3 (resNodes_exact H hR _ _ _ p h1 ha hx g1 q1 hv) g' he

end Verif.DD
