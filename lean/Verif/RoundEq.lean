import Verif.Round
import Verif.BBOpt
/-!
# When rounding changes nothing: one compilation

If the numbers of a model are small enough, every sum the engine forms is one `fl` leaves alone.
-/
namespace Verif.DD
set_option linter.unusedSectionVars false
variable {σ : Type} {Vl : σ → Int → Prop} [Same σ] {m : Mdl σ} {rank : σ → Nat} {r : Src σ} {prim : Int} {rel : Bool}
  {fl : Int → Int} {C V L N : Nat}

/-- Among the states relaxation can reach from `s0` at value `v0`: labels cost at most `C`, values are at
most `V`, local bounds at most `L` and ranks at most `N`, all in magnitude; and `fl` keeps every integer up to
the sum of what an addition can meet. -/
structure Fits (fl : Int → Int) (m : Mdl σ) (rank : σ → Nat) (s0 : σ) (v0 : Int) (C V L N : Nat) : Prop where
  cost : ∀ s v l, Relx m rank s0 v0 s v → m.eqs s = false → l ∈ m.lgf s → (m.stc s l).natAbs ≤ C
  val : ∀ s v, Relx m rank s0 v0 s v → v.natAbs ≤ V
  loc : ∀ f, m.loc = some f → ∀ s v c, Relx m rank s0 v0 s v → (f s c).natAbs ≤ L
  rk : RankBound m rank s0 v0 N
  fl : ∀ x : Int, x.natAbs ≤ V + L + C + C * (N + 1) + 2147483647 → fl x = x

theorem transition_round (K : Fits fl m rank r.st r.bound C V L N) {g : G σ} {d : Nat} {A B : List Nat} {p : Nat} {l : Int} {rem : List Int}
    (h : Inv Vl m rank r prim rel g d A B p rem) (hp : Cur m rank r g d A B p) (hl : l ∈ m.lgf (g.st p)) :
    transitionR fl m prim g p l = transition m prim g p l := by
  unfold transitionR transition
  cases hs : m.stf (g.st p) l with
  | none => rfl
  | some s' =>
    dsimp only
    cases hf : m.loc with
    | none => rfl
    | some f =>
      dsimp only
      have h0 := h.relx p hp.lv
      have h1 := h0.step ⟨hp.ne, hl, hs⟩
      have a1 := K.cost _ _ _ h0 hp.ne hl
      have a2 := K.val _ _ h1
      have a3 := K.loc f hf _ _ .dd h1
      have e1 : fl (g.bound p + m.stc (g.st p) l) = g.bound p + m.stc (g.st p) l := K.fl _ (by omega)
      have e2 : fl (g.bound p + m.stc (g.st p) l + f s' .dd) = g.bound p + m.stc (g.st p) l + f s' .dd := K.fl _ (by omega)
      have e3 : fl (m.stc (g.st p) l + f s' .dd) = m.stc (g.st p) l + f s' .dd := K.fl _ (by omega)
      rw [e1, e2, e3]

theorem visit_round (H : LayeredV Vl m rank r.st r.bound) (K : Fits fl m rank r.st r.bound C V L N)
    {g : G σ} {d : Nat} {A B : List Nat} {p : Nat} {l : Int} {rem : List Int}
    (h : Inv Vl m rank r prim rel g d A B p rem) (hp : Cur m rank r g d A B p) (hl : l ∈ m.lgf (g.st p)) :
    visitR fl m prim B g p l = visit m prim B g p l := by
  unfold visitR visit
  rw [transition_round K h hp hl]
  rcases transition_cases m prim g p l with ⟨h1, h2⟩ | ⟨s', f, h1, hf, hb, h2⟩ | ⟨s', x, h1, hb, h2⟩
  · rw [h2]
  · rw [h2]
  · rw [h2]
    have hst : Step m (g.st p) l s' := ⟨hp.ne, hl, h1⟩
    have hrelx := (h.relx p hp.lv).step hst
    have hsr := H.step _ _ _ _ (h.relx p hp.lv) hst
    obtain ⟨g1, c, k1, k2, k3, k4, k5, k6, k7, k8, k9, k10, k11, k12, k13, k14, k15, k16⟩ :=
      h.makeNode H s' (g.ex p) (fun hx => h.exa hx p hp.lv.1) hrelx (fun hx => by
        obtain ⟨ls, _, q2⟩ := h.gen p hp.lv hx
        exact ⟨_, _, q2.snoc hst⟩) (by
        rcases hsr with a | a
        · exact Or.inl a
        · rw [hp.rk] at a; right; omega)
    obtain ⟨b1, b2, _⟩ := k12 p hp.lv
    have a2 := K.val _ _ hrelx
    have e1 : fl (g1.bound p + m.stc (g1.st p) l) = g1.bound p + m.stc (g1.st p) l := by
      rw [b1, b2]; exact K.fl _ (by omega)
    rw [k1]
    dsimp only
    rw [e1]

theorem relLabels_round (H : LayeredV Vl m rank r.st r.bound) (K : Fits fl m rank r.st r.bound C V L N) {d p : Nat} {A : List Nat} :
    ∀ (ls : List Int) (g : G σ) (q : LQ), q.rest = [] →
      Inv Vl m rank r prim rel g d A q.next p ls → Cur m rank r g d A q.next p → AnOK g 1 →
      (∀ l, l ∈ ls → l ∈ m.lgf (g.st p)) → relLabelsR fl m prim p ls g q = relLabels m prim p ls g q := by
  intro ls
  induction ls with
  | nil => intros; rfl
  | cons l ls ih =>
    intro g q hr h hc ha hl
    unfold relLabelsR relLabels
    rw [visit_round H K h hc (hl l (by simp))]
    generalize hv : visit m prim q.next g p l = v
    obtain ⟨g1, o⟩ := v
    obtain ⟨v1, v2, v3, v4, v5⟩ := visit_inv H h hc ha (hl l (by simp)) hv
    cases o with
    | none =>
      obtain ⟨i1, c1⟩ := v1 rfl
      exact ih g1 q hr i1 c1 v3 (fun x hx => by rw [v5]; exact hl x (by simp [hx]))
    | some c =>
      obtain ⟨hcB, i1, c1⟩ := v2 c rfl
      have hq : (q.enQueue g1 c).rest = [] ∧ (q.enQueue g1 c).next = c :: q.next := by
        unfold LQ.enQueue
        cases hn : q.next with
        | nil => exact ⟨hr, rfl⟩
        | cons a as =>
          dsimp only
          have h1 := (i1.Bm a (by simp [hn])).2.2.1
          have h2 := (i1.Bm c (by simp)).2.2.1
          rw [if_pos (by omega)]
          exact ⟨hr, by simp⟩
      have nd : (c :: q.next).Nodup := List.nodup_cons.2 ⟨hcB, h.Bn⟩
      have i2 : Inv Vl m rank r prim rel g1 d A (q.enQueue g1 c).next p ls := by
        rw [hq.2]; exact i1.perm h.An nd (fun _ => Iff.rfl) (by intro i; simp [or_comm])
      have c2 : Cur m rank r g1 d A (q.enQueue g1 c).next p := by
        refine ⟨c1.lv, c1.ne, c1.nA, ?_, c1.rk, c1.ly⟩
        rw [hq.2]; have := c1.nB; simp at this ⊢; exact ⟨this.2, this.1⟩
      exact ih g1 _ hq.1 i2 c2 v3 (fun x hx => by rw [v5]; exact hl x (by simp [hx]))

theorem relNodes_round (H : LayeredV Vl m rank r.st r.bound) (K : Fits fl m rank r.st r.bound C V L N) {d : Nat} :
    ∀ (ps : List Nat) (g : G σ) (q : LQ) (p0 : Nat), q.rest = [] →
      Inv Vl m rank r prim rel g d ps q.next p0 [] → AnOK g 1 →
      relNodesR fl m prim ps g q = relNodes m prim ps g q := by
  intro ps
  induction ps with
  | nil => intros; rfl
  | cons p ps ih =>
    intro g q p0 hr h ha
    unfold relNodesR relNodes
    obtain ⟨i1, c1⟩ := h.take
    rw [relLabels_round H K _ g q hr i1 c1 ha (fun _ hx => hx)]
    generalize hv : relLabels m prim p (m.lgf (g.st p)) g q = v
    obtain ⟨g1, q1⟩ := v
    obtain ⟨w1, w2, w3, w4⟩ := relLabels_inv H _ g q hr i1 c1 ha (fun _ hx => hx) g1 q1 hv
    exact ih g1 q1 p w1 w2 w3

/-- A merge within a layer never delays a node, so `adjustBounds` is not run. -/
theorem mergeOne_round (fl : Int → Int) (H : LayeredV Vl m rank r.st r.bound) {g : G σ} {d : Nat} {p n1 : Nat} {rest skip : List Nat}
    (h : Inv Vl m rank r prim true g d [] (skip ++ n1 :: rest) p []) (ha : AnOK g 1) :
    mergeOneR fl m g n1 rest skip = mergeOne m g n1 rest skip := by
  unfold mergeOneR mergeOne
  split
  · cases hmf : mergeFind m g n1 [] rest with
    | none => rfl
    | some x =>
      obtain ⟨g1, mn, n2, rest1⟩ := x
      dsimp only
      obtain ⟨u, v, hu, hr1, hmg⟩ := mergeFind_some hmf
      subst hu
      have hm1 : n1 ∈ skip ++ n1 :: (u ++ n2 :: v) := by simp
      have hm2 : n2 ∈ skip ++ n1 :: (u ++ n2 :: v) := by simp
      have n12 : n1 ≠ n2 := by
        intro hh
        have hnd := h.Bn
        rw [List.perm_middle.nodup_iff, List.nodup_cons] at hnd
        exact hnd.1 (by simp [hh])
      generalize hB : skip ++ n1 :: (u ++ n2 :: v) = B at *
      have hB' : ∃ B' : List Nat, B'.Nodup ∧ ∀ i, i ∈ B' ↔ i = mn ∨ (i ∈ B ∧ i ≠ n1 ∧ i ≠ n2) := by
        refine ⟨mn :: (((B.erase n1).erase n2).erase mn), ?_, ?_⟩
        · rw [List.nodup_cons]
          have h1 := (h.Bn.erase n1).erase n2
          exact ⟨fun hh => ((h1.mem_erase_iff).1 hh).1 rfl, h1.erase mn⟩
        · intro i
          rw [List.mem_cons, ((h.Bn.erase n1).erase n2).mem_erase_iff, (h.Bn.erase n1).mem_erase_iff, h.Bn.mem_erase_iff]
          by_cases hi : i = mn
          · simp [hi]
          · simp only [hi, false_or, ne_eq, not_false_eq_true, true_and]
            exact ⟨fun ⟨a, b, c⟩ => ⟨c, b, a⟩, fun ⟨a, b, c⟩ => ⟨c, b, a⟩⟩
      obtain ⟨B', nd, hB'⟩ := hB'
      obtain ⟨g2, act, w1, _, _, w4⟩ := mergePair_inv (B' := B') H h ha hm1 hm2 n12 hmg nd hB'
      rw [w1]
      rcases w4 with ⟨a, _⟩ | ⟨a, _⟩ <;> rw [a]
  · rfl

theorem mergeLoop_round (fl : Int → Int) (H : LayeredV Vl m rank r.st r.bound) {d p : Nat} (w : Nat) : ∀ (f : Nat) (g : G σ) (layer skip : List Nat),
    Inv Vl m rank r prim true g d [] (skip ++ layer) p [] → AnOK g 1 →
    mergeLoopR fl m w f g layer skip = mergeLoop m w f g layer skip := by
  intro f
  induction f with
  | zero => intros; rfl
  | succ f ih =>
    intro g layer skip h ha
    unfold mergeLoopR mergeLoop
    split
    · cases layer with
      | nil => rfl
      | cons n1 rest =>
        dsimp only
        rw [mergeOne_round fl H h ha]
        generalize ho : mergeOne m g n1 rest skip = q
        obtain ⟨g', rest', skip'⟩ := q
        obtain ⟨w1, w2, _⟩ := mergeOne_inv H h ha ho
        exact ih g' rest' skip' w1 w2
    · rfl

theorem pull_round (fl : Int → Int) (H : LayeredV Vl m rank r.st r.bound) {d p : Nat} (w : Nat) {g : G σ} {q : LQ}
    (h : Inv Vl m rank r prim true g d [] q.next p []) (ha : AnOK g 1) : q.pullR fl m w g = q.pull m w g := by
  have hp := relSort_perm (m := m) g q.next
  have h1 := h.perm (A' := []) List.nodup_nil (hp.nodup_iff.2 h.Bn) (fun _ => Iff.rfl) (fun i => hp.mem_iff)
  have := mergeLoop_round fl (p := p) H w ((relSort m g q.next).length + 1) g (relSort m g q.next) [] (by simpa using h1) ha
  unfold LQ.pullR LQ.pull mergeLayerR mergeLayer
  rw [this]
  rfl

theorem relLoop_round (H : LayeredV Vl m rank r.st r.bound) (K : Fits fl m rank r.st r.bound C V L N) (w : Nat) :
    ∀ (f : Nat) (g : G σ) (q : LQ) (d p : Nat),
    q.rest = [] → Inv Vl m rank r prim true g d [] q.next p [] → AnOK g 1 →
    relLoopR fl m prim w f g q = relLoop m prim w f g q := by
  intro f
  induction f with
  | zero => intros; rfl
  | succ f ih =>
    intro g q d p hr h ha
    unfold relLoopR relLoop
    split
    · rfl
    · dsimp only
      rw [pull_round fl H w h ha]
      obtain ⟨w1, w2, w3⟩ := pull_inv H w hr h ha
      rw [w3, relNodes_round H K _ _ _ p rfl w1.shift w2]
      generalize hv : relNodes m prim (q.pull m w g).2.1 (q.pull m w g).1 ⟨[], []⟩ = v
      obtain ⟨g1, q1⟩ := v
      obtain ⟨x1, ⟨p', x2⟩, x3, x4⟩ := relNodes_inv H _ _ _ p rfl w1.shift w2 g1 q1 hv
      exact ih g1 q1 (d + 1) p' x1 x2 x3

theorem mergeLayerR_single (w : Nat) (g : G σ) (n : Nat) : mergeLayerR fl m w g [n] = (g, [n]) := by
  unfold mergeLayerR
  simp only [List.length_singleton]
  unfold mergeLoopR
  split
  · dsimp only
    have : mergeOneR fl m g n [] [] = (g, [], [n]) := by
      unfold mergeOneR
      split
      · simp [mergeFind]
      · simp
    rw [this]
    dsimp only
    unfold mergeLoopR
    split <;> simp
  · simp

theorem relTop_round (H : LayeredV Vl m rank r.st r.bound) (K : Fits fl m rank r.st r.bound C V L N) (w f : Nat) :
    relLoopR fl m prim w f (start2 m r) (LQ.enQueue (start2 m r) ⟨[], []⟩ (start2 m r).root) =
    relLoop m prim w f (start2 m r) (LQ.enQueue (start2 m r) ⟨[], []⟩ (start2 m r).root) := by
  obtain ⟨h1, h2, _⟩ := start2_inv (prim := prim) (rel := true) H
  rw [h1.root]
  cases f with
  | zero => rfl
  | succ f =>
    unfold relLoopR relLoop
    simp only [LQ.enQueue, List.isEmpty_cons, Bool.false_eq_true, false_and, if_false]
    have hp : LQ.pull m w (start2 m r) ⟨[0], []⟩ = (start2 m r, [0], ⟨[], []⟩) := by
      unfold LQ.pull
      have : relSort m (start2 m r) [0] = [0] := rfl
      rw [this, mergeLayer_single]
    have hpR : LQ.pullR fl m w (start2 m r) ⟨[0], []⟩ = (start2 m r, [0], ⟨[], []⟩) := by
      unfold LQ.pullR
      have : relSort m (start2 m r) [0] = [0] := rfl
      rw [this, mergeLayerR_single]
    rw [hp, hpR]
    dsimp only
    rw [relNodes_round H K _ _ _ 0 rfl h1 h2]
    generalize hv : relNodes m prim [0] (start2 m r) ⟨[], []⟩ = v
    obtain ⟨g1, q1⟩ := v
    obtain ⟨x1, ⟨p', x2⟩, x3, x4⟩ := relNodes_inv H _ _ _ 0 rfl h1 h2 g1 q1 hv
    exact relLoop_round H K w f g1 q1 0 p' x1 x2 x3

/-! ### The sink -/

theorem tightenLoop_round (g : G σ) : ∀ (es : List Nat) (cur : Int) (lb : List Int),
    (∀ e, e ∈ es → fl (g.bound (g.es e) + g.eo e) = g.bound (g.es e) + g.eo e) →
    tightenLoopR fl m g es cur lb = tightenLoop m g es cur lb := by
  intro es
  induction es with
  | nil => intros; rfl
  | cons e es ih =>
    intro cur lb h
    unfold tightenLoopR tightenLoop
    dsimp only
    rw [h e (by simp), ih _ _ (fun x hx => h x (by simp [hx])), ih _ _ (fun x hx => h x (by simp [hx]))]

theorem tighten_round (K : Fits fl m rank r.st r.bound C V L N) {g : G σ} (h : Fin Vl m rank r prim rel g) :
    tightenR fl m g g.trg = tighten m g g.trg := by
  obtain ⟨d, p, h⟩ := h
  unfold tightenR tighten
  dsimp only
  rw [h.trg, tightenLoop_round]
  intro e he
  have he := (h.par 1 e).1 he
  obtain ⟨h1, h2, _⟩ := h.esrc e he.1
  obtain ⟨h3, h4⟩ := h.estep e he.1
  have := K.val _ _ ((h.relx _ h1).step ⟨h2, h3, h.etrg e he.1 he.2⟩)
  rw [h4]
  exact K.fl _ (by omega)

/-! ### Backward bounds -/

/-- How many layers may follow a node. -/
def dep (m : Mdl σ) (rank : σ → Nat) (N : Nat) (g : G σ) (i : Nat) : Nat :=
  if m.eqs (g.st i) = true then 0 else N + 1 - rank (g.st i)

/-- Backward bounds of the nodes listed are the initial value plus at most one cost a layer. -/
def BBs (m : Mdl σ) (rank : σ → Nat) (C N : Nat) (g : G σ) : Prop :=
  ∀ i, i ∈ g.an → (g.bb i).natAbs ≤ 2147483647 + C * dep m rank N g i

/-- What the sweep needs of the arcs. -/
structure Arcs (m : Mdl σ) (rank : σ → Nat) (C N : Nat) (g : G σ) : Prop where
  dst : ∀ n e, e ∈ g.kids n → g.ed e ∈ g.an
  co : ∀ n e, e ∈ g.kids n → (g.eo e).natAbs ≤ C
  up : ∀ n e, e ∈ g.kids n → dep m rank N g (g.ed e) + 1 ≤ dep m rank N g n

theorem best0_abs (s : Sense) : s.best0.natAbs = 2147483647 := by cases s <;> rfl

theorem Arcs.sum {g : G σ} (h : Arcs m rank C N g) (hb : BBs m rank C N g) {n e : Nat} (he : e ∈ g.kids n) :
    (g.bb (g.ed e) + g.eo e).natAbs ≤ 2147483647 + C * dep m rank N g n := by
  have h1 := hb _ (h.dst n e he)
  have h2 := h.co n e he
  have h3 := Nat.mul_le_mul_left C (h.up n e he)
  rw [Nat.mul_add, Nat.mul_one] at h3
  omega

theorem dep_le (g : G σ) (n : Nat) : C * dep m rank N g n ≤ C * (N + 1) := by
  apply Nat.mul_le_mul_left
  unfold dep
  split <;> omega

theorem bestKid_round (K : Fits fl m rank r.st r.bound C V L N) {g : G σ} (h : Arcs m rank C N g) (hb : BBs m rank C N g) (n : Nat) :
    bestKidR fl m g n = bestKid m g n := by
  unfold bestKidR bestKid
  generalize (if (g.kids n).isEmpty = true then g.bb n else m.sense.best0) = x
  have : ∀ (l : List Nat) (x : Int), (∀ e, e ∈ l → e ∈ g.kids n) →
      l.foldl (fun cur e =>
        let ep := fl (g.bb (g.ed e) + g.eo e)
        if m.sense.better ep cur then ep else cur) x =
      l.foldl (fun cur e =>
        let ep := g.bb (g.ed e) + g.eo e
        if m.sense.better ep cur then ep else cur) x := by
    intro l
    induction l with
    | nil => intros; rfl
    | cons e l ih =>
      intro x hl
      have h1 := h.sum hb (hl e (by simp))
      have h2 := dep_le (m := m) (rank := rank) (C := C) (N := N) g n
      rw [List.foldl_cons, List.foldl_cons, K.fl (g.bb (g.ed e) + g.eo e) (by omega)]
      exact ih _ (fun x hx => hl x (by simp [hx]))
  exact this _ x (fun _ hx => hx)

theorem bestKid_small {g : G σ} (h : Arcs m rank C N g) (hb : BBs m rank C N g) {n : Nat} (hn : n ∈ g.an) :
    (bestKid m g n).natAbs ≤ 2147483647 + C * dep m rank N g n := by
  have := (kidLoop_spec (m := m) g (g.kids n) (if (g.kids n).isEmpty then g.bb n else m.sense.best0)).1
  have hbk : bestKid m g n = kidLoop m g (g.kids n) (if (g.kids n).isEmpty then g.bb n else m.sense.best0) := rfl
  rw [hbk]
  rcases this with a | ⟨e, b1, b2⟩
  · rw [a]
    split
    · exact hb n hn
    · rw [best0_abs]; omega
  · rw [b2]; exact h.sum hb b1

theorem cbbLoop_round (K : Fits fl m rank r.st r.bound C V L N) (nl : Nat → Option Nat) : ∀ (k : Nat) (h : DH) (g : G σ),
    Arcs m rank C N g → BBs m rank C N g →
    cbbLoopR fl m nl k h g = cbbLoop m nl k h g ∧ ∀ g', cbbLoop m nl k h g = some g' → BBs m rank C N g' := by
  intro k
  induction k with
  | zero => intro h g _ hb; exact ⟨rfl, fun g' hg => by simp [cbbLoop] at hg; subst hg; exact hb⟩
  | succ k ih =>
    intro h g ha hb
    unfold cbbLoopR cbbLoop
    dsimp only
    rw [bestKid_round K ha hb]
    generalize hn : (Heap.extractMax dord h).2.1 = n
    cases topoDec nl ((g.par n).map g.es) (Heap.extractMax dord h).1 with
    | none => exact ⟨rfl, by simp⟩
    | some h1 =>
      refine ih h1 _ ⟨ha.dst, ha.co, ha.up⟩ ?_
      intro i hi
      show (upd g.bb n (bestKid m g n) i).natAbs ≤ 2147483647 + C * dep m rank N g i
      rw [upd_apply]
      split
      · rename_i e; subst e; exact bestKid_small ha hb hi
      · exact hb i hi

theorem cbb_round (K : Fits fl m rank r.st r.bound C V L N) {g : G σ} (ha : Arcs m rank C N g) :
    computeBestBackwardR fl m g = computeBestBackward m g ∧
    ∀ g', computeBestBackward m g = some g' → BBs m rank C N g' := by
  unfold computeBestBackwardR computeBestBackward
  refine cbbLoop_round K _ _ _ _ ⟨ha.dst, ha.co, ha.up⟩ ?_
  intro i hi
  have hi : i ∈ g.an := hi
  show (if i ∈ g.an then (if i = g.trg then 0 else m.sense.best0) else g.bb i).natAbs ≤ _
  rw [if_pos hi]
  split
  · simp
  · rw [best0_abs]; omega

theorem fin_arcs (K : Fits fl m rank r.st r.bound C V L N) {g : G σ} (h : Fin Vl m rank r prim rel g) (ha : AnOK g 1) :
    Arcs m rank C N g := by
  obtain ⟨d, p, h⟩ := h
  refine ⟨?_, ?_, ?_⟩
  · intro n e he
    have he := (h.kids n e).1 he
    have := h.toStr.ed_lv he.1
    exact (ha.2 _).2 ⟨this.1, Or.inl this⟩
  · intro n e he
    have he := (h.kids n e).1 he
    obtain ⟨h1, h2, _⟩ := h.esrc e he.1
    obtain ⟨h3, h4⟩ := h.estep e he.1
    rw [h4]; exact K.cost _ _ _ (h.relx _ h1) h2 h3
  · intro n e he
    have he := (h.kids n e).1 he
    obtain ⟨h1, h2, _⟩ := h.esrc e he.1
    have h3 := K.rk _ _ (h.relx _ h1) h2
    unfold dep
    rw [← he.2, h2]
    simp only [Bool.false_eq_true, if_false]
    split
    · omega
    · rename_i hq
      have hq : m.eqs (g.st (g.ed e)) = false := by simpa using hq
      have h4 := K.rk _ _ (h.relx _ (h.toStr.ed_lv he.1)) hq
      rcases h.erank e he.1 with x | x
      · rw [hq] at x; simp at x
      · omega

/-! ### Whole compilations -/

theorem relaxed_round (H : LayeredV Vl m rank r.st r.bound) (K : Fits fl m rank r.st r.bound C V L N) (w f : Nat) :
    relaxedR fl m prim w f r = relaxed m prim w f r ∧
    ∀ g, relaxed m prim w f r = some g → ∀ i, i ∈ g.an → (g.bb i).natAbs ≤ 2147483647 + C * (N + 1) := by
  unfold relaxedR relaxed
  dsimp only
  rw [relTop_round H K w f]
  cases hl : relLoop m prim w f (start2 m r) (LQ.enQueue (start2 m r) ⟨[], []⟩ (start2 m r).root) with
  | none => exact ⟨rfl, by simp⟩
  | some g0 =>
    obtain ⟨hfin, ha⟩ := relaxed_inv H hl
    simp only [Option.bind_some]
    rw [tighten_round K hfin]
    have har := fin_arcs K hfin ha
    obtain ⟨a, b⟩ := cbb_round K (g := tighten m g0 g0.trg) ⟨har.dst, har.co, har.up⟩
    refine ⟨a, fun g hg i hi => ?_⟩
    have h1 := b g hg i hi
    have h2 := dep_le (m := m) (rank := rank) (C := C) (N := N) g i
    omega

theorem resLabels_round (H : LayeredV Vl m rank r.st r.bound) (K : Fits fl m rank r.st r.bound C V L N) (w : Nat) {d p : Nat} {A : List Nat} :
    ∀ (ls : List Int) (g : G σ) (q : List Nat),
      Inv Vl m rank r prim false g d A q p ls → Cur m rank r g d A q p → AnOK g 1 →
      (∀ l, l ∈ ls → l ∈ m.lgf (g.st p)) → resLabelsR fl m prim w p ls g q = resLabels m prim w p ls g q := by
  intro ls
  induction ls with
  | nil => intros; rfl
  | cons l ls ih =>
    intro g q h hc ha hl
    unfold resLabelsR resLabels
    rw [visit_round H K h hc (hl l (by simp))]
    generalize hv : visit m prim q g p l = v
    obtain ⟨g1, o⟩ := v
    obtain ⟨v1, v2, v3, v4, v5⟩ := visit_inv H h hc ha (hl l (by simp)) hv
    cases o with
    | none =>
      obtain ⟨i1, c1⟩ := v1 rfl
      exact ih g1 q i1 c1 v3 (fun x hx => by rw [v5]; exact hl x (by simp [hx]))
    | some c =>
      obtain ⟨hcB, i1, c1⟩ := v2 c rfl
      dsimp only
      split
      · rfl
      · exact ih g1 _ i1 c1 v3 (fun x hx => by rw [v5]; exact hl x (by simp [hx]))

theorem resNodes_round (H : LayeredV Vl m rank r.st r.bound) (K : Fits fl m rank r.st r.bound C V L N) (w : Nat) {d : Nat} :
    ∀ (ps : List Nat) (g : G σ) (q : List Nat) (p0 : Nat),
      Inv Vl m rank r prim false g d ps q p0 [] → AnOK g 1 →
      resNodesR fl m prim w ps g q = resNodes m prim w ps g q := by
  intro ps
  induction ps with
  | nil => intros; rfl
  | cons p ps ih =>
    intro g q p0 h ha
    unfold resNodesR resNodes
    obtain ⟨i1, c1⟩ := h.take
    rw [resLabels_round H K w _ g q i1 c1 ha (fun _ hx => hx)]
    generalize hv : resLabels m prim w p (m.lgf (g.st p)) g q = v
    obtain ⟨g1, q1, b⟩ := v
    obtain ⟨w1, w2, w3, w4⟩ := resLabels_inv H w _ g q i1 c1 ha (fun _ hx => hx) g1 q1 b hv
    cases b with
    | true => rfl
    | false => exact ih g1 q1 p w1 w2

theorem resLoop_round (H : LayeredV Vl m rank r.st r.bound) (K : Fits fl m rank r.st r.bound C V L N) (w : Nat) :
    ∀ (f : Nat) (g : G σ) (q : List Nat) (d p : Nat),
    Inv Vl m rank r prim false g d q [] p [] → AnOK g 1 →
    resLoopR fl m prim w f g q = resLoop m prim w f g q := by
  intro f
  induction f with
  | zero => intros; rfl
  | succ f ih =>
    intro g q d p h ha
    unfold resLoopR resLoop
    split
    · rfl
    · dsimp only
      obtain ⟨p1, p2⟩ := resPull (m := m) g d q (fun i hi => (h.Am i hi).2.2.1)
      rw [p2]
      have h1 := h.perm (p1.nodup_iff.2 h.An) (by simp) (fun i => p1.mem_iff) (fun i => Iff.rfl)
      rw [resNodes_round H K w _ _ _ p h1 ha]
      generalize hv : resNodes m prim w (pullLayer m g q).1 g [] = v
      obtain ⟨g1, q1⟩ := v
      obtain ⟨⟨p', x2⟩, x3⟩ := resNodes_inv H w _ _ _ p h1 ha g1 q1 hv
      exact ih g1 q1 (d + 1) p' x2.shift x3

theorem restricted_round (H : LayeredV Vl m rank r.st r.bound) (K : Fits fl m rank r.st r.bound C V L N) (w f : Nat) :
    restrictedR fl m prim w f r = restricted m prim w f r := by
  unfold restrictedR restricted
  dsimp only
  have e : resLoopR fl m prim w f (start2 m r) [(start2 m r).root] = resLoop m prim w f (start2 m r) [(start2 m r).root] := by
    obtain ⟨h1, h2, _⟩ := start2_inv (prim := prim) (rel := false) H
    rw [h1.root]
    exact resLoop_round H K w f _ _ 0 0 h1 h2
  rw [e]
  cases hl : resLoop m prim w f (start2 m r) [(start2 m r).root] with
  | none => rfl
  | some g0 =>
    obtain ⟨hfin, _⟩ := restricted_inv H hl
    simp only [Option.map_some, tighten_round K hfin]

end Verif.DD
