import Verif.Compile
import Verif.Exact
/-!
# Layer widths
-/
namespace Verif.DD
set_option linter.unusedSectionVars false
variable {σ : Type} {Vl : σ → Int → Prop} {m : Mdl σ} {rank : σ → Nat} {r : Src σ} {prim : Int} [DecidableEq σ]

/-- Layers are ranks counted from the root's. -/
def Flat (m : Mdl σ) (rank : σ → Nat) (r : Src σ) (g : G σ) : Prop :=
  ∀ i, i < g.nn → m.eqs (g.st i) = false → rank r.st + g.layer i = rank (g.st i)

theorem addArcNode_keep (g : G σ) (e n : Nat) : (addArcNode g e n).layer = g.layer ∧ (addArcNode g e n).st = g.st ∧
    (addArcNode g e n).nn = g.nn := by
  unfold addArcNode
  split
  · exact ⟨rfl, rfl, rfl⟩
  · split <;> exact ⟨rfl, rfl, rfl⟩

theorem addArc_keep (g : G σ) (e : Nat) : (addArc g e).layer = g.layer ∧ (addArc g e).st = g.st ∧ (addArc g e).nn = g.nn := by
  unfold addArc
  obtain ⟨a, b, c⟩ := addArcNode_keep (addArcNode g e (g.es e)) e ((addArcNode g e (g.es e)).ed e)
  obtain ⟨a', b', c'⟩ := addArcNode_keep g e (g.es e)
  exact ⟨a.trans a', b.trans b', c.trans c'⟩

theorem foldl_keep (F : G σ → Nat → G σ) (hF : ∀ g e, (F g e).layer = g.layer ∧ (F g e).st = g.st ∧ (F g e).nn = g.nn) :
    ∀ (es : List Nat) (g : G σ), (es.foldl F g).layer = g.layer ∧ (es.foldl F g).st = g.st ∧ (es.foldl F g).nn = g.nn := by
  intro es
  induction es with
  | nil => intro g; exact ⟨rfl, rfl, rfl⟩
  | cons e es ih =>
    intro g
    obtain ⟨a, b, c⟩ := ih (F g e)
    obtain ⟨a', b', c'⟩ := hF g e
    exact ⟨a.trans a', b.trans b', c.trans c'⟩

theorem transferArcs_keep (g : G σ) (d t : Nat) :
    (transferArcs g d t).layer = g.layer ∧ (transferArcs g d t).st = g.st ∧ (transferArcs g d t).nn = g.nn := by
  unfold transferArcs
  dsimp only
  generalize h1 : (g.par d).foldl (fun g e => addArc { g with ed := upd g.ed e t } e) g = g1
  have k1 := foldl_keep (fun (g : G σ) e => addArc { g with ed := upd g.ed e t } e)
    (fun g e => addArc_keep { g with ed := upd g.ed e t } e) (g.par d) g
  rw [h1] at k1
  generalize h2 : (g1.kids d).foldl (fun g e => addArc { g with es := upd g.es e t } e) g1 = g2
  have k2 := foldl_keep (fun (g : G σ) e => addArc { g with es := upd g.es e t } e)
    (fun g e => addArc_keep { g with es := upd g.es e t } e) (g1.kids d) g1
  rw [h2] at k2
  unfold disconnect
  dsimp only
  generalize h3 : (g2.par d).foldl unlinkKid g2 = g3
  have k3 := foldl_keep unlinkKid (fun g e => ⟨rfl, rfl, rfl⟩) (g2.par d) g2
  rw [h3] at k3
  have k4 := foldl_keep unlinkPar (fun g e => ⟨rfl, rfl, rfl⟩) (g3.kids d) { g3 with par := upd g3.par d [] }
  refine ⟨k4.1.trans ?_, k4.2.1.trans ?_, k4.2.2.trans ?_⟩
  · exact k3.1.trans (k2.1.trans k1.1)
  · exact k3.2.1.trans (k2.2.1.trans k1.2.1)
  · exact k3.2.2.trans (k2.2.2.trans k1.2.2)

theorem absorb_keep (g : G σ) (d t : Nat) :
    (absorb g d t).layer = g.layer ∧ (absorb g d t).st = g.st ∧ (absorb g d t).nn = g.nn := by
  unfold absorb
  split
  · exact transferArcs_keep g d t
  · exact ⟨rfl, rfl, rfl⟩

/-- Layer array after `mergePair`. -/
theorem mergePair_layer (g : G σ) (mn a b : Nat) :
    (mergePair g mn a b).1.st = g.st ∧ (mergePair g mn a b).1.nn = g.nn ∧
    (mergePair g mn a b).1.layer =
      upd (if (g.par mn).isEmpty then upd g.layer mn (g.layer a) else g.layer) mn
        (max ((if (g.par mn).isEmpty then upd g.layer mn (g.layer a) else g.layer) mn)
             ((if (g.par mn).isEmpty then upd g.layer mn (g.layer a) else g.layer) a)) := by
  unfold mergePair
  dsimp only
  generalize (if (g.par mn).isEmpty then upd g.layer mn (g.layer a) else g.layer) = ly
  have h1 := absorb_keep ({ g with
    layer := upd ly mn (max (ly mn) (ly a)), ex := upd g.ex mn false, exact := false } : G σ) a mn
  generalize hg : absorb ({ g with
    layer := upd ly mn (max (ly mn) (ly a)), ex := upd g.ex mn false, exact := false } : G σ) a mn = g1 at h1
  have h2 := absorb_keep g1 b mn
  exact ⟨h2.2.1.trans h1.2.1, h2.2.2.trans h1.2.2, h2.1.trans h1.1⟩

/-- What `merge` does to states and layers. -/
theorem merge_layer {g g' : G σ} {f s mn : Nat} (hS : Str g) (h : merge m g f s = (g', some mn)) :
    ∃ c, m.smf (g.st f) (g.st s) = some c ∧ g'.st mn = c ∧
      (∀ i, i < g'.nn → i ≠ mn → i < g.nn ∧ g'.st i = g.st i ∧ g'.layer i = g.layer i) ∧
      ((mn < g.nn ∧ g.st mn = c ∧ g'.layer mn = g.layer mn ∧ g'.par mn = g.par mn) ∨ (mn = g.nn ∧ g'.par mn = [])) ∧
      (∀ i, i < g.nn → g'.layer i = g.layer i) := by
  unfold merge at h
  cases hc : m.smf (g.st f) (g.st s) with
  | none => rw [hc] at h; simp at h
  | some c =>
    rw [hc] at h
    dsimp only at h
    split at h
    · simp at h
    · refine ⟨c, rfl, ?_⟩
      simp only [Prod.mk.injEq, Option.some.injEq] at h
      obtain ⟨h1, h2⟩ := h
      have key : g'.st = (makeNode m g c true).1.st ∧ g'.layer = (makeNode m g c true).1.layer ∧
          g'.nn = (makeNode m g c true).1.nn ∧ g'.par = (makeNode m g c true).1.par := by
        rw [← h1]
        split <;> split <;> exact ⟨rfl, rfl, rfl, rfl⟩
      obtain ⟨k1, k2, k3, k4⟩ := key
      rcases makeNode_casesEq m hS c true with ⟨a, a1, a2, a3, a4⟩ | ⟨a, a1, a2, a3, a4, a5, a6⟩ | ⟨a1, a2⟩
      · rw [a4] at k1 k2 k3 k4 h2
        dsimp only at k1 k2 k3 k4 h2
        subst h2
        rw [k1, k2, k3, k4]
        exact ⟨a2, fun i hi _ => ⟨hi, rfl, rfl⟩, Or.inl ⟨a1, a2, rfl, rfl⟩, fun i _ => rfl⟩
      · rw [a6] at k1 k2 k3 k4 h2
        dsimp only at k1 k2 k3 k4 h2
        subst h2
        rw [k1, k2, k3, k4]
        exact ⟨a2, fun i hi _ => ⟨hi, rfl, rfl⟩, Or.inl ⟨a1, a2, rfl, rfl⟩, fun i _ => rfl⟩
      · rw [a2] at k1 k2 k3 k4 h2
        dsimp only at k1 k2 k3 k4 h2
        subst h2
        rw [k1, k2, k3, k4]
        refine ⟨by simp, fun i hi hne => ⟨by omega, upd_ne _ _ hne, upd_ne _ _ hne⟩, Or.inr ⟨rfl, hS.par_ge (Nat.le_refl _)⟩,
          fun i hi => upd_ne _ _ (by omega)⟩

/-- Merging keeps layers equal to ranks. -/
theorem mergePair_flat {g g' : G σ} {d : Nat} {B : List Nat} {p n1 n2 mn : Nat} (H : LayeredV Vl m rank r.st r.bound)
    (h : Inv Vl m rank r prim true g d [] B p []) (hn1 : n1 ∈ B) (hn2 : n2 ∈ B)
    (hF : Flat m rank r g) (hm : merge m g n1 n2 = (g', some mn)) : Flat m rank r (mergePair g' mn n1 n2).1 := by
  obtain ⟨c, q1, q2, q3, q4, q5⟩ := merge_layer h.toStr hm
  obtain ⟨p1, p2, p3⟩ := mergePair_layer g' mn n1 n2
  obtain ⟨l1, e1, y1, r1⟩ := h.Bm n1 hn1
  obtain ⟨l2, e2, y2, r2⟩ := h.Bm n2 hn2
  obtain ⟨mq, mr, _, _⟩ := H.merge _ _ _ _ _ (h.relx n1 l1) (h.relx n2 l2) e1 e2 (by omega) q1
  have hy1 : g'.layer n1 = d + 1 := by rw [q5 n1 l1.1]; exact y1
  intro i hi hq
  rw [p1] at hq ⊢
  rw [p2] at hi
  rw [p3]
  by_cases him : i = mn
  · subst him
    rw [upd_same, q2, mr, r1]
    by_cases hp : (g'.par i).isEmpty = true
    · simp only [hp, if_true, upd_same]
      have : upd g'.layer i (g'.layer n1) n1 = g'.layer n1 := by
        by_cases hh : n1 = i
        · rw [← hh, upd_same]
        · exact upd_ne _ _ hh
      rw [this, hy1]; omega
    · rw [if_neg hp]
      rcases q4 with ⟨a1, a2, a3, a4⟩ | ⟨_, a2⟩
      · have := hF i a1 (by rw [a2]; exact mq)
        rw [a2, mr, r1] at this
        rw [hy1, a3]
        omega
      · rw [a2] at hp; simp at hp
  · obtain ⟨a1, a2, a3⟩ := q3 i hi him
    have hl : upd (if (g'.par mn).isEmpty then upd g'.layer mn (g'.layer n1) else g'.layer) mn
        (max ((if (g'.par mn).isEmpty then upd g'.layer mn (g'.layer n1) else g'.layer) mn)
             ((if (g'.par mn).isEmpty then upd g'.layer mn (g'.layer n1) else g'.layer) n1)) i = g.layer i := by
      rw [upd_ne _ _ him]
      split
      · rw [upd_ne _ _ him, a3]
      · exact a3
    rw [hl, a2]
    rw [a2] at hq
    exact hF i a1 hq

theorem adjustBounds_keep (m : Mdl σ) : ∀ (f : Nat) (g : G σ) (n : Nat),
    (adjustBounds m f g n).layer = g.layer ∧ (adjustBounds m f g n).st = g.st ∧ (adjustBounds m f g n).nn = g.nn := by
  intro f
  induction f with
  | zero => intro g n; exact ⟨rfl, rfl, rfl⟩
  | succ f ih =>
    intro g n
    unfold adjustBounds
    refine foldl_keep _ ?_ (g.kids n) g
    intro g e
    dsimp only
    split
    · exact ih _ _
    · exact ⟨rfl, rfl, rfl⟩

theorem mergeOne_flat {g : G σ} {d : Nat} {p n1 : Nat} {rest skip : List Nat} (H : LayeredV Vl m rank r.st r.bound)
    (h : Inv Vl m rank r prim true g d [] (skip ++ n1 :: rest) p []) (hF : Flat m rank r g) :
    Flat m rank r (mergeOne m g n1 rest skip).1 := by
  unfold mergeOne
  split
  · split
    · rename_i g1 mn n2 rest1 hmf
      obtain ⟨u, v, hu, hr1, hmg⟩ := mergeFind_some hmf
      have := mergePair_flat (n2 := n2) H h (by simp) (by simp [hu]) hF hmg
      split
      · rename_i g2 hg2
        rw [hg2] at this
        obtain ⟨a, b, c⟩ := adjustBounds_keep m g2.nn g2 mn
        intro i hi hq
        dsimp only at hi hq ⊢
        rw [c] at hi
        rw [b] at hq ⊢
        rw [a]
        exact this i hi hq
      · rename_i g2 hg2; rw [hg2] at this; exact this
      · rename_i g2 hg2; rw [hg2] at this; exact this
    · exact hF
  · exact hF

theorem pairwise_ne {α κ : Type} {f : α → κ} {l : List α} (h : l.Pairwise fun i j => f i ≠ f j) {x y : α} (hx : x ∈ l) (hy : y ∈ l)
    (hxy : x ≠ y) : f x ≠ f y := by
  induction l with
  | nil => simp at hx
  | cons a l ih =>
    rw [List.pairwise_cons] at h
    rcases List.mem_cons.1 hx with e | e
    · rcases List.mem_cons.1 hy with e' | e'
      · exact absurd (e.trans e'.symm) hxy
      · rw [e]; exact h.1 y e'
    · rcases List.mem_cons.1 hy with e' | e'
      · rw [e']; exact fun hh => h.1 x e hh.symm
      · exact ih h.2 e e'

theorem pairwise_len {α κ : Type} {f : α → κ} {l : List α} {k : List κ} (h : l.Pairwise fun i j => f i ≠ f j) (hk : ∀ x ∈ l, f x ∈ k) :
    l.length ≤ k.length := by
  have := Classical.typeDecidableEq κ
  refine nodup_inj_le f (h.imp fun hab e => hab (by rw [e])) (fun x y hx hy e => ?_) hk
  have := Classical.propDecidable (x = y)
  by_cases hxy : x = y
  · exact hxy
  · exact absurd e (pairwise_ne h hx hy hxy)

/-- Open states of one rank fall into classes: two of one class merge, into a state of that class, and two of
different classes do not. -/
def Sorts {κ : Type} (m : Mdl σ) (rank : σ → Nat) (s0 : σ) (v0 : Int) (cls : σ → κ) : Prop :=
  ∀ a b va vb, Relx m rank s0 v0 a va → Relx m rank s0 v0 b vb → m.eqs a = false → m.eqs b = false → rank a = rank b → a ≠ b →
    (cls a = cls b → m.smf a b ≠ none) ∧ ∀ c, m.smf a b = some c → cls a = cls b ∧ cls c = cls a

theorem mergeFind_fails {g : G σ} {n1 : Nat} : ∀ {l pre : List Nat}, mergeFind m g n1 pre l = none →
    ∀ n2 ∈ l, (g.kids n2).isEmpty = true → g.layer n1 = g.layer n2 → (merge m g n1 n2).2 = none := by
  intro l
  induction l with
  | nil => intro pre _ n2 h; simp at h
  | cons x l ih =>
    intro pre h n2 hn2 hk hl
    unfold mergeFind at h
    by_cases hc : (g.kids x).isEmpty = true ∧ g.layer n1 = g.layer x
    · rw [if_pos hc] at h
      generalize hm : merge m g n1 x = q at h
      obtain ⟨g1, o⟩ := q
      cases o with
      | some mn => simp at h
      | none =>
        dsimp only at h
        rcases List.mem_cons.1 hn2 with e | e
        · rw [e, hm]
        · exact ih h n2 e hk hl
    · rw [if_neg hc] at h
      rcases List.mem_cons.1 hn2 with e | e
      · rw [e] at hk hl; exact absurd ⟨hk, hl⟩ hc
      · exact ih h n2 e hk hl

/-- The layer keeps no two skipped nodes of one class, nor a skipped one and a waiting one. -/
def Apart {κ : Type} (cls : σ → κ) (g : G σ) (skip layer : List Nat) : Prop :=
  skip.Pairwise (fun i j => cls (g.st i) ≠ cls (g.st j)) ∧ ∀ i ∈ skip, ∀ j ∈ layer, cls (g.st i) ≠ cls (g.st j)

theorem mergeOne_apart {κ : Type} {cls : σ → κ} {g : G σ} {d : Nat} {p n1 : Nat} {rest skip : List Nat} (H : LayeredV Vl m rank r.st r.bound)
    (hT : Sorts m rank r.st r.bound cls) (h : Inv Vl m rank r prim true g d [] (skip ++ n1 :: rest) p []) (hF : Flat m rank r g)
    (hA : Apart cls g skip (n1 :: rest)) :
    Apart cls (mergeOne m g n1 rest skip).1 (mergeOne m g n1 rest skip).2.2 (mergeOne m g n1 rest skip).2.1 := by
  obtain ⟨l1, e1, y1, r1⟩ := h.Bm n1 (by simp)
  have hk : ∀ i, i ∈ skip ++ n1 :: rest → (g.kids i).isEmpty = true := by
    intro i hi
    rw [List.isEmpty_iff, List.eq_nil_iff_forall_not_mem]
    intro e he
    obtain ⟨a, b⟩ := (h.kids i e).1 he
    exact (h.esrc e a).2.2.2 (b ▸ hi)
  have hne : ∀ n2, n2 ∈ rest → g.st n1 ≠ g.st n2 := by
    intro n2 hn2 hh
    obtain ⟨l2, _⟩ := h.Bm n2 (by simp [hn2])
    have := h.injEq _ _ l1.1 l2.1 hh
    have hnd := h.Bn
    rw [List.nodup_append, List.nodup_cons] at hnd
    exact hnd.2.1.1 (this ▸ hn2)
  unfold mergeOne
  rw [if_pos (hk n1 (by simp))]
  cases hmf : mergeFind m g n1 [] rest with
  | none =>
    dsimp only
    have hno : ∀ n2 ∈ rest, cls (g.st n1) ≠ cls (g.st n2) := by
      intro n2 hn2 hcl
      obtain ⟨l2, e2, y2, r2⟩ := h.Bm n2 (by simp [hn2])
      have hf := mergeFind_fails hmf n2 hn2 (hk n2 (by simp [hn2])) (by omega)
      have hs := (hT _ _ _ _ (h.relx n1 l1) (h.relx n2 l2) e1 e2 (by omega) (hne n2 hn2)).1 hcl
      cases hc : m.smf (g.st n1) (g.st n2) with
      | none => exact hs hc
      | some c =>
        obtain ⟨mq, mr, _, _⟩ := H.merge _ _ _ _ _ (h.relx n1 l1) (h.relx n2 l2) e1 e2 (by omega) hc
        have hlow : mergeLow g c n1 n2 = false := by
          unfold mergeLow
          cases hf : findNode g c with
          | none => rfl
          | some a =>
            obtain ⟨a1, a2⟩ := findNode_someEq hf
            have := hF a a1 (by rw [a2]; exact mq)
            rw [a2] at this
            simp; omega
        have hsome : (merge m g n1 n2).2 = some (makeNode m g c true).2 := by
          unfold merge
          rw [hc]
          simp only [hlow, Bool.false_eq_true, if_false]
        rw [hsome] at hf
        simp at hf
    refine ⟨?_, ?_⟩
    · rw [List.pairwise_append]
      exact ⟨hA.1, by simp, fun i hi j hj => by simp at hj; rw [hj]; exact hA.2 i hi n1 (by simp)⟩
    · intro i hi j hj
      rw [List.mem_append, List.mem_singleton] at hi
      rcases hi with hi | hi
      · exact hA.2 i hi j (by simp [hj])
      · rw [hi]; exact hno j hj
  | some q =>
    obtain ⟨g1, mn, n2, rest1⟩ := q
    obtain ⟨u, v, hu, hr1, hmg⟩ := mergeFind_some hmf
    obtain ⟨c, q1, q2, q3, q4, q5⟩ := merge_layer h.toStr hmg
    have hn2 : n2 ∈ rest := by simp [hu]
    obtain ⟨l2, e2, y2, r2⟩ := h.Bm n2 (by simp [hn2])
    obtain ⟨_, hcl⟩ := (hT _ _ _ _ (h.relx n1 l1) (h.relx n2 l2) e1 e2 (by omega) (hne n2 hn2)).2 c q1
    obtain ⟨p1, p2, _⟩ := mergePair_layer g1 mn n1 n2
    have hgrow : g.nn ≤ g1.nn := by
      obtain ⟨cst, gg, _, hmk, vv, b, L, x, hg, _⟩ := merge_some hmg
      rw [hg]
      rcases makeNode_casesEq m h.toStr cst true with ⟨a, a1, a2, a3, a4⟩ | ⟨a, a1, a2, a3, a4, a5, a6⟩ | ⟨a1, a2⟩
      · rw [a4] at hmk; injection hmk with hmk; rw [← hmk]; exact Nat.le_refl _
      · rw [a6] at hmk; injection hmk with hmk; rw [← hmk]; exact Nat.le_refl _
      · rw [a2] at hmk; injection hmk with hmk; rw [← hmk]; exact Nat.le_succ _
    have hst : ∀ i, i ∈ skip ++ n1 :: rest → g1.st i = g.st i := by
      intro i hi
      have hin := (h.Bm i hi).1.1
      by_cases him : i = mn
      · rcases q4 with ⟨_, a2, _⟩ | ⟨a1, _⟩
        · rw [him, q2, a2]
        · omega
      · exact (q3 i (by omega) him).2.1
    have key : ∀ rest', (∀ j ∈ rest', j = mn ∨ j ∈ rest1) → ∀ g2 : G σ, g2.st = g1.st → Apart cls g2 skip rest' := by
      intro rest' hr' g2 hg2
      refine ⟨?_, ?_⟩
      · refine hA.1.imp_of_mem ?_
        intro i j hi hj hij
        rw [hg2, hst i (by simp [hi]), hst j (by simp [hj])]; exact hij
      · intro i hi j hj
        rw [hg2, hst i (by simp [hi])]
        rcases hr' j hj with e | e
        · rw [e, q2, hcl]; exact hA.2 i hi n1 (by simp)
        · have hjr : j ∈ rest := by
            rw [hr1] at e; rw [hu]
            simp at e ⊢
            rcases e with e | e
            · exact .inl e
            · exact .inr (.inr e)
          rw [hst j (by simp [hjr])]
          exact hA.2 i hi j (by simp [hjr])
    dsimp only
    generalize hmp : mergePair g1 mn n1 n2 = q at p1
    obtain ⟨g2, act⟩ := q
    cases act with
    | delay => exact key _ (fun j hj => .inr hj) _ ((adjustBounds_keep m g2.nn g2 mn).2.1.trans p1)
    | inFront => exact key _ (fun j hj => by simpa using hj) _ p1
    | noop => exact key _ (fun j hj => .inr hj) _ p1

/-- The layer is within the width, or no two of its nodes could still be merged. -/
theorem mergeLoop_width {κ : Type} {cls : σ → κ} {d p : Nat} (w : Nat) (H : LayeredV Vl m rank r.st r.bound)
    (hT : Sorts m rank r.st r.bound cls) : ∀ (f : Nat) (g : G σ) (layer skip : List Nat),
    layer.length < f → Inv Vl m rank r prim true g d [] (skip ++ layer) p [] → AnOK g 1 → Flat m rank r g → Apart cls g skip layer →
    ((mergeLoop m w f g layer skip).2.length ≤ w ∨
      (mergeLoop m w f g layer skip).2.Pairwise fun i j => cls ((mergeLoop m w f g layer skip).1.st i) ≠ cls ((mergeLoop m w f g layer skip).1.st j)) ∧
    Flat m rank r (mergeLoop m w f g layer skip).1 := by
  intro f
  induction f with
  | zero => intro g layer skip hf; omega
  | succ f ih =>
    intro g layer skip hf h ha hF hA
    by_cases hc : skip.length + layer.length > w
    · cases layer with
      | nil =>
        have : mergeLoop m w (f + 1) g [] skip = (g, skip) := by rw [mergeLoop, if_pos hc]
        rw [this]
        exact ⟨.inr hA.1, hF⟩
      | cons n1 rest =>
        have he : mergeLoop m w (f + 1) g (n1 :: rest) skip =
            mergeLoop m w f (mergeOne m g n1 rest skip).1 (mergeOne m g n1 rest skip).2.1 (mergeOne m g n1 rest skip).2.2 := by
          rw [mergeLoop, if_pos hc]
        rw [he]
        have hap := mergeOne_apart H hT h hF hA
        have hfl := mergeOne_flat H h hF
        generalize ho : mergeOne m g n1 rest skip = q at hap hfl
        obtain ⟨g', rest', skip'⟩ := q
        obtain ⟨w1, w2, w3, w4⟩ := mergeOne_inv H h ha ho
        dsimp only at hap hfl ⊢
        have hlen : rest'.length < f := by
          simp at hf; omega
        exact ih g' rest' skip' hlen w1 w2 hfl hap
    · have he : mergeLoop m w (f + 1) g layer skip = (g, skip ++ layer) := by unfold mergeLoop; rw [if_neg hc]
      rw [he]
      exact ⟨.inl (by simp; omega), hF⟩

/-! ### Expansion keeps layers equal to ranks, without dominance -/

theorem visit_flat (hd : m.sdom = none) {g g' : G σ} {d : Nat} {A B cands : List Nat} {p : Nat} {l : Int} {rem : List Int} {rel : Bool} {o : Option Nat}
    (H : LayeredV Vl m rank r.st r.bound) (h : Inv Vl m rank r prim rel g d A B p rem) (hp : Cur m rank r g d A B p)
    (hl : l ∈ m.lgf (g.st p)) (hF : Flat m rank r g) (hv : visit m prim cands g p l = (g', o)) : Flat m rank r g' := by
  rcases transition_cases m prim g p l with ⟨h1, h2⟩ | ⟨s', f, h1, hf, hb, h2⟩ | ⟨s', x, h1, hb, h2⟩
  · unfold DD.visit at hv
    rw [h2] at hv; simp at hv; obtain ⟨rfl, rfl⟩ := hv; exact hF
  · unfold DD.visit at hv
    rw [h2] at hv; simp at hv; obtain ⟨rfl, rfl⟩ := hv; exact hF
  · have hdn : ∀ (g1 : G σ) c v, findDom m g1 cands c v = none := by
      intro g1 c v; unfold findDom; rw [hd]
    have := visit_none (cands := cands) h2 (by rw [hdn]; simp)
    rw [this] at hv
    simp only [Prod.mk.injEq] at hv
    obtain ⟨hv, _⟩ := hv
    have hstep : Step m (g.st p) l s' := ⟨hp.ne, hl, h1⟩
    have hrk := H.step _ _ _ _ (h.relx p hp.lv) hstep
    generalize hg1 : ({ (makeNode m g s' (g.ex p)).1 with bb := x } : G σ) = g1 at hv
    generalize hcc : (makeNode m g s' (g.ex p)).2 = c at hv
    -- layer of the link
    have hlay : g'.layer = upd g1.layer c (max (g1.layer c) (g1.layer p + 1)) ∧ g'.st = g1.st ∧ g'.nn = g1.nn := by
      rw [← hv]
      refine ⟨?_, (link_fields g1 p c l).1, (link_fields g1 p c l).2.1⟩
      unfold link
      dsimp only
      have ha : (addEdge g1 p c l (m.stc (g1.st p) l)).layer = g1.layer := (addArc_keep _ _).1
      split <;> simp only [ha]
    obtain ⟨y1, y2, y3⟩ := hlay
    have hcase : g1.st c = s' ∧ (∀ i, i < g1.nn → i ≠ c → i < g.nn ∧ g1.st i = g.st i ∧ g1.layer i = g.layer i) ∧
        ((c < g.nn ∧ g.st c = s' ∧ g1.layer c = g.layer c) ∨ (c = g.nn ∧ g1.layer c = 0)) ∧
        (∀ i, i < g.nn → g1.layer i = g.layer i) := by
      rcases makeNode_casesEq m h.toStr s' (g.ex p) with ⟨a, a1, a2, a3, a4⟩ | ⟨a, a1, a2, a3, a4, a5, a6⟩ | ⟨a1, a2⟩
      · rw [a4] at hg1 hcc
        dsimp only at hg1 hcc
        subst hcc; rw [← hg1]
        exact ⟨a2, fun i hi _ => ⟨hi, rfl, rfl⟩, Or.inl ⟨a1, a2, rfl⟩, fun i _ => rfl⟩
      · rw [a6] at hg1 hcc
        dsimp only at hg1 hcc
        subst hcc; rw [← hg1]
        exact ⟨a2, fun i hi _ => ⟨hi, rfl, rfl⟩, Or.inl ⟨a1, a2, rfl⟩, fun i _ => rfl⟩
      · rw [a2] at hg1 hcc
        dsimp only at hg1 hcc
        subst hcc; rw [← hg1]
        refine ⟨by simp, fun i hi hne => ⟨?_, upd_ne _ _ hne, upd_ne _ _ hne⟩, Or.inr ⟨rfl, by simp⟩,
          fun i hi => upd_ne _ _ (by omega)⟩
        dsimp only at hi; omega
    obtain ⟨c1, c2, c3, c4⟩ := hcase
    intro i hi hq
    rw [y2] at hq ⊢
    rw [y3] at hi
    rw [y1]
    by_cases hic : i = c
    · subst hic
      rw [c1] at hq
      rw [upd_same, c1, c4 p hp.lv.1, hp.ly]
      have hr := hrk.resolve_left (by simp [hq])
      rw [hr, hp.rk]
      rcases c3 with ⟨x1, x2, x3⟩ | ⟨x1, x2⟩
      · have := hF i x1 (by rw [x2]; exact hq)
        rw [x2, hr, hp.rk] at this
        rw [x3]; omega
      · rw [x2]; omega
    · obtain ⟨z1, z2, z3⟩ := c2 i hi hic
      rw [upd_ne _ _ hic, z3, z2]
      rw [z2] at hq
      exact hF i z1 hq

theorem relLabels_flat (hd : m.sdom = none) (H : LayeredV Vl m rank r.st r.bound) {d p : Nat} {A : List Nat} :
    ∀ (ls : List Int) (g : G σ) (q : LQ), q.rest = [] →
      Inv Vl m rank r prim true g d A q.next p ls → Cur m rank r g d A q.next p → AnOK g 1 →
      (∀ l, l ∈ ls → l ∈ m.lgf (g.st p)) → Flat m rank r g → Flat m rank r (relLabels m prim p ls g q).1 := by
  intro ls
  induction ls with
  | nil => intro g q _ _ _ _ _ hF; exact hF
  | cons l ls ih =>
    intro g q hr h hc ha hl hF
    unfold relLabels
    generalize hv : visit m prim q.next g p l = v
    obtain ⟨g1, o⟩ := v
    obtain ⟨v1, v2, v3, v4, v5⟩ := visit_inv H h hc ha (hl l (by simp)) hv
    have hF1 := visit_flat hd H h hc (hl l (by simp)) hF hv
    cases o with
    | none =>
      obtain ⟨i1, c1⟩ := v1 rfl
      exact ih g1 q hr i1 c1 v3 (fun x hx => by rw [v5]; exact hl x (by simp [hx])) hF1
    | some c =>
      obtain ⟨hcB, i1, c1⟩ := v2 c rfl
      dsimp only
      have hly : ∀ i, i ∈ q.next ++ [c] → g1.layer i = d + 1 := fun i hi => (i1.Bm i hi).2.2.1
      have hq : (q.enQueue g1 c).rest = [] ∧ List.Perm (q.enQueue g1 c).next (q.next ++ [c]) := by
        unfold LQ.enQueue
        cases hn : q.next with
        | nil => exact ⟨hr, by simp⟩
        | cons a as =>
          dsimp only
          rw [if_pos (by rw [hly a (by simp [hn]), hly c (by simp)])]
          exact ⟨hr, List.perm_append_comm (l₁ := [c]) (l₂ := a :: as)⟩
      have i2 := i1.perm (A' := A) i1.An (hq.2.nodup_iff.2 i1.Bn) (fun _ => Iff.rfl) (fun i => hq.2.mem_iff)
      have c2 : Cur m rank r g1 d A (q.enQueue g1 c).next p := { c1 with nB := fun hh => c1.nB (hq.2.mem_iff.1 hh) }
      exact ih g1 _ hq.1 i2 c2 v3 (fun x hx => by rw [v5]; exact hl x (by simp [hx])) hF1

theorem relNodes_flat (hd : m.sdom = none) (H : LayeredV Vl m rank r.st r.bound) {d : Nat} :
    ∀ (ps : List Nat) (g : G σ) (q : LQ) (p0 : Nat), q.rest = [] →
      Inv Vl m rank r prim true g d ps q.next p0 [] → AnOK g 1 → Flat m rank r g →
      Flat m rank r (relNodes m prim ps g q).1 := by
  intro ps
  induction ps with
  | nil => intro g q _ _ _ _ hF; exact hF
  | cons p ps ih =>
    intro g q p0 hr h ha hF
    unfold relNodes
    dsimp only
    obtain ⟨i1, c1⟩ := h.take
    have hF1 := relLabels_flat hd H (m.lgf (g.st p)) g q hr i1 c1 ha (fun _ hx => hx) hF
    generalize hv : relLabels m prim p (m.lgf (g.st p)) g q = v at hF1
    obtain ⟨g1, q1⟩ := v
    obtain ⟨x1, x2, x3, _⟩ := relLabels_inv H _ g q hr i1 c1 ha (fun _ hx => hx) g1 q1 hv
    exact ih g1 q1 p x1 x2 x3 hF1


/-! ### The node list changes only at the layer being built -/

/-- Nodes of rank at most `K` in the node list of `g'` were in that of `g`. -/
def Keep (m : Mdl σ) (rank : σ → Nat) (K : Nat) (g g' : G σ) : Prop :=
  ∀ i, i ∈ g'.an → m.eqs (g'.st i) = false → rank (g'.st i) ≤ K → i ∈ g.an ∧ g.st i = g'.st i

theorem Keep.refl (K : Nat) (g : G σ) : Keep m rank K g g := fun _ h _ _ => ⟨h, rfl⟩

theorem Keep.trans {K : Nat} {g g1 g2 : G σ} (h1 : Keep m rank K g g1) (h2 : Keep m rank K g1 g2) : Keep m rank K g g2 := by
  intro i hi hq hr
  obtain ⟨a, b⟩ := h2 i hi hq hr
  obtain ⟨c, e⟩ := h1 i a (by rw [b]; exact hq) (by rw [b]; exact hr)
  exact ⟨c, e.trans b⟩

/-- `makeNode` lists at most the requested state anew. -/
theorem makeNode_an {g : G σ} (hS : Str g) (ha : AnOK g 1) (s : σ) (pe : Bool) {i : Nat} (hi : i ∈ (makeNode m g s pe).1.an) :
    (i ∈ g.an ∧ g.st i = (makeNode m g s pe).1.st i) ∨ (makeNode m g s pe).1.st i = s := by
  rcases makeNode_casesEq m hS s pe with ⟨a, a1, a2, a3, a4⟩ | ⟨a, a1, a2, a3, a4, a5, a6⟩ | ⟨a1, a2⟩
  · rw [a4] at hi ⊢; exact Or.inl ⟨hi, rfl⟩
  · rw [a6] at hi ⊢
    simp only [List.mem_append, List.mem_singleton] at hi
    rcases hi with x | x
    · exact Or.inl ⟨x, rfl⟩
    · right; dsimp only; rw [x, a2]
  · rw [a2] at hi ⊢
    simp only [List.mem_append, List.mem_singleton] at hi
    rcases hi with x | x
    · left
      have := ((ha.2 i).1 x).1
      exact ⟨x, (upd_ne _ _ (by omega)).symm⟩
    · right; dsimp only; rw [x, upd_same]

theorem addArcNode_an (g : G σ) (e n : Nat) : (addArcNode g e n).an = g.an := by
  unfold addArcNode
  split
  · rfl
  · split <;> rfl

theorem addArc_an (g : G σ) (e : Nat) : (addArc g e).an = g.an := by
  unfold addArc; rw [addArcNode_an, addArcNode_an]

theorem foldl_an (F : G σ → Nat → G σ) (hF : ∀ g e, (F g e).an = g.an) :
    ∀ (es : List Nat) (g : G σ), (es.foldl F g).an = g.an := by
  intro es
  induction es with
  | nil => intro g; rfl
  | cons e es ih => intro g; exact (ih (F g e)).trans (hF g e)

theorem transferArcs_an (g : G σ) (d t : Nat) : (transferArcs g d t).an = g.an := by
  unfold transferArcs disconnect
  dsimp only
  rw [foldl_an unlinkPar (fun _ _ => rfl)]
  show (List.foldl unlinkKid _ _).an = _
  rw [foldl_an unlinkKid (fun _ _ => rfl)]
  refine (foldl_an (fun (g : G σ) e => addArc { g with es := upd g.es e t } e) (fun g e => addArc_an _ e) _ _).trans ?_
  exact foldl_an (fun (g : G σ) e => addArc { g with ed := upd g.ed e t } e) (fun g e => addArc_an _ e) _ _

theorem absorb_an (g : G σ) (d t : Nat) {i : Nat} (hi : i ∈ (absorb g d t).an) : i ∈ g.an := by
  unfold absorb at hi
  split at hi
  · dsimp only at hi
    rw [transferArcs_an] at hi
    exact List.mem_of_mem_erase hi
  · exact hi

theorem link_an (g : G σ) (p c : Nat) (l : Int) : (link m g p c l).an = g.an := by
  unfold link
  dsimp only
  have : (addEdge g p c l (m.stc (g.st p) l)).an = g.an := addArc_an _ _
  split <;> simp only [this]

theorem visit_keep {g g' : G σ} {d : Nat} {A B cands : List Nat} {p : Nat} {l : Int} {rem : List Int} {rel : Bool} {o : Option Nat}
    (H : LayeredV Vl m rank r.st r.bound) (h : Inv Vl m rank r prim rel g d A B p rem) (hp : Cur m rank r g d A B p) (ha : AnOK g 1)
    (hl : l ∈ m.lgf (g.st p)) (hv : visit m prim cands g p l = (g', o)) : Keep m rank (rank r.st + d) g g' := by
  rcases transition_cases m prim g p l with ⟨h1, h2⟩ | ⟨s', f, h1, hf, hb, h2⟩ | ⟨s', x, h1, hb, h2⟩
  · unfold DD.visit at hv
    rw [h2] at hv; simp at hv; obtain ⟨rfl, rfl⟩ := hv; exact Keep.refl _ _
  · unfold DD.visit at hv
    rw [h2] at hv; simp at hv; obtain ⟨rfl, rfl⟩ := hv; exact Keep.refl _ _
  · have hstep : Step m (g.st p) l s' := ⟨hp.ne, hl, h1⟩
    have hrk := H.step _ _ _ _ (h.relx p hp.lv) hstep
    rw [hp.rk] at hrk
    have key : ∀ i, i ∈ g'.an → i ∈ (makeNode m g s' (g.ex p)).1.an ∧ g'.st = (makeNode m g s' (g.ex p)).1.st := by
      intro i hi
      generalize hg1 : ({ (makeNode m g s' (g.ex p)).1 with bb := x } : G σ) = g1 at h2
      have e1 : g1.an = (makeNode m g s' (g.ex p)).1.an := by rw [← hg1]
      have e2 : g1.st = (makeNode m g s' (g.ex p)).1.st := by rw [← hg1]
      generalize hcc : (makeNode m g s' (g.ex p)).2 = c at h2
      rw [← e1, ← e2]
      generalize hd : (if (g1.par c).isEmpty then findDom m g1 cands c (g1.bound p + m.stc (g1.st p) l) else none) = dom
      cases dom with
      | none =>
        rw [visit_none h2 hd] at hv
        simp only [Prod.mk.injEq] at hv
        rw [← hv.1, link_an] at hi
        exact ⟨hi, by rw [← hv.1]; exact (link_fields _ _ _ _).1⟩
      | some w =>
        rw [visit_dom h2 hd] at hv
        simp only [Prod.mk.injEq] at hv
        rw [← hv.1, link_an] at hi
        exact ⟨(List.dropLast_sublist _).subset hi, by rw [← hv.1]; exact (link_fields _ _ _ _).1⟩
    intro i hi hq hr
    obtain ⟨a, b⟩ := key i hi
    rcases makeNode_an h.toStr ha s' (g.ex p) a with ⟨x1, x2⟩ | x1
    · exact ⟨x1, by rw [b]; exact x2⟩
    · rw [b, x1] at hq hr
      rcases hrk with y | y
      · rw [hq] at y; simp at y
      · omega

theorem mergeOne_keep {g : G σ} {d : Nat} {p n1 : Nat} {rest skip : List Nat} (H : LayeredV Vl m rank r.st r.bound)
    (h : Inv Vl m rank r prim true g d [] (skip ++ n1 :: rest) p []) (ha : AnOK g 1) :
    Keep m rank (rank r.st + d) g (mergeOne m g n1 rest skip).1 := by
  unfold mergeOne
  split
  · split
    · rename_i g1 mn n2 rest1 hmf
      obtain ⟨u, v, hu, hr1, hmg⟩ := mergeFind_some hmf
      obtain ⟨cst, g1', q1, q2, v', b, L, x, hg', _⟩ := merge_some hmg
      obtain ⟨l1, e1, y1, r1⟩ := h.Bm n1 (by simp)
      obtain ⟨l2, e2, y2, r2⟩ := h.Bm n2 (by simp [hu])
      obtain ⟨mq, mr, _, _⟩ := H.merge _ _ _ _ _ (h.relx n1 l1) (h.relx n2 l2) e1 e2 (by omega) q1
      have hk : Keep m rank (rank r.st + d) g (mergePair g1 mn n1 n2).1 := by
        intro i hi hq hr
        rw [(mergePair_layer g1 mn n1 n2).1] at hq hr ⊢
        have hi' : i ∈ g1.an := by
          unfold mergePair at hi
          dsimp only at hi
          have := absorb_an _ _ _ (absorb_an _ _ _ hi)
          exact this
        rw [hg'] at hi' hq hr ⊢
        dsimp only at hi' hq hr ⊢
        have hm1 : g1' = (makeNode m g cst true).1 := by rw [q2]
        rw [hm1] at hi' hq hr ⊢
        rcases makeNode_an h.toStr ha cst true hi' with z | z
        · exact z
        · rw [z] at hr; omega
      split
      · rename_i g2 hg2
        rw [hg2] at hk
        obtain ⟨a, b, c⟩ := adjustBounds_keep m g2.nn g2 mn
        have hn : (adjustBounds m g2.nn g2 mn).an = g2.an := by
          have : ∀ (f : Nat) (g : G σ) (n : Nat), (adjustBounds m f g n).an = g.an := by
            intro f
            induction f with
            | zero => intro g n; rfl
            | succ f ih =>
              intro g n
              unfold adjustBounds
              refine foldl_an _ ?_ (g.kids n) g
              intro g e
              dsimp only
              split
              · exact ih _ _
              · rfl
          exact this _ _ _
        intro i hi hq hr
        dsimp only at hi hq hr ⊢
        rw [hn] at hi
        rw [b] at hq hr ⊢
        exact hk i hi hq hr
      · rename_i g2 hg2; rw [hg2] at hk; exact hk
      · rename_i g2 hg2; rw [hg2] at hk; exact hk
    · exact Keep.refl _ _
  · exact Keep.refl _ _

theorem mergeLoop_keep (H : LayeredV Vl m rank r.st r.bound) {d p : Nat} (w : Nat) : ∀ (f : Nat) (g : G σ) (layer skip : List Nat),
    Inv Vl m rank r prim true g d [] (skip ++ layer) p [] → AnOK g 1 →
    Keep m rank (rank r.st + d) g (mergeLoop m w f g layer skip).1 := by
  intro f
  induction f with
  | zero => intro g layer skip h ha; exact Keep.refl _ _
  | succ f ih =>
    intro g layer skip h ha
    unfold mergeLoop
    split
    · cases layer with
      | nil => exact Keep.refl _ _
      | cons n1 rest =>
        dsimp only
        have hk := mergeOne_keep H h ha
        generalize ho : mergeOne m g n1 rest skip = q at hk
        obtain ⟨g', rest', skip'⟩ := q
        obtain ⟨w1, w2, _⟩ := mergeOne_inv H h ha ho
        exact hk.trans (ih g' rest' skip' w1 w2)
    · exact Keep.refl _ _

theorem relLabels_keep (H : LayeredV Vl m rank r.st r.bound) {d p : Nat} {A : List Nat} :
    ∀ (ls : List Int) (g : G σ) (q : LQ), q.rest = [] →
      Inv Vl m rank r prim true g d A q.next p ls → Cur m rank r g d A q.next p → AnOK g 1 →
      (∀ l, l ∈ ls → l ∈ m.lgf (g.st p)) → Keep m rank (rank r.st + d) g (relLabels m prim p ls g q).1 := by
  intro ls
  induction ls with
  | nil => intro g q _ _ _ _ _; exact Keep.refl _ _
  | cons l ls ih =>
    intro g q hr h hc ha hl
    unfold relLabels
    generalize hv : visit m prim q.next g p l = v
    obtain ⟨g1, o⟩ := v
    obtain ⟨v1, v2, v3, v4, v5⟩ := visit_inv H h hc ha (hl l (by simp)) hv
    have hF1 := visit_keep H h hc ha (hl l (by simp)) hv
    cases o with
    | none =>
      obtain ⟨i1, c1⟩ := v1 rfl
      exact hF1.trans (ih g1 q hr i1 c1 v3 (fun x hx => by rw [v5]; exact hl x (by simp [hx])))
    | some c =>
      obtain ⟨hcB, i1, c1⟩ := v2 c rfl
      dsimp only
      have hly : ∀ i, i ∈ q.next ++ [c] → g1.layer i = d + 1 := fun i hi => (i1.Bm i hi).2.2.1
      have hq : (q.enQueue g1 c).rest = [] ∧ List.Perm (q.enQueue g1 c).next (q.next ++ [c]) := by
        unfold LQ.enQueue
        cases hn : q.next with
        | nil => exact ⟨hr, by simp⟩
        | cons a as =>
          dsimp only
          rw [if_pos (by rw [hly a (by simp [hn]), hly c (by simp)])]
          exact ⟨hr, List.perm_append_comm (l₁ := [c]) (l₂ := a :: as)⟩
      have i2 := i1.perm (A' := A) i1.An (hq.2.nodup_iff.2 i1.Bn) (fun _ => Iff.rfl) (fun i => hq.2.mem_iff)
      have c2 : Cur m rank r g1 d A (q.enQueue g1 c).next p := { c1 with nB := fun hh => c1.nB (hq.2.mem_iff.1 hh) }
      exact hF1.trans (ih g1 _ hq.1 i2 c2 v3 (fun x hx => by rw [v5]; exact hl x (by simp [hx])))

theorem relNodes_keep (H : LayeredV Vl m rank r.st r.bound) {d : Nat} :
    ∀ (ps : List Nat) (g : G σ) (q : LQ) (p0 : Nat), q.rest = [] →
      Inv Vl m rank r prim true g d ps q.next p0 [] → AnOK g 1 →
      Keep m rank (rank r.st + d) g (relNodes m prim ps g q).1 := by
  intro ps
  induction ps with
  | nil => intro g q _ _ _ _; exact Keep.refl _ _
  | cons p ps ih =>
    intro g q p0 hr h ha
    unfold relNodes
    dsimp only
    obtain ⟨i1, c1⟩ := h.take
    have hF1 := relLabels_keep H (m.lgf (g.st p)) g q hr i1 c1 ha (fun _ hx => hx)
    generalize hv : relLabels m prim p (m.lgf (g.st p)) g q = v at hF1
    obtain ⟨g1, q1⟩ := v
    obtain ⟨x1, x2, x3, _⟩ := relLabels_inv H _ g q hr i1 c1 ha (fun _ hx => hx) g1 q1 hv
    exact hF1.trans (ih g1 q1 p x1 x2 x3)

/-- Restricted label loop: node list and queue length. -/
theorem resLabels_wide (H : LayeredV Vl m rank r.st r.bound) {w : Nat} (hw : 1 ≤ w) {d p : Nat} {A : List Nat} :
    ∀ (ls : List Int) (g : G σ) (q : List Nat),
      Inv Vl m rank r prim false g d A q p ls → Cur m rank r g d A q p → AnOK g 1 →
      (∀ l, l ∈ ls → l ∈ m.lgf (g.st p)) → q.length ≤ w - 1 →
      ∀ g' q' b, resLabels m prim w p ls g q = (g', q', b) →
        Keep m rank (rank r.st + d) g g' ∧ q'.length ≤ w ∧ (b = false → q'.length ≤ w - 1) := by
  intro ls
  induction ls with
  | nil =>
    intro g q h _ ha _ hq g' q' b he
    simp [resLabels] at he
    obtain ⟨rfl, rfl, rfl⟩ := he
    exact ⟨Keep.refl _ _, by omega, fun _ => hq⟩
  | cons l ls ih =>
    intro g q h hc ha hl hq g' q' b he
    unfold resLabels at he
    generalize hv : visit m prim q g p l = v at he
    obtain ⟨g1, o⟩ := v
    obtain ⟨v1, v2, v3, v4, v5⟩ := visit_inv H h hc ha (hl l (by simp)) hv
    have hk := visit_keep H h hc ha (hl l (by simp)) hv
    cases o with
    | none =>
      obtain ⟨i1, c1⟩ := v1 rfl
      obtain ⟨a, b, c⟩ := ih g1 q i1 c1 v3 (fun x hx => by rw [v5]; exact hl x (by simp [hx])) hq g' q' b he
      exact ⟨hk.trans a, b, c⟩
    | some c =>
      obtain ⟨hcB, i1, c1⟩ := v2 c rfl
      dsimp only at he
      have hest : estimate g1 (q ++ [c]) = (q ++ [c]).length := by
        have hly : ∀ i, i ∈ q ++ [c] → g1.layer i = d + 1 := fun i hi => (i1.Bm i hi).2.2.1
        unfold estimate
        generalize q ++ [c] = qq at hly
        cases qq with
        | nil => rfl
        | cons n ns =>
          rw [List.countP_eq_length]
          intro i hi
          simp [hly i hi, hly n (by simp)]
      rw [hest] at he
      have hwm : wm1 w = w - 1 := by unfold wm1; rw [if_neg (by omega)]
      rw [hwm] at he
      split at he
      · simp only [Prod.mk.injEq] at he
        obtain ⟨rfl, rfl, rfl⟩ := he
        refine ⟨hk, by simp; omega, by simp⟩
      · rename_i hle
        obtain ⟨a, b, c⟩ := ih g1 _ i1 c1 v3 (fun x hx => by rw [v5]; exact hl x (by simp [hx])) (by omega) g' q' b he
        exact ⟨hk.trans a, b, c⟩

theorem resNodes_wide (H : LayeredV Vl m rank r.st r.bound) {w : Nat} (hw : 1 ≤ w) {d : Nat} :
    ∀ (ps : List Nat) (g : G σ) (q : List Nat) (p0 : Nat),
      Inv Vl m rank r prim false g d ps q p0 [] → AnOK g 1 → q.length ≤ w - 1 →
      ∀ g' q', resNodes m prim w ps g q = (g', q') → Keep m rank (rank r.st + d) g g' ∧ q'.length ≤ w := by
  intro ps
  induction ps with
  | nil =>
    intro g q p0 h ha hq g' q' he
    simp [resNodes] at he
    obtain ⟨rfl, rfl⟩ := he
    exact ⟨Keep.refl _ _, by omega⟩
  | cons p ps ih =>
    intro g q p0 h ha hq g' q' he
    unfold resNodes at he
    obtain ⟨i1, c1⟩ := h.take
    generalize hv : resLabels m prim w p (m.lgf (g.st p)) g q = v at he
    obtain ⟨g1, q1, b⟩ := v
    obtain ⟨w1, w2, w3, w4⟩ := resLabels_inv H w _ g q i1 c1 ha (fun _ hx => hx) g1 q1 b hv
    obtain ⟨k1, k2, k3⟩ := resLabels_wide H hw _ g q i1 c1 ha (fun _ hx => hx) hq g1 q1 b hv
    cases b with
    | true =>
      simp only [Prod.mk.injEq] at he
      obtain ⟨rfl, rfl⟩ := he
      exact ⟨k1, k2⟩
    | false =>
      obtain ⟨a, b⟩ := ih g1 q1 p w1 w2 (k3 rfl) g' q' he
      exact ⟨k1.trans a, b⟩

/-! ### Layers of the finished diagram -/

/-- The open nodes of a diagram whose state has rank `k`. -/
def layerOf (m : Mdl σ) (rank : σ → Nat) (g : G σ) (k : Nat) : List Nat :=
  g.an.filter (fun i => !(m.eqs (g.st i)) && decide (rank (g.st i) = k))

theorem nodup_sub_le : ∀ {l k : List Nat}, l.Nodup → (∀ x, x ∈ l → x ∈ k) → l.length ≤ k.length := by
  intro l
  induction l with
  | nil => intro k _ _; simp
  | cons a l ih =>
    intro k hn hs
    rw [List.nodup_cons] at hn
    have ha := hs a (by simp)
    have := ih (k := k.erase a) hn.2 (by
      intro x hx
      rw [List.mem_erase_of_ne (by intro hh; exact hn.1 (hh ▸ hx))]
      exact hs x (by simp [hx]))
    rw [List.length_erase_of_mem ha] at this
    have := List.length_pos_of_mem ha
    simp; omega

theorem mem_layerOf {g : G σ} {k i : Nat} : i ∈ layerOf m rank g k ↔ i ∈ g.an ∧ m.eqs (g.st i) = false ∧ rank (g.st i) = k := by
  simp [layerOf, List.mem_filter]

theorem layer_keep {g g' : G σ} {K k w : Nat} (hk : Keep m rank K g g') (ha : AnOK g' 1) (hle : k ≤ K)
    (h : (layerOf m rank g k).length ≤ w) : (layerOf m rank g' k).length ≤ w := by
  refine Nat.le_trans (nodup_sub_le (ha.1.sublist List.filter_sublist) ?_) h
  intro i hi
  rw [mem_layerOf] at hi ⊢
  obtain ⟨a, b⟩ := hk i hi.1 hi.2.1 (by omega)
  exact ⟨a, by rw [b]; exact hi.2.1, by rw [b]; exact hi.2.2⟩

/-- The layer under construction is `A` together with `B`, and nothing lies above it. -/
theorem layer_top (hsink : m.eqs m.stt = true) {g : G σ} {d p : Nat} {rel : Bool} {B : List Nat} (h : Inv Vl m rank r prim rel g d [] B p []) (ha : AnOK g 1) {k : Nat}
    (hk : rank r.st + d < k) : (layerOf m rank g k).length ≤ B.length := by
  refine nodup_sub_le (ha.1.sublist List.filter_sublist) ?_
  intro i hi
  obtain ⟨i1, i2, i3⟩ := mem_layerOf.1 hi
  have hl : Lv g i := by
    rcases ((ha.2 i).1 i1).2 with x | x | x
    · exact x
    · rw [x, h.st1, hsink] at i2; simp at i2
    · rw [x, h.st1, hsink] at i2; simp at i2
  rcases h.done i hl i2 with x | x | x
  · simp at x
  · exact x
  · omega

theorem start_layer (hsink : m.eqs m.stt = true) (H : LayeredV Vl m rank r.st r.bound) (k : Nat) :
    (layerOf m rank (start2 m r) k).length ≤ 1 := by
  obtain ⟨h, ha, _⟩ := start2_inv (prim := 0) (rel := true) H
  have : (layerOf m rank (start2 m r) k).length ≤ [0].length := by
    refine nodup_sub_le (ha.1.sublist List.filter_sublist) ?_
    intro i hi
    obtain ⟨i1, i2, i3⟩ := mem_layerOf.1 hi
    rcases ((ha.2 i).1 i1).2 with x | x | x
    · rcases x.2 with y | y
      · simp [y]
      · have hne : (start2 m r).ne = 0 := by
          unfold start2 makeNode
          dsimp only
          split <;> (try split) <;> rfl
        exfalso
        apply y
        rw [List.eq_nil_iff_forall_not_mem]
        intro e he
        have := ((h.par i e).1 he).1
        omega
    · rw [x, h.st1, hsink] at i2; simp at i2
    · rw [x, h.st1, hsink] at i2; simp at i2
  simpa using this

theorem resLoop_wide (H : LayeredV Vl m rank r.st r.bound) {w : Nat} (hw : 1 ≤ w) : ∀ (f : Nat) (g : G σ) (q : List Nat) (d p : Nat),
    Inv Vl m rank r prim false g d q [] p [] → AnOK g 1 → (∀ k, (layerOf m rank g k).length ≤ w) →
    ∀ g', resLoop m prim w f g q = some g' → ∀ k, (layerOf m rank g' k).length ≤ w := by
  intro f
  induction f with
  | zero => intro g q d p _ _ _ g' he; simp [resLoop] at he
  | succ f ih =>
    intro g q d p h ha hW g' he
    unfold resLoop at he
    split at he
    · simp at he; subst he; exact hW
    · dsimp only at he
      obtain ⟨p1, p2⟩ := resPull (m := m) g d q (fun i hi => (h.Am i hi).2.2.1)
      rw [p2] at he
      have h1 := h.perm (p1.nodup_iff.2 h.An) (by simp) (fun i => p1.mem_iff) (fun i => Iff.rfl)
      generalize hv : resNodes m prim w (pullLayer m g q).1 g [] = v at he
      obtain ⟨g1, q1⟩ := v
      obtain ⟨⟨p', x2⟩, x3⟩ := resNodes_inv H w _ _ _ p h1 ha g1 q1 hv
      obtain ⟨k1, k2⟩ := resNodes_wide H hw _ _ _ p h1 ha (by simp) g1 q1 hv
      refine ih g1 q1 (d + 1) p' x2.shift x3 ?_ g' he
      intro k
      by_cases hk : k ≤ rank r.st + d
      · exact layer_keep k1 x3 hk (hW k)
      · exact Nat.le_trans (layer_top H.sink x2 x3 (by omega)) k2

theorem relLoop_wide {κ : Type} {cls : σ → κ} (H : LayeredV Vl m rank r.st r.bound) (hd : m.sdom = none)
    (hT : Sorts m rank r.st r.bound cls) {C : Nat → List κ}
    (hC : ∀ s v, Relx m rank r.st r.bound s v → m.eqs s = false → cls s ∈ C (rank s)) (w : Nat) : ∀ (f : Nat) (g : G σ) (q : LQ) (d p : Nat),
    q.rest = [] → Inv Vl m rank r prim true g d [] q.next p [] → AnOK g 1 → Flat m rank r g →
    (∀ k, k ≤ rank r.st + d → (layerOf m rank g k).length ≤ max w (C k).length) →
    ∀ g', relLoop m prim w f g q = some g' → ∀ k, (layerOf m rank g' k).length ≤ max w (C k).length := by
  intro f
  induction f with
  | zero => intro g q d p _ _ _ _ _ g' he; simp [relLoop] at he
  | succ f ih =>
    intro g q d p hr h ha hF hW g' he
    unfold relLoop at he
    split at he
    · rename_i hc
      simp at he; subst he
      have : q.next = [] := by simpa using hc.1
      rw [this] at h
      intro k
      by_cases hk : k ≤ rank r.st + d
      · exact hW k hk
      · have := layer_top H.sink h ha (k := k) (by omega)
        rw [List.length_nil] at this; omega
    · dsimp only at he
      obtain ⟨w1, w2, w3⟩ := pull_inv H w hr h ha
      rw [w3] at he
      have hp := relSort_perm (m := m) g q.next
      have h1 := h.perm (A' := []) List.nodup_nil (hp.nodup_iff.2 h.Bn) (fun _ => Iff.rfl) (fun i => hp.mem_iff)
      obtain ⟨m1, m2⟩ := mergeLoop_width w H hT ((relSort m g q.next).length + 1) g (relSort m g q.next) [] (by omega) (by simpa using h1) ha hF
        ⟨List.Pairwise.nil, by simp⟩
      have m3 := mergeLoop_keep H w ((relSort m g q.next).length + 1) g (relSort m g q.next) [] (by simpa using h1) ha
      have hpl : (q.pull m w g).1 = (mergeLoop m w ((relSort m g q.next).length + 1) g (relSort m g q.next) []).1 ∧
          (q.pull m w g).2.1 = (mergeLoop m w ((relSort m g q.next).length + 1) g (relSort m g q.next) []).2 := by
        unfold LQ.pull mergeLayer
        simp only [hr]
        exact ⟨trivial, trivial⟩
      rw [← hpl.1] at m2 m3
      rw [← hpl.2, ← hpl.1] at m1
      have m4 := relNodes_keep H _ _ ⟨[], []⟩ p rfl w1.shift w2
      have m5 := relNodes_flat hd H _ _ ⟨[], []⟩ p rfl w1.shift w2 m2
      generalize hv : relNodes m prim (q.pull m w g).2.1 (q.pull m w g).1 ⟨[], []⟩ = v at he m4 m5
      obtain ⟨g1, q1⟩ := v
      obtain ⟨x1, ⟨p', x2⟩, x3, x4⟩ := relNodes_inv H _ _ _ p rfl w1.shift w2 g1 q1 hv
      refine ih g1 q1 (d + 1) p' x1 x2 x3 m5 ?_ g' he
      intro k hk
      refine layer_keep m4 x3 hk ?_
      by_cases hk : k ≤ rank r.st + d
      · exact layer_keep m3 w2 hk (hW k hk)
      · have hk : k = rank r.st + d + 1 := by omega
        refine Nat.le_trans (layer_top H.sink w1 w2 (by omega)) ?_
        rcases m1 with m1 | m1
        · omega
        · refine Nat.le_trans (pairwise_len (k := C k) m1 ?_) (by omega)
          intro i hi
          obtain ⟨a1, a2, a3, a4⟩ := w1.Bm i hi
          have := hC _ _ (w1.relx i a1) a2
          have e : rank ((q.pull m w g).1.st i) = k := by omega
          rwa [e] at this

end Verif.DD
