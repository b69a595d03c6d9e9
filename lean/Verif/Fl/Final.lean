import Verif.Fl.Loop
import Verif.Cut
/-!
# Complete compilations over machine numbers
-/
namespace Verif.Fl
open Verif.DD
set_option linter.unusedSectionVars false
variable {σ : Type} {Vl : σ → Int → Prop} {P : Num} [Same σ] {m : Mdl σ} {rank : σ → Nat} {r : Src σ} {prim : Int} {rel : Bool}

/-! ### Restricted diagrams contain exact nodes only -/

theorem makeNode_ax {g : G σ} (h : ∀ i, g.ex i = true) (s : σ) : ∀ i, (Fl.makeNode P m g s true).1.ex i = true := by
  intro i
  unfold Fl.makeNode
  cases findNode g s with
  | none =>
    dsimp only
    rw [upd_apply]; split
    · rfl
    · exact h i
  | some a =>
    dsimp only
    have hu : ∀ i, upd g.ex a (g.ex a && true) i = true := by
      intro i
      rw [upd_apply]; split
      · rw [h a]; rfl
      · exact h i
    split <;> exact hu i

theorem visit_ax {cands : List Nat} {g : G σ} (h : ∀ i, g.ex i = true) (p : Nat) (l : Int) :
    ∀ i, (Fl.visit P m prim cands g p l).1.ex i = true := by
  have ht : ∀ i, (Fl.transition P m prim g p l).1.ex i = true := by
    intro i
    unfold Fl.transition
    cases m.stf (g.st p) l with
    | none => exact h i
    | some s' =>
      dsimp only
      cases m.loc with
      | none =>
        dsimp only; rw [h p]; exact makeNode_ax h s' i
      | some f =>
        dsimp only
        split
        · dsimp only
          rw [h p]
          split
          · exact makeNode_ax h s' i
          · exact makeNode_ax h s' i
        · exact h i
  intro i
  unfold Fl.visit
  generalize hv : Fl.transition P m prim g p l = v at ht
  obtain ⟨g1, o⟩ := v
  cases o with
  | none => exact ht i
  | some c =>
    have := ht i
    dsimp only at this ⊢
    have hae : ∀ (g : G σ) (c : Nat) (o : Int), (addEdge g p c l o).ex = g.ex := by
      intro g c o
      unfold addEdge addArc addArcNode
      dsimp only
      repeat' split
      all_goals rfl
    repeat' split
    all_goals first | exact this | (rw [hae]; exact this) | (dsimp only; rw [hae]; exact this)

theorem resLabels_ax (w p : Nat) : ∀ (ls : List Int) (g : G σ) (q : List Nat), (∀ i, g.ex i = true) →
    ∀ i, (Fl.resLabels P m prim w p ls g q).1.ex i = true := by
  intro ls
  induction ls with
  | nil => intro g q h i; exact h i
  | cons l ls ih =>
    intro g q h i
    unfold Fl.resLabels
    have hv := visit_ax (P := P) (m := m) (prim := prim) (cands := q) h p l
    generalize Fl.visit P m prim q g p l = v at hv
    obtain ⟨g1, o⟩ := v
    cases o with
    | none => exact ih g1 q hv i
    | some c =>
      dsimp only
      split
      · exact hv i
      · exact ih g1 _ hv i

theorem resNodes_ax (w : Nat) : ∀ (ps : List Nat) (g : G σ) (q : List Nat), (∀ i, g.ex i = true) →
    ∀ i, (Fl.resNodes P m prim w ps g q).1.ex i = true := by
  intro ps
  induction ps with
  | nil => intro g q h i; exact h i
  | cons p ps ih =>
    intro g q h i
    unfold Fl.resNodes
    have hv := resLabels_ax (P := P) (m := m) (prim := prim) w p (m.lgf (g.st p)) g q h
    generalize Fl.resLabels P m prim w p (m.lgf (g.st p)) g q = v at hv
    obtain ⟨g1, q1, b⟩ := v
    cases b with
    | true => exact hv i
    | false => exact ih g1 q1 hv i

theorem resLoop_ax (w : Nat) : ∀ (f : Nat) (g g' : G σ) (q : List Nat), (∀ i, g.ex i = true) →
    Fl.resLoop P m prim w f g q = some g' → ∀ i, g'.ex i = true := by
  intro f
  induction f with
  | zero => intro g g' q _ h; simp [Fl.resLoop] at h
  | succ f ih =>
    intro g g' q h he
    unfold Fl.resLoop at he
    split at he
    · simp at he; subst he; exact h
    · exact ih _ _ _ (resNodes_ax w _ _ _ h) he

/-! ### `tighten` at the sink -/

omit [Same σ] in
theorem tightenLoop_spec (g : G σ) : ∀ (es : List Nat) (cur : Int) (lb : List Int),
    Fl.tightenLoop P m g es cur lb = (cur, lb) ∨
      ∃ e, e ∈ es ∧ Fl.tightenLoop P m g es cur lb = (P.add (g.bound (g.es e)) (g.eo e), g.lab (g.es e) ++ [g.el e]) := by
  intro es
  induction es with
  | nil => intro cur lb; exact .inl rfl
  | cons e es ih =>
    intro cur lb
    unfold Fl.tightenLoop
    dsimp only
    split
    · rcases ih (P.add (g.bound (g.es e)) (g.eo e)) (g.lab (g.es e) ++ [g.el e]) with a | ⟨e', b1, b2⟩
      · exact .inr ⟨e, by simp, a⟩
      · exact .inr ⟨e', by simp [b1], b2⟩
    · rcases ih cur lb with a | ⟨e', b1, b2⟩
      · exact .inl a
      · exact .inr ⟨e', by simp [b1], b2⟩

omit [Same σ] in
theorem tightenLoop_le (g : G σ) : ∀ (es : List Nat) (cur : Int) (lb : List Int),
    m.sense.k cur ≤ m.sense.k (Fl.tightenLoop P m g es cur lb).1 ∧
    (∀ e, e ∈ es → m.sense.k (P.add (g.bound (g.es e)) (g.eo e)) ≤ m.sense.k (Fl.tightenLoop P m g es cur lb).1) := by
  intro es
  induction es with
  | nil => intro cur lb; simp [Fl.tightenLoop]
  | cons e es ih =>
    intro cur lb
    unfold Fl.tightenLoop
    dsimp only
    by_cases hb : m.sense.better (P.add (g.bound (g.es e)) (g.eo e)) cur = true
    · rw [if_pos hb]
      obtain ⟨a2, a3⟩ := ih (P.add (g.bound (g.es e)) (g.eo e)) (g.lab (g.es e) ++ [g.el e])
      rw [Sense.better_iff] at hb
      refine ⟨by omega, ?_⟩
      intro e' he'
      rcases List.mem_cons.1 he' with x | x
      · subst x; exact a2
      · exact a3 e' x
    · rw [if_neg hb]
      obtain ⟨a2, a3⟩ := ih cur lb
      have hb : m.sense.better (P.add (g.bound (g.es e)) (g.eo e)) cur = false := by simpa using hb
      rw [Sense.better_false] at hb
      refine ⟨a2, ?_⟩
      intro e' he'
      rcases List.mem_cons.1 he' with x | x
      · subst x; omega
      · exact a3 e' x

omit [Same σ] in
theorem tighten_trg {g : G σ} (ht : g.trg = 1) :
    ∃ bd lb, Fl.tighten P m g g.trg = { g with bound := upd g.bound 1 bd, lab := upd g.lab 1 lb } ∧
      (bd = P.best0 m.sense ∨
       (∃ e, e ∈ g.par 1 ∧ bd = P.add (g.bound (g.es e)) (g.eo e) ∧ lb = g.lab (g.es e) ++ [g.el e])) ∧
      (∀ e, e ∈ g.par 1 → m.sense.k (P.add (g.bound (g.es e)) (g.eo e)) ≤ m.sense.k bd) := by
  refine ⟨(Fl.tightenLoop P m g (g.par 1) (P.best0 m.sense) (g.lab 1)).1,
    (Fl.tightenLoop P m g (g.par 1) (P.best0 m.sense) (g.lab 1)).2, ?_, ?_, (tightenLoop_le g _ _ _).2⟩
  · unfold Fl.tighten
    rw [ht]
    simp
  · rcases tightenLoop_spec (P := P) (m := m) g (g.par 1) (P.best0 m.sense) (g.lab 1) with a | ⟨e, a1, a2⟩
    · left; rw [a]
    · right
      exact ⟨e, a1, by rw [a2], by rw [a2]⟩

/-- The value at the sink of a finished diagram: nothing found, or what the machine adds up along a real path, if the
nodes before the sink are exact. -/
theorem sink_run {g : G σ} {d p : Nat} (h : Inv Vl P m rank r prim rel g d [] [] p []) (hx : ∀ i, i < g.nn → g.ex i = true) :
    ∃ bd lb, Fl.tighten P m g g.trg = { g with bound := upd g.bound 1 bd, lab := upd g.lab 1 lb } ∧
      (bd = P.best0 m.sense ∨ ∃ ls, lb = r.lab ++ ls ∧ Run P m r.st r.bound ls m.stt bd) := by
  obtain ⟨bd, lb, t1, t2, _⟩ := tighten_trg (P := P) (m := m) h.trg
  refine ⟨bd, lb, t1, ?_⟩
  rcases t2 with a | ⟨e, e1, e2, e3⟩
  · exact .inl a
  · right
    obtain ⟨e4, e5⟩ := (h.par 1 e).1 e1
    obtain ⟨h1, h2, _⟩ := h.esrc e e4
    obtain ⟨h3, h4⟩ := h.estep e e4
    obtain ⟨ls, g1, g2⟩ := h.gen _ h1 (hx _ h1.1)
    refine ⟨ls ++ [g.el e], by rw [e3, g1, List.append_assoc], ?_⟩
    rw [e2, h4]
    exact g2.snoc ⟨h2, h3, h.etrg e e4 e5⟩

/-! ### `computeBestBackward` -/

/-- One node of the backward sweep. -/
def procB (P : Num) (m : Mdl σ) (g : G σ) (n : Nat) : G σ := { g with bb := upd g.bb n (Fl.bestKid P m g n) }

omit [Same σ] in
theorem cbbLoop_eq (nl : Nat → Option Nat) (outs : Nat → List Nat) : ∀ (k : Nat) (h : DH) (g : G σ),
    (∀ n, outs n = (g.par n).map g.es) →
    Fl.cbbLoop P m nl k h g = (topoSeq nl outs k h).map (fun π => π.foldl (procB P m) g) := by
  intro k
  induction k with
  | zero => intro h g _; rfl
  | succ k ih =>
    intro h g ho
    unfold Fl.cbbLoop topoSeq
    dsimp only
    rw [← ho]
    cases topoDec nl (outs (Heap.extractMax dord h).2.1) (Heap.extractMax dord h).1 with
    | none => rfl
    | some h1 =>
      dsimp only
      have := ih h1 (procB P m g (Heap.extractMax dord h).2.1) (fun n => by rw [ho]; rfl)
      unfold procB at this
      rw [this, Option.map_map]
      rfl

/-- The loop of `bestKid`. -/
def kidLoop (P : Num) (m : Mdl σ) (g : G σ) (es : List Nat) (init : Int) : Int :=
  es.foldl (fun cur e =>
    let ep := P.add (g.bb (g.ed e)) (g.eo e)
    if m.sense.better ep cur then ep else cur) init

omit [Same σ] in
theorem kidLoop_spec (g : G σ) : ∀ (es : List Nat) (init : Int),
    (kidLoop P m g es init = init ∨ ∃ e, e ∈ es ∧ kidLoop P m g es init = P.add (g.bb (g.ed e)) (g.eo e)) ∧
    m.sense.k init ≤ m.sense.k (kidLoop P m g es init) ∧
    (∀ e, e ∈ es → m.sense.k (P.add (g.bb (g.ed e)) (g.eo e)) ≤ m.sense.k (kidLoop P m g es init)) := by
  intro es
  induction es with
  | nil => intro init; simp [kidLoop]
  | cons e es ih =>
    intro init
    have hu : kidLoop P m g (e :: es) init = kidLoop P m g es
        (if m.sense.better (P.add (g.bb (g.ed e)) (g.eo e)) init then P.add (g.bb (g.ed e)) (g.eo e) else init) := rfl
    rw [hu]
    obtain ⟨a1, a2, a3⟩ := ih (if m.sense.better (P.add (g.bb (g.ed e)) (g.eo e)) init then P.add (g.bb (g.ed e)) (g.eo e) else init)
    have hk : m.sense.k init ≤ m.sense.k (if m.sense.better (P.add (g.bb (g.ed e)) (g.eo e)) init then P.add (g.bb (g.ed e)) (g.eo e) else init) ∧
        m.sense.k (P.add (g.bb (g.ed e)) (g.eo e)) ≤ m.sense.k (if m.sense.better (P.add (g.bb (g.ed e)) (g.eo e)) init then P.add (g.bb (g.ed e)) (g.eo e) else init) := by
      split
      · rename_i hb; rw [Sense.better_iff] at hb; omega
      · rename_i hb
        have hb : m.sense.better (P.add (g.bb (g.ed e)) (g.eo e)) init = false := by simpa using hb
        rw [Sense.better_false] at hb; omega
    refine ⟨?_, by omega, ?_⟩
    · rcases a1 with a | ⟨e', b1, b2⟩
      · rw [a]
        split
        · exact Or.inr ⟨e, by simp, rfl⟩
        · exact Or.inl rfl
      · exact Or.inr ⟨e', by simp [b1], b2⟩
    · intro e' he'
      rcases List.mem_cons.1 he' with x | x
      · subst x; omega
      · exact a3 e' x

omit [Same σ] in
theorem kidLoop_congr (g g' : G σ) (he : g'.ed = g.ed) (heo : g'.eo = g.eo) :
    ∀ (es : List Nat), (∀ e, e ∈ es → g'.bb (g.ed e) = g.bb (g.ed e)) →
    ∀ init, kidLoop P m g' es init = kidLoop P m g es init := by
  intro es
  induction es with
  | nil => intros; rfl
  | cons e es ih =>
    intro h init
    show kidLoop P m g' es _ = kidLoop P m g es _
    rw [ih (fun e he => h e (by simp [he]))]
    rw [he, heo]
    dsimp only
    rw [h e (by simp)]

omit [Same σ] in
theorem foldB {outs : Nat → List Nat} : ∀ (π : List Nat) (g : G σ), π.Nodup → TopoL outs π →
    (∀ n e, n ∈ π → e ∈ g.kids n → n ∈ outs (g.ed e)) →
    (∃ b, π.foldl (procB P m) g = { g with bb := b }) ∧
    (∀ n, n ∉ π → (π.foldl (procB P m) g).bb n = g.bb n) ∧
    (∀ n, n ∈ π → (π.foldl (procB P m) g).bb n =
      kidLoop P m (π.foldl (procB P m) g) (g.kids n) (if (g.kids n).isEmpty then g.bb n else P.best0 m.sense)) := by
  intro π
  induction π with
  | nil => intro g _ _ _; exact ⟨⟨g.bb, rfl⟩, fun _ _ => rfl, by simp⟩
  | cons n π ih =>
    intro g hnd ht hd
    obtain ⟨hn, hnd'⟩ := List.nodup_cons.1 hnd
    obtain ⟨⟨b, i1⟩, i2, i3⟩ := ih (procB P m g n) hnd' ht.2 (fun k e hk he => hd k e (by simp [hk]) he)
    simp only [List.foldl_cons]
    refine ⟨⟨b, by rw [i1]; rfl⟩, ?_, ?_⟩
    · intro k hk
      simp only [List.mem_cons, not_or] at hk
      rw [i2 k hk.2]
      exact upd_ne _ _ hk.1
    · intro k hk
      by_cases hkn : k = n
      · subst hkn
        rw [i2 k hn]
        have hc : kidLoop P m (π.foldl (procB P m) (procB P m g k)) (g.kids k)
            (if (g.kids k).isEmpty then g.bb k else P.best0 m.sense) =
            kidLoop P m g (g.kids k) (if (g.kids k).isEmpty then g.bb k else P.best0 m.sense) := by
          apply kidLoop_congr
          · rw [i1]; rfl
          · rw [i1]; rfl
          · intro e he
            have h1 : k ∈ outs (g.ed e) := hd k e (by simp) he
            have h2 := ht.1 _ h1
            simp only [List.mem_cons, not_or] at h2
            rw [i2 _ h2.2]
            exact upd_ne _ _ h2.1
        rw [hc]
        show upd g.bb k (Fl.bestKid P m g k) k = _
        rw [upd_same]; rfl
      · have hk : k ∈ π := by simpa [hkn] using hk
        have := i3 k hk
        have e1 : (procB P m g n).kids = g.kids := rfl
        have e2 : (procB P m g n).bb k = g.bb k := upd_ne _ _ hkn
        rw [e1, e2] at this
        exact this

omit [Same σ] in
/-- `computeBestBackward` never meets a null location, changes backward bounds only, and every
node satisfies the backward equation. -/
theorem computeBestBackward_eq {g : G σ} {ρ : Nat → Nat} (h : Wg g ρ) :
    ∃ b, Fl.computeBestBackward P m g = some { g with bb := b } ∧
      (∀ n, n ∈ g.an → b n = kidLoop P m { g with bb := b } (g.kids n)
        (if (g.kids n).isEmpty then (if n = g.trg then 0 else P.best0 m.sense) else P.best0 m.sense)) ∧
      (∀ n, n ∉ g.an → b n = g.bb n) := by
  have hdeg : ∀ n, n ∈ g.an → (g.kids n).length = (g.an.flatMap (fun i => (g.par i).map g.es)).count n := by
    intro n _
    refine count_adj g.an h.nd g.par g.ed g.es (fun i e he => ((h.par i e).1 he).2) h.pn n _ (h.kn n) ?_
    intro e
    rw [h.kids]
    constructor
    · rintro ⟨a, b⟩; exact ⟨⟨g.ed e, h.dst e a, (h.par _ e).2 ⟨a, rfl⟩⟩, b⟩
    · rintro ⟨⟨i, _, a⟩, b⟩; exact ⟨((h.par i e).1 a).1, b⟩
  -- a bound on the measure, to reverse it
  obtain ⟨K, hK⟩ : ∃ K, ∀ n, n ∈ g.an → ρ n ≤ K := by
    have : ∀ (l : List Nat), ∃ K, ∀ n, n ∈ l → ρ n ≤ K := by
      intro l
      induction l with
      | nil => exact ⟨0, by simp⟩
      | cons a l ih =>
        obtain ⟨K, hK⟩ := ih
        refine ⟨max K (ρ a), fun n hn => ?_⟩
        rcases List.mem_cons.1 hn with x | x
        · rw [x]; omega
        · have := hK n x; omega
    exact this g.an
  obtain ⟨π, p1, p2, p3⟩ := topo_spec (outs := fun i => (g.par i).map g.es) (ρ := fun n => K - ρ n) (by
    intro a b hb
    obtain ⟨e, e1, e2⟩ := List.mem_map.1 hb
    obtain ⟨e3, e4⟩ := (h.par a e).1 e1
    have h1 := h.up e e3
    have h2 := hK _ (h.dst e e3)
    have h3 := hK _ (h.src e e3)
    rw [← e2, ← e4]; omega) (fun n => (g.kids n).length) g.an h.nd hdeg (by
    intro p _ n hn
    obtain ⟨e, e1, e2⟩ := List.mem_map.1 hn
    rw [← e2]; exact h.src e ((h.par p e).1 e1).1)
  generalize hg1 : ({ g with bb := fun n => if n ∈ g.an then (if n = g.trg then 0 else P.best0 m.sense) else g.bb n } : G σ) = g1
  have hcb : Fl.computeBestBackward P m g = some (π.foldl (procB P m) g1) := by
    unfold Fl.computeBestBackward
    dsimp only
    rw [hg1, cbbLoop_eq _ (fun i => (g.par i).map g.es) _ _ g1 (by intro n; rw [← hg1]), p1]
    rfl
  obtain ⟨⟨b, f1⟩, f2, f3⟩ := foldB (P := P) (m := m) π g1 (p2.nodup_iff.2 h.nd) p3 (by
    intro n e _ he
    have he : e ∈ g.kids n := by rw [← hg1] at he; exact he
    have hed : g1.ed = g.ed := by rw [← hg1]
    rw [hed]
    obtain ⟨a, c⟩ := (h.kids n e).1 he
    exact List.mem_map.2 ⟨e, (h.par _ e).2 ⟨a, rfl⟩, c⟩)
  have hG : ({ g1 with bb := b } : G σ) = { g with bb := b } := by rw [← hg1]
  rw [f1] at f2 f3 hcb
  rw [hG] at f2 f3 hcb
  have b1 : ∀ n, g1.bb n = if n ∈ g.an then (if n = g.trg then 0 else P.best0 m.sense) else g.bb n := by
    intro n; rw [← hg1]
  have q1 : g1.kids = g.kids := by rw [← hg1]
  refine ⟨b, hcb, ?_, ?_⟩
  · intro n hn
    have := f3 n (p2.mem_iff.2 hn)
    rw [b1, q1] at this
    simpa only [hn, if_true] using this
  · intro n hn
    have := f2 n (fun hh => hn (p2.mem_iff.1 hh))
    rw [b1] at this
    simpa only [hn, if_false] using this

theorem fin_wg {g : G σ} {d p : Nat} (h : Inv Vl P m rank r prim rel g d [] [] p []) (ha : AnOK g 1) : ∃ ρ, Wg g ρ := by
  refine ⟨rho m rank g (rank r.st + d + 1), ha.1, h.kids, h.par, h.kn, h.pn, ?_, ?_, ?_⟩
  · intro e he
    have := (h.esrc e he).1
    exact (ha.2 _).2 ⟨this.1, Or.inl this⟩
  · intro e he
    have := h.toStr.ed_lv he
    exact (ha.2 _).2 ⟨this.1, Or.inl this⟩
  · intro e he
    obtain ⟨h1, h2, _⟩ := h.esrc e he
    unfold rho
    rw [if_neg (by simp [h2])]
    split
    · rcases h.done _ h1 h2 with x | x | x
      · simp at x
      · simp at x
      · omega
    · rename_i hq
      rcases h.erank e he with x | x
      · exact absurd x hq
      · omega

/-! ### Results -/

/-- `Restricted::compute`: the sink has no value, or that of a real path. -/
theorem restricted_run (H : Lay P m rank r.st r.bound) {w f : Nat} {g : G σ} (h : Fl.restricted P m prim w f r = some g) :
    g.bound g.trg = P.best0 m.sense ∨
      ∃ ls, g.lab g.trg = r.lab ++ ls ∧ Run P m r.st r.bound ls m.stt (g.bound g.trg) := by
  unfold Fl.restricted at h
  dsimp only at h
  rw [Option.map_eq_some_iff] at h
  obtain ⟨g0, h1, rfl⟩ := h
  obtain ⟨⟨d, p, hi⟩, _⟩ := restricted_inv H.toV h1
  have hs : ∀ i, (Fl.start2 P m r).ex i = true :=
    fun i => makeNode_ax (P := P) (m := m) (g := start r) (fun _ => rfl) m.stt i
  have hax := resLoop_ax w f _ _ _ hs h1
  obtain ⟨bd, lb, t1, t2⟩ := sink_run hi (fun i _ => hax i)
  have ht := hi.trg
  rw [t1]
  dsimp only
  rw [ht, upd_same, upd_same]
  exact t2

/-- What is known of a diagram that `Relaxed::compute` has built: it is a finished one with the sink's value and
backward bounds filled in. -/
theorem relaxed_shape (H : LayV Vl P m rank r.st r.bound) {w f : Nat} {g : G σ} (h : Fl.relaxed P m prim w f r = some g) :
    ∃ g0 d p bd lb b, Inv Vl P m rank r prim true g0 d [] [] p [] ∧ AnOK g0 1 ∧
      g = { g0 with bound := upd g0.bound 1 bd, lab := upd g0.lab 1 lb, bb := b } ∧
      (g0.exact = true → bd = P.best0 m.sense ∨ ∃ ls, lb = r.lab ++ ls ∧ Run P m r.st r.bound ls m.stt bd) ∧
      (∀ e, e ∈ g0.par 1 → m.sense.k (P.add (g0.bound (g0.es e)) (g0.eo e)) ≤ m.sense.k bd) ∧
      (∀ n, n ∈ g0.an → b n = kidLoop P m g (g0.kids n)
        (if (g0.kids n).isEmpty then (if n = 1 then 0 else P.best0 m.sense) else P.best0 m.sense)) := by
  unfold Fl.relaxed at h
  simp only [Option.bind_eq_some_iff] at h
  obtain ⟨g0, h1, h2⟩ := h
  obtain ⟨⟨d, p, hi⟩, ha⟩ := relaxed_inv H h1
  obtain ⟨ρ, wg⟩ := fin_wg hi ha
  obtain ⟨bd, lb, t1, _, t4⟩ := tighten_trg (P := P) (m := m) hi.trg
  have t1' := t1
  rw [t1] at h2
  have wg' : Wg ({ g0 with bound := upd g0.bound 1 bd, lab := upd g0.lab 1 lb } : G σ) ρ :=
    ⟨wg.nd, wg.kids, wg.par, wg.kn, wg.pn, wg.src, wg.dst, wg.up⟩
  obtain ⟨b, c1, c2, _⟩ := computeBestBackward_eq (P := P) (m := m) wg'
  rw [c1, Option.some.injEq] at h2
  refine ⟨g0, d, p, bd, lb, b, hi, ha, h2.symm, ?_, t4, fun n hn => ?_⟩
  case refine_2 =>
    have := c2 n hn
    dsimp only at this
    rw [hi.trg] at this
    rw [← h2]
    exact this
  intro hx
  obtain ⟨bd', lb', t2, t3⟩ := sink_run hi (fun i hi' => hi.exa hx i hi')
  have e := t1'.symm.trans t2
  have eb : upd g0.bound 1 bd 1 = upd g0.bound 1 bd' 1 := congrFun (congrArg G.bound e) 1
  have el : upd g0.lab 1 lb 1 = upd g0.lab 1 lb' 1 := congrFun (congrArg G.lab e) 1
  rw [upd_same, upd_same] at eb el
  rw [eb, el]; exact t3

/-- `Relaxed::compute` when the diagram is exact. -/
theorem relaxed_run (H : Lay P m rank r.st r.bound) {w f : Nat} {g : G σ} (h : Fl.relaxed P m prim w f r = some g)
    (hx : g.exact = true) : g.bound g.trg = P.best0 m.sense ∨
      ∃ ls, g.lab g.trg = r.lab ++ ls ∧ Run P m r.st r.bound ls m.stt (g.bound g.trg) := by
  obtain ⟨g0, d, p, bd, lb, b, hi, _, rfl, hs, _⟩ := relaxed_shape H.toV h
  have ht := hi.trg
  dsimp only
  rw [ht, upd_same, upd_same]
  exact hs hx

/-- The cut set of a relaxed diagram: nodes that are not terminal, reached along a real path with the
value the machine adds up. -/
theorem relaxed_cut (H : Lay P m rank r.st r.bound) {w f : Nat} {g : G σ} (h : Fl.relaxed P m prim w f r = some g) :
    g.st g.root = r.st ∧ ∃ cs, cutSet g = some cs ∧ cs.Nodup ∧ ∀ k, k ∈ cs → m.eqs (g.st k) = false ∧
      (∃ ls, g.lab k = r.lab ++ ls ∧ Run P m r.st r.bound ls (g.st k) (g.bound k)) ∧
      (k ≠ g.root → rank r.st < rank (g.st k)) := by
  obtain ⟨g0, d, p, bd, lb, b, hi, _, rfl, _⟩ := relaxed_shape H.toV h
  refine ⟨by dsimp only; rw [hi.root]; exact hi.st0, ?_⟩
  obtain ⟨V, cs, h1, C⟩ := cutSet_spec (g := { g0 with bound := upd g0.bound 1 bd, lab := upd g0.lab 1 lb, bb := b }) (by
    intro i e he
    obtain ⟨a, c⟩ := (hi.kids i e).1 he
    exact ⟨c, (hi.edge e a).2⟩) (by dsimp only; rw [hi.root]; have := hi.two; omega) (by dsimp only; rw [hi.root]; exact hi.ex0)
  refine ⟨cs, h1, C.csn, ?_⟩
  intro k hk
  obtain ⟨kV, hka⟩ := (C.csm k).1 hk
  have hlv : Lv g0 k ∧ k ≠ 1 := by
    rcases C.lv k kV with a | ⟨e, e1, e2, e3, e4⟩
    · have a : k = g0.root := a
      rw [hi.root] at a; subst a
      exact ⟨⟨by have := hi.two; omega, Or.inl rfl⟩, by omega⟩
    · obtain ⟨a, _⟩ := (hi.kids _ e).1 e1
      have := hi.toStr.ed_lv a
      have e3 : g0.ed e = k := e3
      have e4 : k ≠ g0.trg := e4
      rw [e3] at this
      rw [hi.trg] at e4
      exact ⟨this, e4⟩
  have hq : m.eqs (g0.st k) = false := by
    unfold allKidsExact at hka
    cases hkk : g0.kids k with
    | nil => dsimp only at hka; rw [hkk] at hka; simp at hka
    | cons e l =>
      have : e ∈ g0.kids k := by rw [hkk]; simp
      obtain ⟨e1, e2⟩ := (hi.kids k e).1 this
      rw [← e2]
      exact (hi.esrc e e1).2.1
  have hex : g0.ex k = true := C.ex k kV
  have hgen := hi.gen k hlv.1 hex
  dsimp only
  rw [upd_ne _ _ hlv.2, upd_ne _ _ hlv.2]
  refine ⟨hq, hgen, ?_⟩
  intro hkr
  rw [hi.root] at hkr
  -- a node other than the root has a parent, and arcs go one rank up
  obtain ⟨hlt, h0 | hpar⟩ := hlv.1
  · exact absurd h0 hkr
  · cases hp : g0.par k with
    | nil => exact absurd hp hpar
    | cons e l =>
      have he : e ∈ g0.par k := by rw [hp]; simp
      obtain ⟨e1, e2⟩ := (hi.par k e).1 he
      obtain ⟨s1, s2, _⟩ := hi.esrc e e1
      rcases hi.erank e e1 with x | x
      · rw [e2, hq] at x; simp at x
      · rw [e2] at x
        have := hi.lay _ s1.1 s2
        omega

end Verif.Fl
