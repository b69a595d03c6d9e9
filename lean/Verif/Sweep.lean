import Verif.Topo
import Verif.DDFinal
/-!
# `computeBest` and `computeBestBackward` solve their Bellman equations
-/
namespace Verif.DD
variable {σ : Type} {m : Mdl σ}

/-- A diagram with consistent adjacency lists whose arcs increase `ρ` and stay in the node list. -/
structure Wg (g : G σ) (ρ : Nat → Nat) : Prop where
  nd : g.an.Nodup
  kids : ∀ i e, e ∈ g.kids i ↔ e < g.ne ∧ g.es e = i
  par : ∀ i e, e ∈ g.par i ↔ e < g.ne ∧ g.ed e = i
  kn : ∀ i, (g.kids i).Nodup
  pn : ∀ i, (g.par i).Nodup
  src : ∀ e, e < g.ne → g.es e ∈ g.an
  dst : ∀ e, e < g.ne → g.ed e ∈ g.an
  up : ∀ e, e < g.ne → ρ (g.es e) < ρ (g.ed e)

/-- Counting an edge endpoint over all adjacency lists. -/
theorem count_adj (an : List Nat) (hnd : an.Nodup) (adj : Nat → List Nat) (src dst : Nat → Nat)
    (hs : ∀ i e, e ∈ adj i → src e = i) (hn : ∀ i, (adj i).Nodup) (n : Nat) (l : List Nat) (hl : l.Nodup)
    (hmem : ∀ e, e ∈ l ↔ (∃ i, i ∈ an ∧ e ∈ adj i) ∧ dst e = n) :
    l.length = (an.flatMap (fun i => (adj i).map dst)).count n := by
  have h1 : an.flatMap (fun i => (adj i).map dst) = (an.flatMap adj).map dst := by
    rw [List.map_flatMap]
  rw [h1, List.count_eq_countP, List.countP_map, List.countP_eq_length_filter]
  have hN : (an.flatMap adj).Nodup := by
    rw [List.Nodup, List.pairwise_flatMap]
    refine ⟨fun i _ => hn i, ?_⟩
    refine List.Pairwise.imp ?_ hnd
    intro a b hab x hx y hy hxy
    subst hxy
    exact hab (by rw [← hs a x hx, hs b x hy])
  apply List.Perm.length_eq
  refine (List.perm_ext_iff_of_nodup hl (hN.filter _)).2 ?_
  intro e
  rw [hmem, List.mem_filter, List.mem_flatMap]
  simp

/-! ### Forward -/

/-- One node of the forward sweep. -/
def procF (m : Mdl σ) (g : G σ) (n : Nat) : G σ :=
  { g with bound := upd g.bound n (bestPar m g n).1, lab := upd g.lab n (bestPar m g n).2 }

theorem bestPar_eq (g : G σ) (n : Nat) : bestPar m g n =
    tightenLoop m g (g.par n) (if (g.par n).isEmpty then g.bound n else m.sense.best0) (g.lab n) := by
  have : ∀ (es : List Nat) (cur : Int) (lb : List Int), bestPar.go m g es cur lb = tightenLoop m g es cur lb := by
    intro es
    induction es with
    | nil => intro cur lb; rfl
    | cons e es ih =>
      intro cur lb
      unfold bestPar.go tightenLoop
      dsimp only
      split
      · exact ih _ _
      · exact ih _ _
  exact this _ _ _

theorem cbLoop_eq (nl : Nat → Option Nat) (outs : Nat → List Nat) : ∀ (k : Nat) (h : DH) (g : G σ),
    (∀ n, outs n = (g.kids n).map g.ed) →
    cbLoop m nl k h g = (topoSeq nl outs k h).map (fun π => π.foldl (procF m) g) := by
  intro k
  induction k with
  | zero => intro h g _; rfl
  | succ k ih =>
    intro h g ho
    unfold cbLoop topoSeq
    dsimp only
    rw [← ho]
    cases topoDec nl (outs (Heap.extractMax dord h).2.1) (Heap.extractMax dord h).1 with
    | none => rfl
    | some h1 =>
      dsimp only
      have := ih h1 (procF m g (Heap.extractMax dord h).2.1) (fun n => by rw [ho]; rfl)
      unfold procF at this
      rw [this, Option.map_map]
      rfl

theorem tightenLoop_congr (g g' : G σ) (he : g'.es = g.es) (heo : g'.eo = g.eo) (hel : g'.el = g.el) :
    ∀ (es : List Nat), (∀ e, e ∈ es → g'.bound (g.es e) = g.bound (g.es e) ∧ g'.lab (g.es e) = g.lab (g.es e)) →
    ∀ cur lb, tightenLoop m g' es cur lb = tightenLoop m g es cur lb := by
  intro es
  induction es with
  | nil => intros; rfl
  | cons e es ih =>
    intro h cur lb
    unfold tightenLoop
    obtain ⟨a, b⟩ := h e (by simp)
    rw [he, heo, hel, a, b]
    simp only [ih (fun e he => h e (by simp [he]))]

/-- After the sweep over a topological order every node satisfies its equation. -/
theorem foldF {outs : Nat → List Nat} : ∀ (π : List Nat) (g : G σ), π.Nodup → TopoL outs π →
    (∀ n e, n ∈ π → e ∈ g.par n → n ∈ outs (g.es e)) →
    (∃ b lb, π.foldl (procF m) g = { g with bound := b, lab := lb }) ∧
    (∀ n, n ∉ π → (π.foldl (procF m) g).bound n = g.bound n ∧ (π.foldl (procF m) g).lab n = g.lab n) ∧
    (∀ n, n ∈ π → ((π.foldl (procF m) g).bound n, (π.foldl (procF m) g).lab n) =
      tightenLoop m (π.foldl (procF m) g) (g.par n) (if (g.par n).isEmpty then g.bound n else m.sense.best0) (g.lab n)) := by
  intro π
  induction π with
  | nil => intro g _ _ _; exact ⟨⟨g.bound, g.lab, rfl⟩, fun _ _ => ⟨rfl, rfl⟩, by simp⟩
  | cons n π ih =>
    intro g hnd ht hd
    obtain ⟨hn, hnd'⟩ := List.nodup_cons.1 hnd
    obtain ⟨⟨b, lb, i1⟩, i2, i3⟩ := ih (procF m g n) hnd' ht.2 (fun k e hk he => hd k e (by simp [hk]) he)
    simp only [List.foldl_cons]
    refine ⟨⟨b, lb, by rw [i1]; rfl⟩, ?_, ?_⟩
    · intro k hk
      simp only [List.mem_cons, not_or] at hk
      obtain ⟨a1, a2⟩ := i2 k hk.2
      rw [a1, a2]
      exact ⟨upd_ne _ _ hk.1, upd_ne _ _ hk.1⟩
    · intro k hk
      by_cases hkn : k = n
      · subst hkn
        obtain ⟨a1, a2⟩ := i2 k hn
        rw [a1, a2]
        have hc : tightenLoop m (π.foldl (procF m) (procF m g k)) (g.par k)
            (if (g.par k).isEmpty then g.bound k else m.sense.best0) (g.lab k) =
            tightenLoop m g (g.par k) (if (g.par k).isEmpty then g.bound k else m.sense.best0) (g.lab k) := by
          apply tightenLoop_congr
          · rw [i1]; rfl
          · rw [i1]; rfl
          · rw [i1]; rfl
          · intro e he
            have h1 : k ∈ outs (g.es e) := hd k e (by simp) he
            have h2 := ht.1 _ h1
            simp only [List.mem_cons, not_or] at h2
            obtain ⟨c1, c2⟩ := i2 _ h2.2
            rw [c1, c2]
            exact ⟨upd_ne _ _ h2.1, upd_ne _ _ h2.1⟩
        rw [hc]
        have hb := bestPar_eq (m := m) g k
        show (upd g.bound k (bestPar m g k).1 k, upd g.lab k (bestPar m g k).2 k) = _
        rw [upd_same, upd_same, ← hb]
      · have hk : k ∈ π := by simpa [hkn] using hk
        have := i3 k hk
        have e1 : (procF m g n).par = g.par := rfl
        have e2 : (procF m g n).bound k = g.bound k := upd_ne _ _ hkn
        have e3 : (procF m g n).lab k = g.lab k := upd_ne _ _ hkn
        rw [e1, e2, e3] at this
        exact this

/-- `computeBest` never meets a null location, changes bounds and labels only, and every node
satisfies the forward equation. -/
theorem computeBest_eq {g : G σ} {ρ : Nat → Nat} (h : Wg g ρ) :
    ∃ b lb, computeBest m g = some { g with bound := b, lab := lb } ∧
      (∀ n, n ∈ g.an → (b n, lb n) = tightenLoop m { g with bound := b, lab := lb } (g.par n)
        (if (g.par n).isEmpty then (if n ≠ g.root then m.sense.best0 else g.bound n) else m.sense.best0) (g.lab n)) ∧
      (∀ n, n ∉ g.an → b n = g.bound n ∧ lb n = g.lab n) := by
  have hdeg : ∀ n, n ∈ g.an → (g.par n).length = (g.an.flatMap (fun i => (g.kids i).map g.ed)).count n := by
    intro n _
    refine count_adj g.an h.nd g.kids g.es g.ed (fun i e he => ((h.kids i e).1 he).2) h.kn n _ (h.pn n) ?_
    intro e
    rw [h.par]
    constructor
    · rintro ⟨a, b⟩; exact ⟨⟨g.es e, h.src e a, (h.kids _ e).2 ⟨a, rfl⟩⟩, b⟩
    · rintro ⟨⟨i, _, a⟩, b⟩; exact ⟨((h.kids i e).1 a).1, b⟩
  obtain ⟨π, p1, p2, p3⟩ := topo_spec (outs := fun i => (g.kids i).map g.ed) (ρ := ρ) (by
    intro a b hb
    obtain ⟨e, e1, e2⟩ := List.mem_map.1 hb
    obtain ⟨e3, e4⟩ := (h.kids a e).1 e1
    have := h.up e e3
    rw [← e2, ← e4]; exact this) (fun n => (g.par n).length) g.an h.nd hdeg (by
    intro p _ n hn
    obtain ⟨e, e1, e2⟩ := List.mem_map.1 hn
    rw [← e2]; exact h.dst e ((h.kids p e).1 e1).1)
  generalize hg1 : ({ g with bound := fun n => if n ∈ g.an ∧ n ≠ g.root then m.sense.best0 else g.bound n } : G σ) = g1
  have hcb : computeBest m g = some (π.foldl (procF m) g1) := by
    unfold computeBest
    dsimp only
    rw [hg1, cbLoop_eq _ (fun i => (g.kids i).map g.ed) _ _ g1 (by intro n; rw [← hg1]), p1]
    rfl
  obtain ⟨⟨b, lb, f1⟩, f2, f3⟩ := foldF (m := m) π g1 (p2.nodup_iff.2 h.nd) p3 (by
    intro n e _ he
    have he : e ∈ g.par n := by rw [← hg1] at he; exact he
    have hes : g1.es = g.es := by rw [← hg1]
    rw [hes]
    obtain ⟨a, c⟩ := (h.par n e).1 he
    exact List.mem_map.2 ⟨e, (h.kids _ e).2 ⟨a, rfl⟩, c⟩)
  have hG : ({ g1 with bound := b, lab := lb } : G σ) = { g with bound := b, lab := lb } := by rw [← hg1]
  rw [f1] at f2 f3 hcb
  rw [hG] at f2 f3 hcb
  have b1 : ∀ n, g1.bound n = if n ∈ g.an ∧ n ≠ g.root then m.sense.best0 else g.bound n := by
    intro n; rw [← hg1]
  have l1 : g1.lab = g.lab := by rw [← hg1]
  have q1 : g1.par = g.par := by rw [← hg1]
  refine ⟨b, lb, hcb, ?_, ?_⟩
  · intro n hn
    have := f3 n (p2.mem_iff.2 hn)
    rw [b1, l1, q1] at this
    simpa only [hn, true_and] using this
  · intro n hn
    have := f2 n (fun hh => hn (p2.mem_iff.1 hh))
    rw [b1, l1] at this
    simpa only [hn, false_and, if_false] using this

/-! ### Backward -/

/-- One node of the backward sweep. -/
def procB (m : Mdl σ) (g : G σ) (n : Nat) : G σ := { g with bb := upd g.bb n (bestKid m g n) }

/-- The loop of `bestKid`. -/
def kidLoop (m : Mdl σ) (g : G σ) (es : List Nat) (init : Int) : Int :=
  es.foldl (fun cur e =>
    let ep := g.bb (g.ed e) + g.eo e
    if m.sense.better ep cur then ep else cur) init

theorem kidLoop_spec (g : G σ) : ∀ (es : List Nat) (init : Int),
    (kidLoop m g es init = init ∨ ∃ e, e ∈ es ∧ kidLoop m g es init = g.bb (g.ed e) + g.eo e) ∧
    m.sense.k init ≤ m.sense.k (kidLoop m g es init) ∧
    (∀ e, e ∈ es → m.sense.k (g.bb (g.ed e) + g.eo e) ≤ m.sense.k (kidLoop m g es init)) := by
  intro es
  induction es with
  | nil => intro init; simp [kidLoop]
  | cons e es ih =>
    intro init
    have hu : kidLoop m g (e :: es) init = kidLoop m g es
        (if m.sense.better (g.bb (g.ed e) + g.eo e) init then g.bb (g.ed e) + g.eo e else init) := rfl
    rw [hu]
    obtain ⟨a1, a2, a3⟩ := ih (if m.sense.better (g.bb (g.ed e) + g.eo e) init then g.bb (g.ed e) + g.eo e else init)
    have hk : m.sense.k init ≤ m.sense.k (if m.sense.better (g.bb (g.ed e) + g.eo e) init then g.bb (g.ed e) + g.eo e else init) ∧
        m.sense.k (g.bb (g.ed e) + g.eo e) ≤ m.sense.k (if m.sense.better (g.bb (g.ed e) + g.eo e) init then g.bb (g.ed e) + g.eo e else init) := by
      split
      · rename_i hb; rw [Sense.better_iff] at hb; omega
      · rename_i hb
        have hb : m.sense.better (g.bb (g.ed e) + g.eo e) init = false := by simpa using hb
        rw [Sense.better_false] at hb; omega
    refine ⟨?_, by omega, ?_⟩
    · rcases a1 with a | ⟨e', b1, b2⟩
      · rw [a]
        split
        · exact Or.inr ⟨e, by simp, rfl⟩
        · exact Or.inl rfl
      · exact Or.inr ⟨e', by simp [b1], b2⟩
    · intro e' he'
      rcases List.mem_cons.1 he' with x | x
      · subst x; omega
      · exact a3 e' x

theorem kidLoop_congr (g g' : G σ) (he : g'.ed = g.ed) (heo : g'.eo = g.eo) :
    ∀ (es : List Nat), (∀ e, e ∈ es → g'.bb (g.ed e) = g.bb (g.ed e)) →
    ∀ init, kidLoop m g' es init = kidLoop m g es init := by
  intro es
  induction es with
  | nil => intros; rfl
  | cons e es ih =>
    intro h init
    show kidLoop m g' es _ = kidLoop m g es _
    rw [ih (fun e he => h e (by simp [he]))]
    rw [he, heo]
    dsimp only
    rw [h e (by simp)]

theorem cbbLoop_eq (nl : Nat → Option Nat) (outs : Nat → List Nat) : ∀ (k : Nat) (h : DH) (g : G σ),
    (∀ n, outs n = (g.par n).map g.es) →
    cbbLoop m nl k h g = (topoSeq nl outs k h).map (fun π => π.foldl (procB m) g) := by
  intro k
  induction k with
  | zero => intro h g _; rfl
  | succ k ih =>
    intro h g ho
    unfold cbbLoop topoSeq
    dsimp only
    rw [← ho]
    cases topoDec nl (outs (Heap.extractMax dord h).2.1) (Heap.extractMax dord h).1 with
    | none => rfl
    | some h1 =>
      dsimp only
      have := ih h1 (procB m g (Heap.extractMax dord h).2.1) (fun n => by rw [ho]; rfl)
      unfold procB at this
      rw [this, Option.map_map]
      rfl

theorem foldB {outs : Nat → List Nat} : ∀ (π : List Nat) (g : G σ), π.Nodup → TopoL outs π →
    (∀ n e, n ∈ π → e ∈ g.kids n → n ∈ outs (g.ed e)) →
    (∃ b, π.foldl (procB m) g = { g with bb := b }) ∧
    (∀ n, n ∉ π → (π.foldl (procB m) g).bb n = g.bb n) ∧
    (∀ n, n ∈ π → (π.foldl (procB m) g).bb n =
      kidLoop m (π.foldl (procB m) g) (g.kids n) (if (g.kids n).isEmpty then g.bb n else m.sense.best0)) := by
  intro π
  induction π with
  | nil => intro g _ _ _; exact ⟨⟨g.bb, rfl⟩, fun _ _ => rfl, by simp⟩
  | cons n π ih =>
    intro g hnd ht hd
    obtain ⟨hn, hnd'⟩ := List.nodup_cons.1 hnd
    obtain ⟨⟨b, i1⟩, i2, i3⟩ := ih (procB m g n) hnd' ht.2 (fun k e hk he => hd k e (by simp [hk]) he)
    simp only [List.foldl_cons]
    refine ⟨⟨b, by rw [i1]; rfl⟩, ?_, ?_⟩
    · intro k hk
      simp only [List.mem_cons, not_or] at hk
      rw [i2 k hk.2]
      exact upd_ne _ _ hk.1
    · intro k hk
      by_cases hkn : k = n
      · subst hkn
        rw [i2 k hn]
        have hc : kidLoop m (π.foldl (procB m) (procB m g k)) (g.kids k)
            (if (g.kids k).isEmpty then g.bb k else m.sense.best0) =
            kidLoop m g (g.kids k) (if (g.kids k).isEmpty then g.bb k else m.sense.best0) := by
          apply kidLoop_congr
          · rw [i1]; rfl
          · rw [i1]; rfl
          · intro e he
            have h1 : k ∈ outs (g.ed e) := hd k e (by simp) he
            have h2 := ht.1 _ h1
            simp only [List.mem_cons, not_or] at h2
            rw [i2 _ h2.2]
            exact upd_ne _ _ h2.1
        rw [hc]
        show upd g.bb k (bestKid m g k) k = _
        rw [upd_same]; rfl
      · have hk : k ∈ π := by simpa [hkn] using hk
        have := i3 k hk
        have e1 : (procB m g n).kids = g.kids := rfl
        have e2 : (procB m g n).bb k = g.bb k := upd_ne _ _ hkn
        rw [e1, e2] at this
        exact this

/-- `computeBestBackward` never meets a null location, changes backward bounds only, and every
node satisfies the backward equation. -/
theorem computeBestBackward_eq {g : G σ} {ρ : Nat → Nat} (h : Wg g ρ) :
    ∃ b, computeBestBackward m g = some { g with bb := b } ∧
      (∀ n, n ∈ g.an → b n = kidLoop m { g with bb := b } (g.kids n)
        (if (g.kids n).isEmpty then (if n = g.trg then 0 else m.sense.best0) else m.sense.best0)) ∧
      (∀ n, n ∉ g.an → b n = g.bb n) := by
  have hdeg : ∀ n, n ∈ g.an → (g.kids n).length = (g.an.flatMap (fun i => (g.par i).map g.es)).count n := by
    intro n _
    refine count_adj g.an h.nd g.par g.ed g.es (fun i e he => ((h.par i e).1 he).2) h.pn n _ (h.kn n) ?_
    intro e
    rw [h.kids]
    constructor
    · rintro ⟨a, b⟩; exact ⟨⟨g.ed e, h.dst e a, (h.par _ e).2 ⟨a, rfl⟩⟩, b⟩
    · rintro ⟨⟨i, _, a⟩, b⟩; exact ⟨((h.par i e).1 a).1, b⟩
  -- a bound on the measure, to reverse it
  obtain ⟨K, hK⟩ : ∃ K, ∀ n, n ∈ g.an → ρ n ≤ K := by
    have : ∀ (l : List Nat), ∃ K, ∀ n, n ∈ l → ρ n ≤ K := by
      intro l
      induction l with
      | nil => exact ⟨0, by simp⟩
      | cons a l ih =>
        obtain ⟨K, hK⟩ := ih
        refine ⟨max K (ρ a), fun n hn => ?_⟩
        rcases List.mem_cons.1 hn with x | x
        · rw [x]; omega
        · have := hK n x; omega
    exact this g.an
  obtain ⟨π, p1, p2, p3⟩ := topo_spec (outs := fun i => (g.par i).map g.es) (ρ := fun n => K - ρ n) (by
    intro a b hb
    obtain ⟨e, e1, e2⟩ := List.mem_map.1 hb
    obtain ⟨e3, e4⟩ := (h.par a e).1 e1
    have h1 := h.up e e3
    have h2 := hK _ (h.dst e e3)
    have h3 := hK _ (h.src e e3)
    rw [← e2, ← e4]; omega) (fun n => (g.kids n).length) g.an h.nd hdeg (by
    intro p _ n hn
    obtain ⟨e, e1, e2⟩ := List.mem_map.1 hn
    rw [← e2]; exact h.src e ((h.par p e).1 e1).1)
  generalize hg1 : ({ g with bb := fun n => if n ∈ g.an then (if n = g.trg then 0 else m.sense.best0) else g.bb n } : G σ) = g1
  have hcb : computeBestBackward m g = some (π.foldl (procB m) g1) := by
    unfold computeBestBackward
    dsimp only
    rw [hg1, cbbLoop_eq _ (fun i => (g.par i).map g.es) _ _ g1 (by intro n; rw [← hg1]), p1]
    rfl
  obtain ⟨⟨b, f1⟩, f2, f3⟩ := foldB (m := m) π g1 (p2.nodup_iff.2 h.nd) p3 (by
    intro n e _ he
    have he : e ∈ g.kids n := by rw [← hg1] at he; exact he
    have hed : g1.ed = g.ed := by rw [← hg1]
    rw [hed]
    obtain ⟨a, c⟩ := (h.kids n e).1 he
    exact List.mem_map.2 ⟨e, (h.par _ e).2 ⟨a, rfl⟩, c⟩)
  have hG : ({ g1 with bb := b } : G σ) = { g with bb := b } := by rw [← hg1]
  rw [f1] at f2 f3 hcb
  rw [hG] at f2 f3 hcb
  have b1 : ∀ n, g1.bb n = if n ∈ g.an then (if n = g.trg then 0 else m.sense.best0) else g.bb n := by
    intro n; rw [← hg1]
  have q1 : g1.kids = g.kids := by rw [← hg1]
  refine ⟨b, hcb, ?_, ?_⟩
  · intro n hn
    have := f3 n (p2.mem_iff.2 hn)
    rw [b1, q1] at this
    simpa only [hn, if_true] using this
  · intro n hn
    have := f2 n (fun hh => hn (p2.mem_iff.1 hh))
    rw [b1] at this
    simpa only [hn, if_false] using this

end Verif.DD
