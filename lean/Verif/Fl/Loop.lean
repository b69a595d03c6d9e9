import Verif.Fl.MergeLayer
import Verif.DDFinal
/-!
# The layer loops of `Restricted` and `Relaxed` keep the invariant
-/
namespace Verif.Fl
open Verif.DD
set_option linter.unusedSectionVars false
variable {σ : Type} {Vl : σ → Int → Prop} {P : Num} [Same σ] {m : Mdl σ} {rank : σ → Nat} {r : Src σ} {prim : Int} {rel : Bool}

/-- Start expanding the first node of the layer. -/
theorem Inv.take {g : G σ} {d : Nat} {p p0 : Nat} {ps B : List Nat}
    (h : Inv Vl P m rank r prim rel g d (p :: ps) B p0 []) :
    Inv Vl P m rank r prim rel g d ps B p (m.lgf (g.st p)) ∧ Cur m rank r g d ps B p := by
  have hn := List.nodup_cons.1 h.An
  obtain ⟨a1, a2, a3, a4⟩ := h.Am p (by simp)
  refine ⟨{ h with
    esrc := fun e he => by
      obtain ⟨x1, x2, x3, x4⟩ := h.esrc e he
      exact ⟨x1, x2, fun hh => x3 (by simp [hh]), x4⟩
    An := hn.2
    Am := fun i hi => h.Am i (by simp [hi])
    done := fun i hi hq => by
      rcases h.done i hi hq with x | x | x
      · rcases List.mem_cons.1 x with y | y
        · rw [y, a4]; omega
        · exact Or.inl y
      · exact Or.inr (Or.inl x)
      · exact Or.inr (Or.inr x)
    cov := fun hr i hi hq hA hB l hl hrem => by
      by_cases hip : i = p
      · exact absurd ⟨hip, by rw [← hip]; exact hl⟩ hrem
      · exact h.cov hr i hi hq (by simp [hip, hA]) hB l hl (by simp) }, ?_⟩
  refine ⟨a1, a2, hn.1, ?_, a4, a3⟩
  intro hh
  have := (h.Bm p hh).2.2.2
  omega

/-- The next layer becomes the current one. -/
theorem Inv.shift {g : G σ} {d : Nat} {p : Nat} {B : List Nat}
    (h : Inv Vl P m rank r prim rel g d [] B p []) : Inv Vl P m rank r prim rel g (d + 1) B [] p [] :=
  { h with
    esrc := fun e he => by
      obtain ⟨x1, x2, x3, x4⟩ := h.esrc e he
      exact ⟨x1, x2, x4, by simp⟩
    An := h.Bn
    Bn := by simp
    Am := h.Bm
    Bm := by simp
    done := fun i hi hq => by
      rcases h.done i hi hq with x | x | x
      · simp at x
      · exact Or.inl x
      · exact Or.inr (Or.inr (by omega))
    cov := fun hr i hi hq hA _ l hl hrem => h.cov hr i hi hq (by simp) hA l hl hrem }

/-- `Restricted` gives up the rest of the layer (`goto next`). -/
theorem Inv.abandon {g : G σ} {d : Nat} {p : Nat} {A B : List Nat} {rem : List Int}
    (h : Inv Vl P m rank r prim false g d A B p rem) :
    Inv Vl P m rank r prim false { g with exact := false } d [] B p [] :=
  { h with
    esrc := fun e he => by
      obtain ⟨x1, x2, x3, x4⟩ := h.esrc e he
      exact ⟨x1, x2, by simp, x4⟩
    exa := by simp
    An := by simp
    Am := by simp
    done := fun i hi hq => by
      rcases h.done i hi hq with x | x | x
      · exact Or.inr (Or.inr (by have := (h.Am i x).2.2.2; show rank (g.st i) ≤ _; omega))
      · exact Or.inr (Or.inl x)
      · exact Or.inr (Or.inr x)
    cov := fun hr => by
      have := hr rfl
      simp at this }

section

theorem start2_inv (H : LayV Vl P m rank r.st r.bound) :
    Inv Vl P m rank r prim rel (Fl.start2 P m r) 0 [0] [] 0 [] ∧ AnOK (Fl.start2 P m r) 1 ∧ (Fl.start2 P m r).exact = true := by
  have hne : r.st ≠ m.stt := by
    intro hh
    have := H.src
    rw [hh, H.sink] at this; simp at this
  have hne1 : Same.same r.st m.stt = false := by
    cases hh : Same.same r.st m.stt with
    | false => rfl
    | true => exact absurd (H.snk _ Rch.root (H.symm _ _ hh)) hne
  have hne2 : Same.same m.stt r.st = false := by
    cases hh : Same.same m.stt r.st with
    | false => rfl
    | true => exact absurd (H.snk _ Rch.root hh) hne
  have hf : findNode (start r) m.stt = none := by
    unfold findNode start
    simp [hne1]
  have hs : Fl.start2 P m r = { start r with
      st := upd (fun _ => r.st) 1 m.stt, lab := upd (fun _ => r.lab) 1 [],
      bound := upd (fun _ => r.bound) 1 (P.best0 m.sense), bb := upd (fun _ => r.bb) 1 0,
      layer := upd (fun _ => 0) 1 0, ex := upd (fun _ => true) 1 true,
      par := upd (fun _ => []) 1 [], kids := upd (fun _ => []) 1 [], nn := 2, an := [0, 1], trg := 1 } := by
    unfold Fl.start2 Fl.makeNode
    rw [hf]
    rfl
  have hpar : ∀ i, upd (fun _ => ([] : List Nat)) 1 [] i = [] := by
    intro i; rw [upd_apply]; split <;> rfl
  have hex : ∀ i, upd (fun _ => true) 1 true i = true := by
    intro i; rw [upd_apply]; split <;> rfl
  rw [hs]
  have hlv : ∀ (g : G σ) i, g.nn = 2 → (∀ i, g.par i = []) → (Lv g i ↔ i = 0) := by
    intro g i h1 h2
    simp only [Lv, h1, h2]
    constructor
    · rintro ⟨_, a | a⟩
      · exact a
      · exact absurd rfl a
    · intro a; exact ⟨by omega, Or.inl a⟩
  refine ⟨?_, ?_, rfl⟩
  · constructor
    · constructor
      · rfl
      · rfl
      · exact Nat.le_refl _
      · intro i j hi hj hij
        have hi : i < 2 := hi
        have hj : j < 2 := hj
        have hij : Same.same (upd (fun _ => r.st) 1 m.stt i) (upd (fun _ => r.st) 1 m.stt j) = true := hij
        rw [upd_apply, upd_apply] at hij
        by_cases hi1 : i = 1
        · by_cases hj1 : j = 1
          · omega
          · rw [if_pos hi1, if_neg hj1, hne2] at hij; cases hij
        · by_cases hj1 : j = 1
          · rw [if_neg hi1, if_pos hj1, hne1] at hij; cases hij
          · omega
      · intro i e
        show e ∈ upd (fun _ => []) 1 [] i ↔ e < 0 ∧ _
        rw [hpar]; simp
      · intro i e
        show e ∈ upd (fun _ => []) 1 [] i ↔ e < 0 ∧ _
        rw [hpar]; simp
      · intro i
        show (upd (fun _ => []) 1 [] i).Nodup
        rw [hpar]; simp
      · intro i
        show (upd (fun _ => []) 1 [] i).Nodup
        rw [hpar]; simp
      · intro e he; exact absurd he (Nat.not_lt_zero e)
    · rfl
    · rfl
    · rfl
    · rfl
    · rfl
    · rfl
    · intro e he; exact absurd he (Nat.not_lt_zero e)
    · intro e he; exact absurd he (Nat.not_lt_zero e)
    · intro e he; exact absurd he (Nat.not_lt_zero e)
    · intro e he; exact absurd he (Nat.not_lt_zero e)
    · intro e he; exact absurd he (Nat.not_lt_zero e)
    · intro i hi _
      rw [hlv _ i rfl hpar] at hi
      subst hi
      refine ⟨[], by show r.lab = _; simp, ?_⟩
      exact Run.nil _ _
    · intro i _ h1
      show Rch m rank r.st (upd (fun _ => r.st) 1 m.stt i)
      rw [upd_ne _ _ h1]; exact Rch.root
    · intro i _ h1 _
      exact ⟨[], 0, by show Path m r.st [] 0 (upd (fun _ => r.st) 1 m.stt i); rw [upd_ne _ _ h1]; exact Path.nil _⟩
    · intro _ i _; exact hex i
    · intro _; rfl
    · intro i hi hq
      have hi : i < 2 := hi
      have hq : m.eqs (upd (fun _ => r.st) 1 m.stt i) = false := hq
      show rank r.st + upd (fun _ => 0) 1 0 i ≤ rank (upd (fun _ => r.st) 1 m.stt i)
      rw [upd_apply] at hq ⊢
      rw [upd_apply]
      split
      · rename_i hh; rw [if_pos hh, H.sink] at hq; simp at hq
      · exact Nat.le_refl _
    · simp
    · simp
    · intro i hi
      simp at hi; subst hi
      exact ⟨(hlv _ 0 rfl hpar).2 rfl, H.src, rfl, rfl⟩
    · simp
    · intro i hi _
      rw [hlv _ i rfl hpar] at hi
      exact Or.inl (by simp [hi])
    · intro _ i hi _ hA
      rw [hlv _ i rfl hpar] at hi
      exact absurd (by simp [hi]) hA
  · constructor
    · show [0, 1].Nodup; simp
    · intro i
      rw [hlv _ i rfl hpar]
      show i ∈ [0, 1] ↔ i < 2 ∧ _
      simp; omega

/-! ### Relaxed -/

theorem relLabels_inv (H : LayV Vl P m rank r.st r.bound) {d p : Nat} {A : List Nat} :
    ∀ (ls : List Int) (g : G σ) (q : LQ), q.rest = [] →
      Inv Vl P m rank r prim rel g d A q.next p ls → Cur m rank r g d A q.next p → AnOK g 1 →
      (∀ l, l ∈ ls → l ∈ m.lgf (g.st p)) →
      ∀ g' q', Fl.relLabels P m prim p ls g q = (g', q') →
        q'.rest = [] ∧ Inv Vl P m rank r prim rel g' d A q'.next p [] ∧ AnOK g' 1 ∧ g'.exact = g.exact := by
  intro ls
  induction ls with
  | nil =>
    intro g q hr h _ ha _ g' q' he
    simp [Fl.relLabels] at he
    obtain ⟨rfl, rfl⟩ := he
    exact ⟨hr, h, ha, rfl⟩
  | cons l ls ih =>
    intro g q hr h hc ha hl g' q' he
    unfold Fl.relLabels at he
    generalize hv : Fl.visit P m prim q.next g p l = v at he
    obtain ⟨g1, o⟩ := v
    obtain ⟨v1, v2, v3, v4, v5⟩ := visit_inv H h hc ha (hl l (by simp)) hv
    cases o with
    | none =>
      obtain ⟨i1, c1⟩ := v1 rfl
      have := ih g1 q hr i1 c1 v3 (fun x hx => by rw [v5]; exact hl x (by simp [hx])) g' q' he
      rw [← v4]; exact this
    | some c =>
      obtain ⟨hcB, i1, c1⟩ := v2 c rfl
      have hq : (q.enQueue g1 c).rest = [] ∧ (q.enQueue g1 c).next = c :: q.next := by
        unfold LQ.enQueue
        cases hn : q.next with
        | nil => exact ⟨hr, rfl⟩
        | cons a as =>
          dsimp only
          have h1 := (i1.Bm a (by simp [hn])).2.2.1
          have h2 := (i1.Bm c (by simp)).2.2.1
          rw [if_pos (by omega)]
          exact ⟨hr, by simp⟩
      have nd : (c :: q.next).Nodup := List.nodup_cons.2 ⟨hcB, h.Bn⟩
      have i2 : Inv Vl P m rank r prim rel g1 d A (q.enQueue g1 c).next p ls := by
        rw [hq.2]; exact i1.perm h.An nd (fun _ => Iff.rfl) (by intro i; simp [or_comm])
      have c2 : Cur m rank r g1 d A (q.enQueue g1 c).next p := by
        refine ⟨c1.lv, c1.ne, c1.nA, ?_, c1.rk, c1.ly⟩
        rw [hq.2]; have := c1.nB; simp at this ⊢; exact ⟨this.2, this.1⟩
      have := ih g1 _ hq.1 i2 c2 v3 (fun x hx => by rw [v5]; exact hl x (by simp [hx])) g' q' he
      rw [← v4]; exact this

theorem relNodes_inv (H : LayV Vl P m rank r.st r.bound) {d : Nat} :
    ∀ (ps : List Nat) (g : G σ) (q : LQ) (p0 : Nat), q.rest = [] →
      Inv Vl P m rank r prim rel g d ps q.next p0 [] → AnOK g 1 →
      ∀ g' q', Fl.relNodes P m prim ps g q = (g', q') →
        q'.rest = [] ∧ (∃ p, Inv Vl P m rank r prim rel g' d [] q'.next p []) ∧ AnOK g' 1 ∧ g'.exact = g.exact := by
  intro ps
  induction ps with
  | nil =>
    intro g q p0 hr h ha g' q' he
    simp [Fl.relNodes] at he
    obtain ⟨rfl, rfl⟩ := he
    exact ⟨hr, ⟨p0, h⟩, ha, rfl⟩
  | cons p ps ih =>
    intro g q p0 hr h ha g' q' he
    unfold Fl.relNodes at he
    obtain ⟨i1, c1⟩ := h.take
    generalize hv : Fl.relLabels P m prim p (m.lgf (g.st p)) g q = v at he
    obtain ⟨g1, q1⟩ := v
    obtain ⟨w1, w2, w3, w4⟩ := relLabels_inv H _ g q hr i1 c1 ha (fun _ hx => hx) g1 q1 hv
    have := ih g1 q1 p w1 w2 w3 g' q' he
    rw [← w4]; exact this

/-- Pulling a layer: sort and merge. -/
theorem pull_inv (H : LayV Vl P m rank r.st r.bound) {d p : Nat} (w : Nat) {g : G σ} {q : LQ} (hr : q.rest = [])
    (h : Inv Vl P m rank r prim true g d [] q.next p []) (ha : AnOK g 1) :
    Inv Vl P m rank r prim true (pull P m w g q).1 d [] (pull P m w g q).2.1 p [] ∧ AnOK (pull P m w g q).1 1 ∧
    (pull P m w g q).2.2 = ⟨[], []⟩ := by
  have hp := relSort_perm (m := m) g q.next
  have h1 := h.perm (A' := []) List.nodup_nil (hp.nodup_iff.2 h.Bn) (fun _ => Iff.rfl) (fun i => hp.mem_iff)
  have := mergeLoop_inv (p := p) H w ((relSort m g q.next).length + 1) g (relSort m g q.next) [] (by simpa using h1) ha
  unfold pull
  simp only [hr]
  exact ⟨this.1, this.2, trivial⟩

theorem relLoop_inv (H : LayV Vl P m rank r.st r.bound) (w : Nat) : ∀ (f : Nat) (g : G σ) (q : LQ) (d p : Nat),
    q.rest = [] → Inv Vl P m rank r prim true g d [] q.next p [] → AnOK g 1 →
    ∀ g', Fl.relLoop P m prim w f g q = some g' →
      (∃ d p, Inv Vl P m rank r prim true g' d [] [] p []) ∧ AnOK g' 1 := by
  intro f
  induction f with
  | zero => intro g q d p _ _ _ g' he; simp [Fl.relLoop] at he
  | succ f ih =>
    intro g q d p hr h ha g' he
    unfold Fl.relLoop at he
    split at he
    · rename_i hc
      simp at he; subst he
      have : q.next = [] := by simpa using hc.1
      rw [this] at h
      exact ⟨⟨d, p, h⟩, ha⟩
    · dsimp only at he
      obtain ⟨w1, w2, w3⟩ := pull_inv H w hr h ha
      rw [w3] at he
      generalize hv : Fl.relNodes P m prim (pull P m w g q).2.1 (pull P m w g q).1 ⟨[], []⟩ = v at he
      obtain ⟨g1, q1⟩ := v
      obtain ⟨x1, ⟨p', x2⟩, x3, x4⟩ := relNodes_inv H _ _ _ p rfl w1.shift w2 g1 q1 hv
      exact ih g1 q1 (d + 1) p' x1 x2 x3 g' he

theorem mergeLayer_single (w : Nat) (g : G σ) (n : Nat) : Fl.mergeLayer P m w g [n] = (g, [n]) := by
  unfold Fl.mergeLayer
  simp only [List.length_singleton]
  unfold Fl.mergeLoop
  split
  · dsimp only
    have : Fl.mergeOne P m g n [] [] = (g, [], [n]) := by
      unfold Fl.mergeOne
      split
      · simp [Fl.mergeFind]
      · simp
    rw [this]
    dsimp only
    unfold Fl.mergeLoop
    split <;> simp
  · simp

/-- The diagram built by `Relaxed` satisfies the invariant with nothing left to do. -/
theorem relaxed_inv (H : LayV Vl P m rank r.st r.bound) {w f : Nat} {g' : G σ}
    (h : Fl.relLoop P m prim w f (Fl.start2 P m r) (LQ.enQueue (Fl.start2 P m r) ⟨[], []⟩ (Fl.start2 P m r).root) = some g') :
    (∃ d p, Inv Vl P m rank r prim true g' d [] [] p []) ∧ AnOK g' 1 := by
  obtain ⟨h1, h2, _⟩ := start2_inv (prim := prim) (rel := true) H
  have hroot := h1.root
  rw [hroot] at h
  cases f with
  | zero => simp [Fl.relLoop] at h
  | succ f =>
    unfold Fl.relLoop at h
    simp only [LQ.enQueue, List.isEmpty_cons, Bool.false_eq_true, false_and, if_false] at h
    have hp : pull P m w (Fl.start2 P m r) ⟨[0], []⟩ = (Fl.start2 P m r, [0], ⟨[], []⟩) := by
      unfold pull
      have : relSort m (Fl.start2 P m r) [0] = [0] := rfl
      rw [this, mergeLayer_single]
    rw [hp] at h
    dsimp only at h
    generalize hv : Fl.relNodes P m prim [0] (Fl.start2 P m r) ⟨[], []⟩ = v at h
    obtain ⟨g1, q1⟩ := v
    obtain ⟨x1, ⟨p', x2⟩, x3, x4⟩ := relNodes_inv H _ _ _ 0 rfl h1 h2 g1 q1 hv
    exact relLoop_inv H w f g1 q1 0 p' x1 x2 x3 g' h

/-! ### Restricted -/

theorem resLabels_inv (H : LayV Vl P m rank r.st r.bound) (w : Nat) {d p : Nat} {A : List Nat} :
    ∀ (ls : List Int) (g : G σ) (q : List Nat),
      Inv Vl P m rank r prim false g d A q p ls → Cur m rank r g d A q p → AnOK g 1 →
      (∀ l, l ∈ ls → l ∈ m.lgf (g.st p)) →
      ∀ g' q' b, Fl.resLabels P m prim w p ls g q = (g', q', b) →
        Inv Vl P m rank r prim false g' d (if b then [] else A) q' p [] ∧ AnOK g' 1 ∧
        (b = false → g'.exact = g.exact) ∧ (b = true → g'.exact = false) := by
  intro ls
  induction ls with
  | nil =>
    intro g q h _ ha _ g' q' b he
    simp [Fl.resLabels] at he
    obtain ⟨rfl, rfl, rfl⟩ := he
    exact ⟨h, ha, fun _ => rfl, by simp⟩
  | cons l ls ih =>
    intro g q h hc ha hl g' q' b he
    unfold Fl.resLabels at he
    generalize hv : Fl.visit P m prim q g p l = v at he
    obtain ⟨g1, o⟩ := v
    obtain ⟨v1, v2, v3, v4, v5⟩ := visit_inv H h hc ha (hl l (by simp)) hv
    cases o with
    | none =>
      obtain ⟨i1, c1⟩ := v1 rfl
      have := ih g1 q i1 c1 v3 (fun x hx => by rw [v5]; exact hl x (by simp [hx])) g' q' b he
      rw [← v4]; exact this
    | some c =>
      obtain ⟨hcB, i1, c1⟩ := v2 c rfl
      dsimp only at he
      split at he
      · simp only [Prod.mk.injEq] at he
        obtain ⟨rfl, rfl, rfl⟩ := he
        exact ⟨i1.abandon, v3, by simp, fun _ => rfl⟩
      · have := ih g1 _ i1 c1 v3 (fun x hx => by rw [v5]; exact hl x (by simp [hx])) g' q' b he
        rw [← v4]; exact this

theorem resNodes_inv (H : LayV Vl P m rank r.st r.bound) (w : Nat) {d : Nat} :
    ∀ (ps : List Nat) (g : G σ) (q : List Nat) (p0 : Nat),
      Inv Vl P m rank r prim false g d ps q p0 [] → AnOK g 1 →
      ∀ g' q', Fl.resNodes P m prim w ps g q = (g', q') →
        (∃ p, Inv Vl P m rank r prim false g' d [] q' p []) ∧ AnOK g' 1 := by
  intro ps
  induction ps with
  | nil =>
    intro g q p0 h ha g' q' he
    simp [Fl.resNodes] at he
    obtain ⟨rfl, rfl⟩ := he
    exact ⟨⟨p0, h⟩, ha⟩
  | cons p ps ih =>
    intro g q p0 h ha g' q' he
    unfold Fl.resNodes at he
    obtain ⟨i1, c1⟩ := h.take
    generalize hv : Fl.resLabels P m prim w p (m.lgf (g.st p)) g q = v at he
    obtain ⟨g1, q1, b⟩ := v
    obtain ⟨w1, w2, w3, w4⟩ := resLabels_inv H w _ g q i1 c1 ha (fun _ hx => hx) g1 q1 b hv
    cases b with
    | true =>
      simp only [Prod.mk.injEq] at he
      obtain ⟨rfl, rfl⟩ := he
      exact ⟨⟨p, w1⟩, w2⟩
    | false => exact ih g1 q1 p w1 w2 g' q' he

theorem resLoop_inv (H : LayV Vl P m rank r.st r.bound) (w : Nat) : ∀ (f : Nat) (g : G σ) (q : List Nat) (d p : Nat),
    Inv Vl P m rank r prim false g d q [] p [] → AnOK g 1 →
    ∀ g', Fl.resLoop P m prim w f g q = some g' →
      (∃ d p, Inv Vl P m rank r prim false g' d [] [] p []) ∧ AnOK g' 1 := by
  intro f
  induction f with
  | zero => intro g q d p _ _ g' he; simp [Fl.resLoop] at he
  | succ f ih =>
    intro g q d p h ha g' he
    unfold Fl.resLoop at he
    split at he
    · rename_i hc
      simp at he; subst he
      have : q = [] := by simpa using hc
      rw [this] at h
      exact ⟨⟨d, p, h⟩, ha⟩
    · dsimp only at he
      obtain ⟨p1, p2⟩ := resPull (m := m) g d q (fun i hi => (h.Am i hi).2.2.1)
      rw [p2] at he
      have h1 := h.perm (p1.nodup_iff.2 h.An) (by simp) (fun i => p1.mem_iff) (fun i => Iff.rfl)
      generalize hv : Fl.resNodes P m prim w (pullLayer m g q).1 g [] = v at he
      obtain ⟨g1, q1⟩ := v
      obtain ⟨⟨p', x2⟩, x3⟩ := resNodes_inv H w _ _ _ p h1 ha g1 q1 hv
      exact ih g1 q1 (d + 1) p' x2.shift x3 g' he

/-- The diagram built by `Restricted` satisfies the invariant with nothing left to do. -/
theorem restricted_inv (H : LayV Vl P m rank r.st r.bound) {w f : Nat} {g' : G σ}
    (h : Fl.resLoop P m prim w f (Fl.start2 P m r) [(Fl.start2 P m r).root] = some g') :
    (∃ d p, Inv Vl P m rank r prim false g' d [] [] p []) ∧ AnOK g' 1 := by
  obtain ⟨h1, h2, _⟩ := start2_inv (prim := prim) (rel := false) H
  rw [h1.root] at h
  exact resLoop_inv H w f _ _ 0 0 h1 h2 g' h

end
end Verif.Fl
