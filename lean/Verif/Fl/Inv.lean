import Verif.Fl.Spec
import Verif.DDVisit
/-!
# The invariant of a layered compilation over machine numbers

As `DD.Inv`, for sums computed by the machine: structure, layers, that a node marked exact carries the labels of a path
and what the machine adds up along it, that the bound of a node is no worse than the sum over any of its arcs, and
that every label of an expanded node was refused by the local bound or has an arc.
-/
namespace Verif.Fl
open Verif.DD
variable {σ : Type}

/-- The node's labels and bound describe a real path from the root. -/
def Gen (P : Num) (m : Mdl σ) (r : Src σ) (g : G σ) (i : Nat) : Prop :=
  ∃ ls, g.lab i = r.lab ++ ls ∧ Run P m r.st r.bound ls (g.st i) (g.bound i)

/-- Label `l` of node `i` is refused by the local bound or covered by an arc. -/
def CovL (Vl : σ → Int → Prop) (P : Num) (m : Mdl σ) (prim : Int) (g : G σ) (i : Nat) (l : Int) : Prop :=
  ∀ s', m.stf (g.st i) l = some s' →
    (∃ f, m.loc = some f ∧ m.sense.better (P.add (P.add (g.bound i) (m.stc (g.st i) l)) (f s' .dd)) prim = false) ∨
    ∃ e, e < g.ne ∧ g.es e = i ∧ g.eo e = m.stc (g.st i) l ∧ CoverV Vl m (g.st (g.ed e)) s'

variable [Same σ]

structure Inv (Vl : σ → Int → Prop) (P : Num) (m : Mdl σ) (rank : σ → Nat) (r : Src σ) (prim : Int) (rel : Bool) (g : G σ) (d : Nat)
    (A B : List Nat) (p : Nat) (rem : List Int) : Prop extends Str g where
  st0 : g.st 0 = r.st
  st1 : g.st 1 = m.stt
  b0 : g.bound 0 = r.bound
  l0 : g.lab 0 = r.lab
  par0 : g.par 0 = []
  ex0 : g.ex 0 = true
  esrc : ∀ e, e < g.ne → Lv g (g.es e) ∧ m.eqs (g.st (g.es e)) = false ∧ g.es e ∉ A ∧ g.es e ∉ B
  erank : ∀ e, e < g.ne → m.eqs (g.st (g.ed e)) = true ∨ rank (g.st (g.ed e)) = rank (g.st (g.es e)) + 1
  estep : ∀ e, e < g.ne → g.el e ∈ m.lgf (g.st (g.es e)) ∧ g.eo e = m.stc (g.st (g.es e)) (g.el e)
  etrg : ∀ e, e < g.ne → g.ed e = 1 → m.stf (g.st (g.es e)) (g.el e) = some m.stt
  ebd : ∀ e, e < g.ne → m.sense.k (P.add (g.bound (g.es e)) (g.eo e)) ≤ m.sense.k (g.bound (g.ed e))
  gen : ∀ i, Lv g i → g.ex i = true → Gen P m r g i
  rxs : ∀ i, i < g.nn → i ≠ 1 → Rch m rank r.st (g.st i)
  exr : ∀ i, i < g.nn → i ≠ 1 → g.ex i = true → ∃ ls c, Path m r.st ls c (g.st i)
  exa : g.exact = true → ∀ i, i < g.nn → g.ex i = true
  trg0 : g.par 1 = [] → g.bound 1 = P.best0 m.sense
  lay : ∀ i, i < g.nn → m.eqs (g.st i) = false → rank r.st + g.layer i ≤ rank (g.st i)
  An : A.Nodup
  Bn : B.Nodup
  Am : ∀ i, i ∈ A → Lv g i ∧ m.eqs (g.st i) = false ∧ g.layer i = d ∧ rank (g.st i) = rank r.st + d
  Bm : ∀ i, i ∈ B → Lv g i ∧ m.eqs (g.st i) = false ∧ g.layer i = d + 1 ∧
    rank (g.st i) = rank r.st + d + 1
  done : ∀ i, Lv g i → m.eqs (g.st i) = false → i ∈ A ∨ i ∈ B ∨ rank (g.st i) ≤ rank r.st + d
  cov : (rel = false → g.exact = true) → ∀ i, Lv g i → m.eqs (g.st i) = false → i ∉ A → i ∉ B →
    ∀ l, l ∈ m.lgf (g.st i) → ¬ (i = p ∧ l ∈ rem) → CovL Vl P m prim g i l

section frame
variable {Vl : σ → Int → Prop} {P : Num} {m : Mdl σ} {rank : σ → Nat} {r : Src σ} {prim : Int} {rel : Bool}

/-- Changing only nodes that are not in the diagram (and exactness downwards) keeps the
invariant. -/
theorem Inv.frame {g g' : G σ} {d : Nat} {A B : List Nat} {p : Nat} {rem : List Int}
    (h : Inv Vl P m rank r prim rel g d A B p rem)
    (hroot : g'.root = g.root) (htrg : g'.trg = g.trg) (hne : g'.ne = g.ne) (hes : g'.es = g.es)
    (hed : g'.ed = g.ed) (hel : g'.el = g.el) (heo : g'.eo = g.eo) (hexact : g'.exact = g.exact)
    (hkids : g'.kids = g.kids) (hpar : g'.par = g.par) (hnn : g.nn ≤ g'.nn)
    (hst : ∀ i, i < g.nn → g'.st i = g.st i)
    (hinj : ∀ i j, i < g'.nn → j < g'.nn → Same.same (g'.st i) (g'.st j) = true → i = j)
    (hbound : ∀ i, Lv g i ∨ i = 1 → g'.bound i = g.bound i)
    (hlab : ∀ i, Lv g i → g'.lab i = g.lab i)
    (hlayer : ∀ i, Lv g i → g'.layer i = g.layer i)
    (hex : ∀ i, Lv g i → g'.ex i = true → g.ex i = true)
    (hex0 : g'.ex 0 = true)
    (hrxs : ∀ i, i < g'.nn → i ≠ 1 → Rch m rank r.st (g'.st i))
    (hexr : ∀ i, i < g'.nn → i ≠ 1 → g'.ex i = true → ∃ ls c, Path m r.st ls c (g'.st i))
    (hexa : g'.exact = true → ∀ i, i < g'.nn → g'.ex i = true)
    (hlay : ∀ i, i < g'.nn → m.eqs (g'.st i) = false → rank r.st + g'.layer i ≤ rank (g'.st i)) :
    Inv Vl P m rank r prim rel g' d A B p rem := by
  have hlv : ∀ i, Lv g' i ↔ Lv g i := by
    intro i
    simp only [Lv, hpar]
    constructor
    · rintro ⟨_, b | b⟩
      · exact ⟨by have := h.two; omega, Or.inl b⟩
      · refine ⟨?_, Or.inr b⟩
        rcases Nat.lt_or_ge i g.nn with hi | hi
        · exact hi
        · exact absurd (h.par_ge hi) b
    · rintro ⟨a, b⟩; exact ⟨by omega, b⟩
  have two := h.two
  constructor
  · constructor
    · rw [hroot]; exact h.root
    · rw [htrg]; exact h.trg
    · omega
    · exact hinj
    · rw [hkids, hne, hes]; exact h.kids
    · rw [hpar, hne, hed]; exact h.par
    · rw [hkids]; exact h.kn
    · rw [hpar]; exact h.pn
    · rw [hne, hes, hed]; intro e he; have := h.edge e he; omega
  · rw [hst 0 (by omega)]; exact h.st0
  · rw [hst 1 (by omega)]; exact h.st1
  · rw [hbound 0 (Or.inl ⟨by omega, Or.inl rfl⟩)]; exact h.b0
  · rw [hlab 0 ⟨by omega, Or.inl rfl⟩]; exact h.l0
  · rw [hpar]; exact h.par0
  · exact hex0
  · rw [hne, hes]; intro e he
    rw [hlv, hst _ (h.edge e he).1]; exact h.esrc e he
  · rw [hne, hes, hed]; intro e he
    rw [hst _ (h.edge e he).1, hst _ (h.edge e he).2]; exact h.erank e he
  · rw [hne, hes, hel, heo]; intro e he
    rw [hst _ (h.edge e he).1]; exact h.estep e he
  · rw [hne, hes, hed, hel]; intro e he
    rw [hst _ (h.edge e he).1]; exact h.etrg e he
  · rw [hne, hes, hed, heo]; intro e he
    rw [hbound _ (Or.inl (h.esrc e he).1), hbound _ (Or.inl (h.toStr.ed_lv he))]; exact h.ebd e he
  · intro i hi he; rw [hlv] at hi
    have := h.gen i hi (hex i hi he)
    simpa only [Gen, hst i hi.1, hbound i (Or.inl hi), hlab i hi] using this
  · exact hrxs
  · exact hexr
  · exact hexa
  · rw [hpar, hbound 1 (Or.inr rfl)]; exact h.trg0
  · exact hlay
  · exact h.An
  · exact h.Bn
  · intro i hi
    have := h.Am i hi
    rw [hlv, hst i this.1.1, hlayer i this.1]; exact this
  · intro i hi
    have := h.Bm i hi
    rw [hlv, hst i this.1.1, hlayer i this.1]; exact this
  · intro i hi; rw [hlv] at hi; rw [hst i hi.1]; exact h.done i hi
  · intro hr i hi; rw [hlv] at hi; rw [hst i hi.1]
    rw [hexact] at hr
    intro h1 h2 h3 l hl h4
    have := h.cov hr i hi h1 h2 h3 l hl h4
    simp only [CovL, hst i hi.1, hbound i (Or.inl hi), hne, hes, hed, heo]
    intro s' hs'
    rcases this s' hs' with hx | ⟨e, a, b, c, dd⟩
    · exact Or.inl hx
    · exact Or.inr ⟨e, a, b, c, by rw [hst _ (h.edge e a).2]; exact dd⟩

end frame

section mk

/-- What `makeNode` does. -/
theorem makeNode_cases (P : Num) (m : Mdl σ) {g : G σ} (hs : Str g) (s : σ) (pe : Bool) :
    (∃ c, c < g.nn ∧ Same.same (g.st c) s = true ∧ (g.par c ≠ [] ∨ c = 0 ∨ c = 1) ∧
      Fl.makeNode P m g s pe = ({ g with ex := upd g.ex c (g.ex c && pe) }, c)) ∨
    (∃ c, c < g.nn ∧ Same.same (g.st c) s = true ∧ g.par c = [] ∧ c ≠ 0 ∧ c ≠ 1 ∧
      Fl.makeNode P m g s pe = ({ g with ex := upd g.ex c (g.ex c && pe), an := g.an ++ [c], bound := upd g.bound c (P.best0 m.sense) }, c)) ∨
    ((∀ i, i < g.nn → Same.same (g.st i) s = false) ∧
      Fl.makeNode P m g s pe = ({ g with
        st := upd g.st g.nn s, lab := upd g.lab g.nn [], bound := upd g.bound g.nn (P.best0 m.sense),
        bb := upd g.bb g.nn 0, layer := upd g.layer g.nn 0, ex := upd g.ex g.nn pe,
        nn := g.nn + 1, an := g.an ++ [g.nn] }, g.nn)) := by
  unfold Fl.makeNode
  cases hf : findNode g s with
  | some a =>
    obtain ⟨h1, h2⟩ := findNode_some hf
    dsimp only
    by_cases hc : (g.par a).isEmpty = true ∧ a ≠ g.root ∧ a ≠ g.trg
    · rw [if_pos hc]
      right; left
      obtain ⟨c1, c2, c3⟩ := hc
      rw [hs.root] at c2; rw [hs.trg] at c3
      exact ⟨a, h1, h2, by simpa using c1, c2, c3, rfl⟩
    · rw [if_neg hc]
      left
      refine ⟨a, h1, h2, ?_, rfl⟩
      rw [hs.root, hs.trg] at hc
      by_cases hp : g.par a = []
      · right
        by_cases h0 : a = 0
        · exact Or.inl h0
        · by_cases h1 : a = 1
          · exact Or.inr h1
          · exact absurd ⟨by simp [hp], h0, h1⟩ hc
      · exact Or.inl hp
  | none =>
    right; right
    refine ⟨findNode_none hf, ?_⟩
    dsimp only
    have e1 : upd g.par g.nn [] = g.par := by
      funext i; rw [upd_apply]; split
      · rename_i h; rw [h, hs.par_ge (Nat.le_refl _)]
      · rfl
    have e2 : upd g.kids g.nn [] = g.kids := by
      funext i; rw [upd_apply]; split
      · rename_i h; rw [h, hs.kids_ge (Nat.le_refl _)]
      · rfl
    rw [e1, e2]

variable {Vl : σ → Int → Prop} {P : Num} {m : Mdl σ} {rank : σ → Nat} {r : Src σ} {prim : Int} {rel : Bool}

/-- Node `c` can stand for the state `s`, and its state is `s` itself if it is marked exact, is the
sink or is terminal. -/
structure Like (Vl : σ → Int → Prop) (m : Mdl σ) (rank : σ → Nat) (g : G σ) (c : Nat) (s : σ) : Prop where
  q : m.eqs (g.st c) = m.eqs s
  rk : rank (g.st c) = rank s
  cov : CoverV Vl m (g.st c) s
  one : c = 1 → s = m.stt
  ex : g.ex c = true → g.st c = s
  tm : m.eqs s = true → g.st c = s

/-- A node of a state equal to `s`. -/
theorem Inv.like {g : G σ} {d : Nat} {A B : List Nat} {p : Nat} {rem : List Int}
    (H : LayV Vl P m rank r.st r.bound) (h : Inv Vl P m rank r prim rel g d A B p rem) {s : σ} {pe : Bool} {c : Nat}
    (hv : Rch m rank r.st s) (hp : pe = true → ∃ ls c, Path m r.st ls c s) (hc : c < g.nn)
    (hs : Same.same (g.st c) s = true) {g' : G σ} (hst : g'.st c = g.st c) (hex : g'.ex c = (g.ex c && pe)) :
    Like Vl m rank g' c s := by
  by_cases h1 : c = 1
  · subst h1
    rw [h.st1] at hs
    have e := H.snk _ hv hs
    have e1 : g'.st 1 = s := by rw [hst, h.st1, e]
    exact ⟨by rw [e1], by rw [e1], by rw [e1]; exact CoverV.refl m s, fun _ => e, fun _ => e1, fun _ => e1⟩
  · have hw := h.rxs c hc h1
    obtain ⟨l1, l2, l4⟩ := H.like _ _ hw hv hs
    refine ⟨by rw [hst]; exact l1, by rw [hst]; exact l2, by rw [hst]; exact H.lcov _ _ hw hv hs, fun hh => absurd hh h1, fun hx => ?_,
      fun hq => by rw [hst]; exact l4 (l1.trans hq)⟩
    rw [hex, Bool.and_eq_true] at hx
    obtain ⟨ls, k, hl⟩ := h.exr c hc h1 hx.1
    obtain ⟨ls', k', hl'⟩ := hp hx.2
    rw [hst]; exact H.uniq _ _ _ _ _ _ hl hl' hs

/-- `makeNode` keeps the invariant; the node it returns is not yet linked. -/
theorem Inv.makeNode {g : G σ} {d : Nat} {A B : List Nat} {p : Nat} {rem : List Int}
    (H : LayV Vl P m rank r.st r.bound) (h : Inv Vl P m rank r prim rel g d A B p rem) (s : σ) (pe : Bool)
    (hpe : g.exact = true → pe = true) (hrel : Rch m rank r.st s)
    (hpth : pe = true → ∃ ls c, Path m r.st ls c s)
    (hrk : m.eqs s = true ∨ rank r.st < rank s) :
    ∃ g' c, Fl.makeNode P m g s pe = (g', c) ∧ Inv Vl P m rank r prim rel g' d A B p rem ∧ c < g'.nn ∧
      Like Vl m rank g' c s ∧ c ≠ 0 ∧ (g'.ex c = true → pe = true) ∧ (g'.par c = [] → g'.bound c = (P.best0 m.sense)) ∧
      (∀ i, Lv g' i ↔ Lv g i) ∧ g'.par = g.par ∧ g'.ne = g.ne ∧ g'.exact = g.exact ∧
      (∀ i, Lv g i → g'.st i = g.st i ∧ g'.bound i = g.bound i ∧ g'.layer i = g.layer i ∧ g'.lab i = g.lab i ∧
        (i ≠ c → g'.ex i = g.ex i)) ∧
      g'.an = g.an ++ (if g'.par c = [] ∧ c ≠ 1 then [c] else []) ∧
      (AnOK g 1 → (g'.par c = [] ∧ c ≠ 1 → c ∉ g.an)) ∧ g.nn ≤ g'.nn ∧ (∀ i, i < g.nn → g'.st i = g.st i) := by
  have two := h.two
  have hlvn : ∀ i, Lv g i → i < g.nn := fun i hi => hi.1
  rcases makeNode_cases P m h.toStr s pe with ⟨c, hc1, hc2, hc3, he⟩ | ⟨c, hc1, hc2, hc3, hc4, hc5, he⟩ | ⟨hc, he⟩
  · have hc0 : c ≠ 0 := by
      intro hh; subst hh
      rw [h.st0] at hc2
      obtain ⟨l1, l2, _⟩ := H.like _ _ Rch.root hrel hc2
      rcases hrk with a | a
      · rw [← l1, H.src] at a; simp at a
      · omega
    refine ⟨_, c, he, ?_, hc1, h.like H hrel hpth hc1 hc2 rfl (by simp), hc0, ?_, ?_, fun _ => Iff.rfl, rfl, rfl, rfl, ?_, ?_, ?_, Nat.le_refl _, fun _ _ => rfl⟩
    · refine h.frame rfl rfl rfl rfl rfl rfl rfl rfl rfl rfl (Nat.le_refl _) (fun _ _ => rfl) h.inj
        (fun _ _ => rfl) (fun _ _ => rfl) (fun _ _ => rfl) ?_ ?_ h.rxs ?_ ?_ h.lay
      · intro i _ hi
        simp only [upd_apply] at hi
        split at hi
        · rename_i hh; subst hh; simp at hi; exact hi.1
        · exact hi
      · simp only [upd_apply]; rw [if_neg (Ne.symm hc0)]; exact h.ex0
      · intro i hi h1 hx
        refine h.exr i hi h1 ?_
        simp only [upd_apply] at hx
        split at hx
        · rename_i hh; subst hh; simp at hx; exact hx.1
        · exact hx
      · intro hx i hi
        simp only [upd_apply]
        split
        · rename_i hh; subst hh; simp [h.exa hx i hi, hpe hx]
        · exact h.exa hx i hi
    · intro hx; simp at hx; exact hx.2
    · intro hp
      rcases hc3 with c1 | c1 | c1
      · exact absurd hp c1
      · exact absurd c1 hc0
      · subst c1; exact h.trg0 hp
    · intro i _; exact ⟨rfl, rfl, rfl, rfl, fun hi => upd_ne _ _ hi⟩
    · dsimp only
      rw [if_neg]; simp
      rintro ⟨a, b⟩
      rcases hc3 with c1 | c1 | c1
      · exact c1 a
      · exact hc0 c1
      · exact b c1
    · rintro _ ⟨a, b⟩
      rcases hc3 with c1 | c1 | c1
      · exact absurd a c1
      · exact absurd c1 hc0
      · exact absurd c1 b
  · have hnl : ¬ Lv g c := by
      rintro ⟨_, a | a⟩
      · exact hc4 a
      · exact a hc3
    refine ⟨_, c, he, ?_, hc1, h.like H hrel hpth hc1 hc2 rfl (by simp), hc4, ?_, ?_, fun _ => Iff.rfl, rfl, rfl, rfl, ?_, ?_, ?_, Nat.le_refl _, fun _ _ => rfl⟩
    · refine h.frame rfl rfl rfl rfl rfl rfl rfl rfl rfl rfl (Nat.le_refl _) (fun _ _ => rfl) h.inj
        ?_ (fun _ _ => rfl) (fun _ _ => rfl) ?_ ?_ h.rxs ?_ ?_ h.lay
      · rintro i (hi | hi)
        · exact upd_ne _ _ (by intro hh; subst hh; exact hnl hi)
        · exact upd_ne _ _ (by intro hh; subst hh; exact hc5 hi)
      · intro i _ hi
        simp only [upd_apply] at hi
        split at hi
        · rename_i hh; subst hh; simp at hi; exact hi.1
        · exact hi
      · simp only [upd_apply]; rw [if_neg (Ne.symm hc4)]; exact h.ex0
      · intro i hi h1 hx
        refine h.exr i hi h1 ?_
        simp only [upd_apply] at hx
        split at hx
        · rename_i hh; subst hh; simp at hx; exact hx.1
        · exact hx
      · intro hx i hi
        simp only [upd_apply]
        split
        · rename_i hh; subst hh; simp [h.exa hx i hi, hpe hx]
        · exact h.exa hx i hi
    · intro hx; simp at hx; exact hx.2
    · intro _; simp
    · intro i hi; exact ⟨rfl, upd_ne _ _ (by intro hh; subst hh; exact hnl hi), rfl, rfl, fun hi => upd_ne _ _ hi⟩
    · dsimp only; rw [if_pos ⟨hc3, hc5⟩]
    · rintro ha _ hm
      rcases ((ha.2 c).1 hm).2 with a | a | a
      · exact hnl a
      · exact hc5 a
      · exact hc5 a
  · refine ⟨_, g.nn, he, ?_, by simp, ⟨by simp, by simp, by simp [CoverV.refl], fun hh => absurd hh (by omega), by simp, by simp⟩, by omega, ?_, ?_, ?_, rfl, rfl, rfl, ?_, ?_, ?_, by simp, ?_⟩
    · refine h.frame rfl rfl rfl rfl rfl rfl rfl rfl rfl rfl (by simp) ?_ ?_ ?_ ?_ ?_ ?_ ?_ ?_ ?_ ?_ ?_
      · intro i hi; exact upd_ne _ _ (by omega)
      · intro i j hi hj hij
        have hi : i < g.nn + 1 := hi
        have hj : j < g.nn + 1 := hj
        have hij' := H.symm _ _ hij
        simp only [upd_apply] at hij hij'
        by_cases hin : i = g.nn
        · by_cases hjn : j = g.nn
          · omega
          · rw [if_neg hjn, if_pos hin, hc j (by omega)] at hij'
            cases hij'
        · by_cases hjn : j = g.nn
          · rw [if_neg hin, if_pos hjn, hc i (by omega)] at hij; cases hij
          · rw [if_neg hin, if_neg hjn] at hij
            exact h.inj i j (by omega) (by omega) hij
      · rintro i (hi | hi)
        · have := hi.1; exact upd_ne _ _ (by omega)
        · exact upd_ne _ _ (by omega)
      · intro i hi; have := hi.1; exact upd_ne _ _ (by omega)
      · intro i hi; have := hi.1; exact upd_ne _ _ (by omega)
      · intro i hi hx
        have := hi.1
        simp only [upd_apply] at hx
        rw [if_neg (by omega)] at hx; exact hx
      · simp only [upd_apply]; rw [if_neg (by omega)]; exact h.ex0
      · intro i hi h1
        have hi : i < g.nn + 1 := hi
        simp only [upd_apply]
        split
        · exact hrel
        · exact h.rxs i (by omega) h1
      · intro i hi h1 hx
        have hi : i < g.nn + 1 := hi
        simp only [upd_apply] at hx ⊢
        split at hx
        · rename_i hh; rw [if_pos hh]; exact hpth hx
        · rename_i hh; rw [if_neg hh]; exact h.exr i (by omega) h1 hx
      · intro hx i hi
        have hi : i < g.nn + 1 := hi
        simp only [upd_apply]
        split
        · exact hpe hx
        · exact h.exa hx i (by omega)
      · intro i hi
        have hi : i < g.nn + 1 := hi
        simp only [upd_apply]
        split
        · intro hq
          rcases hrk with a | a
          · rw [a] at hq; simp at hq
          · simp; omega
        · exact h.lay i (by omega)
    · intro hx; simpa using hx
    · intro _; simp
    · intro i
      simp only [Lv]
      constructor
      · rintro ⟨_, b | b⟩
        · exact ⟨by omega, Or.inl b⟩
        · refine ⟨?_, Or.inr b⟩
          rcases Nat.lt_or_ge i g.nn with hi | hi
          · exact hi
          · exact absurd (h.par_ge hi) b
      · rintro ⟨a, b⟩; exact ⟨by omega, b⟩
    · intro i hi
      have := hi.1
      refine ⟨?_, ?_, ?_, ?_, ?_⟩
      · exact upd_ne _ _ (by omega)
      · exact upd_ne _ _ (by omega)
      · exact upd_ne _ _ (by omega)
      · exact upd_ne _ _ (by omega)
      · intro _; exact upd_ne _ _ (by omega)
    · dsimp only; rw [if_pos ⟨h.par_ge (Nat.le_refl _), by omega⟩]
    · rintro ha _ hm
      have := ((ha.2 _).1 hm).1
      omega
    · intro i hi; exact upd_ne _ _ (by omega)

end mk

end Verif.Fl
