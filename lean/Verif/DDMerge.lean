import Verif.DDVisit
/-!
# Merging two nodes of a layer keeps the invariant
-/
namespace Verif.DD
variable {σ : Type} {Vl : σ → Int → Prop} [Same σ] {m : Mdl σ} {rank : σ → Nat} {r : Src σ} {prim : Int}

theorem Inv.unexact {g : G σ} {d : Nat} {A B : List Nat} {p : Nat} {rem : List Int}
    (h : Inv Vl m rank r prim true g d A B p rem) :
    Inv Vl m rank r prim true { g with exact := false } d A B p rem :=
  { h with
    exa := by simp
    cov := fun _ => h.cov (by simp) }

/-- The merged node gets its bound, labels and layer, before any arc moves. -/
theorem stage_inv {g : G σ} {d : Nat} {B : List Nat} {p : Nat} {mn : Nat}
    (h : Inv Vl m rank r prim true g d [] B p []) (hm : mn < g.nn) (h0 : mn ≠ 0) (h1 : mn ≠ 1)
    (hq : m.eqs (g.st mn) = false) (hr : rank (g.st mn) = rank r.st + d + 1) (hB : mn ∈ B ∨ g.par mn = [])
    (v : Int) (b : Nat → Int) (L : List Int)
    (hv : m.sense.k (g.bound mn) ≤ m.sense.k v) (hrel : Relx m rank r.st r.bound (g.st mn) v) :
    Inv Vl m rank r prim true { g with
      bound := upd g.bound mn v, bb := b, lab := upd g.lab mn L, layer := upd g.layer mn (d + 1)
      ex := upd g.ex mn false, exact := false } d [] B p [] := by
  have hes : ∀ e, e < g.ne → g.es e ≠ mn := by
    intro e he hh
    obtain ⟨a1, a2, a3, a4⟩ := h.esrc e he
    rw [hh] at a1 a4
    rcases hB with c | c
    · exact a4 c
    · rcases a1.2 with x | x
      · exact h0 x
      · exact x c
  have hnd : ∀ i, Lv g i → i ∉ B → i ≠ mn := by
    intro i hi hiB hh
    subst hh
    rcases hB with c | c
    · exact hiB c
    · rcases hi.2 with x | x
      · exact h0 x
      · exact x c
  exact { h with
    b0 := by rw [← h.b0]; exact upd_ne _ _ (Ne.symm h0)
    l0 := by rw [← h.l0]; exact upd_ne _ _ (Ne.symm h0)
    ex0 := by rw [← h.ex0]; exact upd_ne _ _ (Ne.symm h0)
    esrc := h.esrc
    ebd := fun e he => by
      have := h.ebd e he
      show m.sense.k (upd g.bound mn v (g.es e)) + m.sense.k (g.eo e) ≤ m.sense.k (upd g.bound mn v (g.ed e))
      rw [upd_ne _ _ (hes e he)]
      by_cases hh : g.ed e = mn
      · rw [hh] at this ⊢; rw [upd_same]; omega
      · rw [upd_ne _ _ hh]; exact this
    relx := fun i hi => by
      show Relx m rank r.st r.bound (g.st i) (upd g.bound mn v i)
      by_cases hh : i = mn
      · subst hh; rw [upd_same]; exact hrel
      · rw [upd_ne _ _ hh]; exact h.relx i hi
    gen := fun i hi hx => by
      have hx : upd g.ex mn false i = true := hx
      by_cases hh : i = mn
      · subst hh; simp at hx
      · rw [upd_ne _ _ hh] at hx
        have := h.gen i hi hx
        simpa only [Gen, upd_ne _ _ hh] using this
    exr := fun i hi h1' hx => by
      have hx : upd g.ex mn false i = true := hx
      by_cases hh : i = mn
      · subst hh; simp at hx
      · rw [upd_ne _ _ hh] at hx; exact h.exr i hi h1' hx
    exa := by simp
    trg0 := fun hp => by
      show upd g.bound mn v 1 = _
      rw [upd_ne _ _ (Ne.symm h1)]; exact h.trg0 hp
    lay := fun i hi hqi => by
      show rank r.st + upd g.layer mn (d + 1) i ≤ rank (g.st i)
      rw [upd_apply]; split
      · rename_i hh; rw [hh, hr]; omega
      · exact h.lay i hi hqi
    Am := by simp
    Bm := fun i hi => by
      obtain ⟨a1, a2, a3, a4⟩ := h.Bm i hi
      refine ⟨a1, a2, ?_, a4⟩
      show upd g.layer mn (d + 1) i = d + 1
      rw [upd_apply]; split
      · rfl
      · exact a3
    done := h.done
    cov := fun _ i hi hqi hA hBi l hl hrem => by
      have := h.cov (by simp) i hi hqi hA hBi l hl hrem
      have hne := hnd i hi hBi
      simpa only [CovL, upd_ne _ _ hne] using this }

/-- Moving the arcs of `a` to the merged node. -/
theorem absorb_inv {g : G σ} {d : Nat} {B B' : List Nat} {p : Nat} {a mn : Nat}
    (hsink : m.eqs m.stt = true)
    (h : Inv Vl m rank r prim true g d [] B p []) (ha : a ∈ B) (ham : a ≠ mn)
    (hm : mn < g.nn) (h0 : mn ≠ 0) (h1 : mn ≠ 1)
    (hq : m.eqs (g.st mn) = false) (hr : rank (g.st mn) = rank r.st + d + 1) (hB : mn ∈ B ∨ g.par mn = [])
    (hly : g.layer mn = d + 1) (hex : g.ex mn = false) (hexact : g.exact = false)
    (hrel : Relx m rank r.st r.bound (g.st mn) (g.bound mn))
    (hbd : m.sense.k (g.bound a) ≤ m.sense.k (g.bound mn)) (hcov : CoverV Vl m (g.st mn) (g.st a))
    (hBn : B'.Nodup) (hB' : ∀ i, i ∈ B' ↔ i = mn ∨ (i ∈ B ∧ i ≠ a)) :
    ∃ fx tx, absorb g a mn = { g with
        ed := fun e => if e ∈ g.par a then mn else g.ed e
        par := upd (upd g.par mn (g.par mn ++ g.par a)) a []
        an := g.an.erase a
        efix := fx, etix := tx } ∧
      Inv Vl m rank r prim true (absorb g a mn) d [] B' p [] ∧
      (∀ i, Lv (absorb g a mn) i ↔ i = mn ∨ (Lv g i ∧ i ≠ a)) ∧
      (∀ x, (x = 1 ∧ mn ∈ B) ∨ x = mn → AnOK g x → AnOK (absorb g a mn) 1) := by
  obtain ⟨al, aq, aly, ark⟩ := h.Bm a ha
  have a0 : a ≠ 0 := by intro hh; rw [hh, h.st0] at ark; omega
  have a1 : a ≠ 1 := by intro hh; rw [hh, h.st1, hsink] at aq; simp at aq
  have apar : g.par a ≠ [] := by
    rcases al.2 with x | x
    · exact absurd x a0
    · exact x
  have hesm : ∀ e, e < g.ne → g.es e ≠ mn := by
    intro e he hh
    obtain ⟨a1, a2, a3, a4⟩ := h.esrc e he
    rw [hh] at a1 a4
    rcases hB with c | c
    · exact a4 c
    · rcases a1.2 with x | x
      · exact h0 x
      · exact x c
  have hesa : ∀ e, e < g.ne → g.es e ≠ a := by
    intro e he hh
    exact (h.esrc e he).2.2.2 (hh ▸ ha)
  have hka : g.kids a = [] := by
    rw [List.eq_nil_iff_forall_not_mem]; intro e he
    obtain ⟨x, y⟩ := (h.kids a e).1 he
    exact hesa e x y
  obtain ⟨fx, tx, ht⟩ := transferArcs_eq g a mn ham (h.pn a) hka
    (fun e he => hesa e ((h.par a e).1 he).1) (fun e he => hesm e ((h.par a e).1 he).1)
  have hab : absorb g a mn = { g with
      ed := fun e => if e ∈ g.par a then mn else g.ed e
      par := upd (upd g.par mn (g.par mn ++ g.par a)) a []
      an := g.an.erase a
      efix := fx, etix := tx } := by
    unfold absorb; rw [if_pos ham, ht]
  refine ⟨fx, tx, hab, ?_⟩
  rw [hab]
  generalize hg' : ({ g with
      ed := fun e => if e ∈ g.par a then mn else g.ed e
      par := upd (upd g.par mn (g.par mn ++ g.par a)) a []
      an := g.an.erase a
      efix := fx, etix := tx } : G σ) = g'
  have f_st : g'.st = g.st := by rw [← hg']
  have f_b : g'.bound = g.bound := by rw [← hg']
  have f_lab : g'.lab = g.lab := by rw [← hg']
  have f_ly : g'.layer = g.layer := by rw [← hg']
  have f_ex : g'.ex = g.ex := by rw [← hg']
  have f_nn : g'.nn = g.nn := by rw [← hg']
  have f_ne : g'.ne = g.ne := by rw [← hg']
  have f_es : g'.es = g.es := by rw [← hg']
  have f_el : g'.el = g.el := by rw [← hg']
  have f_eo : g'.eo = g.eo := by rw [← hg']
  have f_kids : g'.kids = g.kids := by rw [← hg']
  have f_exact : g'.exact = g.exact := by rw [← hg']
  have f_root : g'.root = g.root := by rw [← hg']
  have f_trg : g'.trg = g.trg := by rw [← hg']
  have f_an : g'.an = g.an.erase a := by rw [← hg']
  have f_ed : ∀ e, e < g.ne → g'.ed e = if g.ed e = a then mn else g.ed e := by
    intro e he
    rw [← hg']
    dsimp only
    by_cases hh : g.ed e = a
    · rw [if_pos hh, if_pos ((h.par a e).2 ⟨he, hh⟩)]
    · rw [if_neg hh, if_neg]; intro hm; exact hh ((h.par a e).1 hm).2
  have f_par : ∀ i, g'.par i = if i = a then [] else if i = mn then g.par mn ++ g.par a else g.par i := by
    intro i; rw [← hg']; simp only [upd_apply]
  have two := h.two
  have hlv : ∀ i, Lv g' i ↔ i = mn ∨ (Lv g i ∧ i ≠ a) := by
    intro i
    simp only [Lv, f_nn, f_par]
    by_cases hia : i = a
    · subst hia; simp [a0, ham]
    · by_cases him : i = mn
      · subst him; simp [h0, hm, apar, Ne.symm ham]
      · simp [hia, him]
  have hedm : ∀ e, e < g.ne → g'.ed e ≠ a := by
    intro e he; rw [f_ed e he]; split
    · exact Ne.symm ham
    · assumption
  have hmn1 : ∀ e, e < g.ne → g'.ed e = 1 → g.ed e = 1 := by
    intro e he hh
    rw [f_ed e he] at hh
    split at hh
    · exact absurd hh h1
    · exact hh
  refine ⟨?_, hlv, ?_⟩
  · constructor
    · constructor
      · rw [f_root]; exact h.root
      · rw [f_trg]; exact h.trg
      · rw [f_nn]; exact two
      · rw [f_nn, f_st]; exact h.inj
      · rw [f_kids, f_ne, f_es]; exact h.kids
      · intro i e
        rw [f_par, f_ne]
        by_cases hia : i = a
        · rw [if_pos hia]
          simp only [List.not_mem_nil, false_iff]
          rintro ⟨x, y⟩; exact hedm e x (y.trans hia)
        · rw [if_neg hia]
          by_cases him : i = mn
          · rw [if_pos him, List.mem_append, h.par, h.par, him]
            constructor
            · rintro (⟨x, y⟩ | ⟨x, y⟩)
              · refine ⟨x, ?_⟩; rw [f_ed e x, if_neg (by rw [y]; exact Ne.symm ham)]; exact y
              · refine ⟨x, ?_⟩; rw [f_ed e x, if_pos y]
            · rintro ⟨x, y⟩
              rw [f_ed e x] at y
              split at y
              · rename_i hh; exact Or.inr ⟨x, hh⟩
              · exact Or.inl ⟨x, y⟩
          · rw [if_neg him, h.par]
            constructor
            · rintro ⟨x, y⟩
              refine ⟨x, ?_⟩; rw [f_ed e x, if_neg (by rw [y]; exact hia)]; exact y
            · rintro ⟨x, y⟩
              rw [f_ed e x] at y
              split at y
              · exact absurd y.symm him
              · exact ⟨x, y⟩
      · rw [f_kids]; exact h.kn
      · intro i; rw [f_par]
        split
        · simp
        · split
          · rw [List.nodup_append]
            refine ⟨h.pn mn, h.pn a, ?_⟩
            intro x hx y hy hxy
            subst hxy
            exact ham (((h.par a x).1 hy).2.symm.trans ((h.par mn x).1 hx).2)
          · exact h.pn i
      · intro e he
        rw [f_ne] at he; rw [f_es, f_nn, f_ed e he]
        refine ⟨(h.edge e he).1, ?_⟩
        split
        · exact hm
        · exact (h.edge e he).2
    · rw [f_st]; exact h.st0
    · rw [f_st]; exact h.st1
    · rw [f_b]; exact h.b0
    · rw [f_lab]; exact h.l0
    · rw [f_par, if_neg (Ne.symm a0), if_neg (Ne.symm h0)]; exact h.par0
    · rw [f_ex]; exact h.ex0
    · intro e he
      rw [f_ne] at he; rw [f_es, f_st, hlv]
      obtain ⟨x1, x2, x3, x4⟩ := h.esrc e he
      refine ⟨Or.inr ⟨x1, hesa e he⟩, x2, by simp, ?_⟩
      rw [hB']; rintro (y | y)
      · exact hesm e he y
      · exact x4 y.1
    · intro e he
      rw [f_ne] at he; rw [f_es, f_st, f_ed e he]
      have := h.erank e he
      split
      · rename_i hh
        rw [hh] at this
        right; rw [hr]
        rcases this with x | x
        · rw [aq] at x; simp at x
        · omega
      · exact this
    · intro e he
      rw [f_ne] at he; rw [f_es, f_st, f_el, f_eo]; exact h.estep e he
    · intro e he hh
      rw [f_ne] at he; rw [f_es, f_st, f_el]
      exact h.etrg e he (hmn1 e he hh)
    · intro e he
      rw [f_ne] at he; rw [f_es, f_b, f_eo, f_ed e he]
      have := h.ebd e he
      split
      · rename_i hh; rw [hh] at this; omega
      · exact this
    · intro i hi
      rw [f_st, f_b]
      rcases (hlv i).1 hi with x | x
      · rw [x]; exact hrel
      · exact h.relx i x.1
    · intro i hi hx
      rw [f_ex] at hx
      rcases (hlv i).1 hi with x | x
      · rw [x, hex] at hx; simp at hx
      · simpa only [Gen, f_lab, f_b, f_st] using h.gen i x.1 hx
    · rw [f_nn, f_st]; exact h.rxs
    · rw [f_nn, f_st, f_ex]; exact h.exr
    · rw [f_exact, hexact]; simp
    · intro hp
      rw [f_b]
      apply h.trg0
      rw [f_par] at hp
      split at hp
      · rename_i hh; exact absurd hh.symm a1
      · rw [if_neg (Ne.symm h1)] at hp; exact hp
    · rw [f_nn, f_st, f_ly]; exact h.lay
    · simp
    · exact hBn
    · simp
    · intro i hi
      rw [hlv, f_st, f_ly]
      rcases (hB' i).1 hi with x | x
      · rw [x]; exact ⟨Or.inl rfl, hq, hly, hr⟩
      · obtain ⟨y1, y2, y3, y4⟩ := h.Bm i x.1
        exact ⟨Or.inr ⟨y1, x.2⟩, y2, y3, y4⟩
    · intro i hi hqi
      rw [f_st] at hqi ⊢
      rcases (hlv i).1 hi with x | x
      · exact Or.inr (Or.inl ((hB' i).2 (Or.inl x)))
      · rcases h.done i x.1 hqi with y | y | y
        · simp at y
        · exact Or.inr (Or.inl ((hB' i).2 (Or.inr ⟨y, x.2⟩)))
        · exact Or.inr (Or.inr y)
    · intro _ i hi hqi hA hiB l hl hrem
      rw [f_st] at hqi hl
      have him : i ≠ mn := fun hh => hiB ((hB' i).2 (Or.inl hh))
      obtain ⟨x1, x2⟩ : Lv g i ∧ i ≠ a := by
        rcases (hlv i).1 hi with x | x
        · exact absurd x him
        · exact x
      have hiB0 : i ∉ B := fun hh => hiB ((hB' i).2 (Or.inr ⟨hh, x2⟩))
      have := h.cov (by simp) i x1 hqi (by simp) hiB0 l hl (by simp)
      intro s' hs'
      rw [f_st] at hs'
      rw [f_b, f_st, f_ne, f_es, f_eo]
      rcases this s' hs' with y | ⟨e, y1, y2, y3, y4⟩
      · exact Or.inl y
      · refine Or.inr ⟨e, y1, y2, y3, ?_⟩
        rw [f_ed e y1]
        split
        · rename_i hh; rw [hh] at y4; exact hcov.trans y4
        · exact y4
  · intro x hx hA
    constructor
    · rw [f_an]; exact hA.1.erase a
    · intro i
      rw [f_an, hA.1.mem_erase_iff, hA.2, hlv, f_nn]
      constructor
      · rintro ⟨h3, h4, h5⟩
        refine ⟨h4, ?_⟩
        rcases h5 with y | y | y
        · exact Or.inl (Or.inr ⟨y, h3⟩)
        · exact Or.inr (Or.inl y)
        · rcases hx with z | z
          · right; left; omega
          · left; left; omega
      · rintro ⟨h4, h5⟩
        rcases h5 with (y | y) | y | y
        · refine ⟨by rw [y]; exact Ne.symm ham, h4, ?_⟩
          rcases hx with z | z
          · left; rw [y]; exact (h.Bm mn z.2).1
          · right; right; omega
        · exact ⟨y.2, h4, Or.inl y.1⟩
        · exact ⟨by omega, h4, Or.inr (Or.inl y)⟩
        · exact ⟨by omega, h4, Or.inr (Or.inl y)⟩

end Verif.DD
