import Verif.Fl.Inv
/-!
# Adding one arc keeps the invariant
-/
namespace Verif.Fl
open Verif.DD
variable {σ : Type} {Vl : σ → Int → Prop} {P : Num}

/-- The part of `visit` after the child has been chosen (src/dd.cpp:432-441, 713-722): add the
arc, improve the child's bound and raise its layer. -/
def link (P : Num) (m : Mdl σ) (g : G σ) (p c : Nat) (l : Int) : G σ :=
  let cost := m.stc (g.st p) l
  let ep := P.add (g.bound p) cost
  let g3 := addEdge g p c l cost
  let g4 := if m.sense.better ep (g3.bound c) then
      { g3 with bound := upd g3.bound c ep, lab := upd g3.lab c (g3.lab p ++ [l]) }
    else g3
  { g4 with layer := upd g4.layer c (max (g4.layer c) (g4.layer p + 1)) }

theorem link_eq (P : Num) (m : Mdl σ) (g : G σ) (p c : Nat) (l : Int) (h : p ≠ c) :
    Fl.link P m g p c l = { g with
      es := upd g.es g.ne p, ed := upd g.ed g.ne c, el := upd g.el g.ne l
      eo := upd g.eo g.ne (m.stc (g.st p) l), ne := g.ne + 1
      efix := upd g.efix g.ne (g.kids p).length
      kids := upd g.kids p (g.kids p ++ [g.ne])
      etix := upd g.etix g.ne (g.par c).length
      par := upd g.par c (g.par c ++ [g.ne])
      bound := if m.sense.better (P.add (g.bound p) (m.stc (g.st p) l)) (g.bound c)
        then upd g.bound c (P.add (g.bound p) (m.stc (g.st p) l)) else g.bound
      lab := if m.sense.better (P.add (g.bound p) (m.stc (g.st p) l)) (g.bound c)
        then upd g.lab c (g.lab p ++ [l]) else g.lab
      layer := upd g.layer c (max (g.layer c) (g.layer p + 1)) } := by
  unfold Fl.link
  simp only [addEdge_eq g p c l _ h]
  by_cases hb : m.sense.better (P.add (g.bound p) (m.stc (g.st p) l)) (g.bound c) = true
  · simp only [hb, if_true]
  · simp only [hb]; rfl

variable [Same σ] {m : Mdl σ} {rank : σ → Nat} {r : Src σ} {prim : Int} {rel : Bool}

theorem link_inv {g : G σ} {d : Nat} {A B B' : List Nat} {p c : Nat} {l : Int} {rem : List Int} {s' : σ}
    (h : Inv Vl P m rank r prim rel g d A B p (l :: rem)) (hp : Cur m rank r g d A B p)
    (hc : c < g.nn) (hc0 : c ≠ 0) (hcr : m.eqs (g.st c) = true ∨ rank (g.st c) = rank r.st + d + 1)
    (hl : l ∈ m.lgf (g.st p)) (hs : m.stf (g.st p) l = some s') (hcov : CoverV Vl m (g.st c) s')
    (hc1 : c = 1 → s' = m.stt)
    (hU : (g.ex c = true → g.ex p = true ∧ g.st c = s') ∨
      (m.sense.better (P.add (g.bound p) (m.stc (g.st p) l)) (g.bound c) = false ∧ g.par c ≠ []))
    (hN : g.par c = [] → g.ex c = true → m.sense.better (P.add (g.bound p) (m.stc (g.st p) l)) (g.bound c) = true)
    (hBn : B'.Nodup) (hB : ∀ i, i ∈ B' ↔ i ∈ B ∨ (i = c ∧ m.eqs (g.st c) = false)) :
    Inv Vl P m rank r prim rel (Fl.link P m g p c l) d A B' p rem ∧ Cur m rank r (Fl.link P m g p c l) d A B' p ∧
    (∀ i, Lv (Fl.link P m g p c l) i ↔ Lv g i ∨ i = c) := by
  have two := h.two
  have hpc : p ≠ c := by
    intro hh; subst hh
    rcases hcr with a | a
    · rw [hp.ne] at a; simp at a
    · rw [hp.rk] at a; omega
  have hpe : m.eqs (g.st p) = false := hp.ne
  -- the child: bound after the update
  have hstep : ∀ (_ : g.st c = s'), Step m (g.st p) l (g.st c) := fun hh => ⟨hp.ne, hl, by rw [hh]; exact hs⟩
  -- old nodes
  have hcA : c ∉ A := by
    intro hh
    have := h.Am c hh
    rcases hcr with a | a
    · rw [this.2.1] at a; simp at a
    · omega
  have hes_ne : ∀ e, e < g.ne → g.es e ≠ c := by
    intro e he hh
    obtain ⟨a1, a2, a3, a4⟩ := h.esrc e he
    rw [hh] at a1 a2 a3 a4
    rcases hcr with a | a
    · rw [a2] at a; simp at a
    · rcases h.done c a1 a2 with b | b | b
      · exact a3 b
      · exact a4 b
      · omega
  have hlv : ∀ i, Lv (Fl.link P m g p c l) i ↔ Lv g i ∨ i = c := by
    intro i
    rw [link_eq P m g p c l hpc]
    simp only [Lv, upd_apply]
    by_cases hi : i = c
    · subst hi; simp; exact hc
    · simp [hi]
  have hbne : ∀ i, i ≠ c → (Fl.link P m g p c l).bound i = g.bound i := by
    intro i hi
    rw [link_eq P m g p c l hpc]
    dsimp only
    split
    · exact upd_ne _ _ hi
    · rfl
  have hlne : ∀ i, i ≠ c → (Fl.link P m g p c l).lab i = g.lab i := by
    intro i hi
    rw [link_eq P m g p c l hpc]
    dsimp only
    split
    · exact upd_ne _ _ hi
    · rfl
  have hbc : m.sense.k (g.bound c) ≤ m.sense.k ((Fl.link P m g p c l).bound c) ∧
      m.sense.k (P.add (g.bound p) (m.stc (g.st p) l)) ≤ m.sense.k ((Fl.link P m g p c l).bound c) := by
    rw [link_eq P m g p c l hpc]
    dsimp only
    by_cases hb : m.sense.better (P.add (g.bound p) (m.stc (g.st p) l)) (g.bound c) = true
    · rw [if_pos hb, upd_same]
      rw [Sense.better_iff] at hb
      omega
    · rw [if_neg hb]
      rw [Bool.not_eq_true, Sense.better_false] at hb
      omega
  have hst : (Fl.link P m g p c l).st = g.st := by rw [link_eq P m g p c l hpc]
  have hne : (Fl.link P m g p c l).ne = g.ne + 1 := by rw [link_eq P m g p c l hpc]
  have hnn : (Fl.link P m g p c l).nn = g.nn := by rw [link_eq P m g p c l hpc]
  have hes : (Fl.link P m g p c l).es = upd g.es g.ne p := by rw [link_eq P m g p c l hpc]
  have hed : (Fl.link P m g p c l).ed = upd g.ed g.ne c := by rw [link_eq P m g p c l hpc]
  have hel : (Fl.link P m g p c l).el = upd g.el g.ne l := by rw [link_eq P m g p c l hpc]
  have heo : (Fl.link P m g p c l).eo = upd g.eo g.ne (m.stc (g.st p) l) := by rw [link_eq P m g p c l hpc]
  have hex : (Fl.link P m g p c l).ex = g.ex := by rw [link_eq P m g p c l hpc]
  have hexact : (Fl.link P m g p c l).exact = g.exact := by rw [link_eq P m g p c l hpc]
  have hlayer : (Fl.link P m g p c l).layer = upd g.layer c (max (g.layer c) (g.layer p + 1)) := by
    rw [link_eq P m g p c l hpc]
  have hpar : (Fl.link P m g p c l).par = upd g.par c (g.par c ++ [g.ne]) := by rw [link_eq P m g p c l hpc]
  have hkids : (Fl.link P m g p c l).kids = upd g.kids p (g.kids p ++ [g.ne]) := by rw [link_eq P m g p c l hpc]
  have hroot : (Fl.link P m g p c l).root = g.root := by rw [link_eq P m g p c l hpc]
  have htrg : (Fl.link P m g p c l).trg = g.trg := by rw [link_eq P m g p c l hpc]
  have hbeq : m.sense.better (P.add (g.bound p) (m.stc (g.st p) l)) (g.bound c) = true →
      (Fl.link P m g p c l).bound c = P.add (g.bound p) (m.stc (g.st p) l) ∧
      (Fl.link P m g p c l).lab c = g.lab p ++ [l] := by
    intro hb; rw [link_eq P m g p c l hpc]; dsimp only; rw [if_pos hb, if_pos hb]; simp
  have hbeq' : m.sense.better (P.add (g.bound p) (m.stc (g.st p) l)) (g.bound c) = false →
      (Fl.link P m g p c l).bound c = g.bound c ∧ (Fl.link P m g p c l).lab c = g.lab c := by
    intro hb; rw [link_eq P m g p c l hpc]; simp [hb]
  have hlvc : m.sense.better (P.add (g.bound p) (m.stc (g.st p) l)) (g.bound c) = false → g.ex c = true → Lv g c := by
    intro hb hx
    refine ⟨hc, Or.inr fun hh => ?_⟩
    rw [hN hh hx] at hb; simp at hb
  generalize hg' : Fl.link P m g p c l = g' at *
  have hlv_of : ∀ i, Lv g i → Lv g' i := fun i hi => (hlv i).2 (Or.inl hi)
  have heslt : ∀ e, e < g.ne → g'.es e = g.es e := fun e he => by rw [hes]; exact upd_ne _ _ (by omega)
  have hedlt : ∀ e, e < g.ne → g'.ed e = g.ed e := fun e he => by rw [hed]; exact upd_ne _ _ (by omega)
  have hellt : ∀ e, e < g.ne → g'.el e = g.el e := fun e he => by rw [hel]; exact upd_ne _ _ (by omega)
  have heolt : ∀ e, e < g.ne → g'.eo e = g.eo e := fun e he => by rw [heo]; exact upd_ne _ _ (by omega)
  have hesn : g'.es g.ne = p := by rw [hes, upd_same]
  have hedn : g'.ed g.ne = c := by rw [hed, upd_same]
  have heln : g'.el g.ne = l := by rw [hel, upd_same]
  have heon : g'.eo g.ne = m.stc (g.st p) l := by rw [heo, upd_same]
  have hlayc : m.eqs (g.st c) = false → max (g.layer c) (g.layer p + 1) = d + 1 := by
    intro hh
    have hr : rank (g.st c) = rank r.st + d + 1 := by
      rcases hcr with a | a
      · rw [hh] at a; simp at a
      · exact a
    have := h.lay c hc hh
    rw [hp.ly]; omega
  have hcB : m.eqs (g.st c) = false → Lv g c → c ∈ B := by
    intro h1 h2
    rcases h.done c h2 h1 with a | a | a
    · exact absurd a hcA
    · exact a
    · rcases hcr with b | b
      · rw [h1] at b; simp at b
      · omega
  have hpB' : p ∉ B' := by
    rw [hB]; rintro (a | ⟨a, _⟩)
    · exact hp.nB a
    · exact hpc a
  refine ⟨?_, ?_, hlv⟩
  · constructor
    · constructor
      · rw [hroot]; exact h.root
      · rw [htrg]; exact h.trg
      · rw [hnn]; exact two
      · rw [hnn, hst]; exact h.inj
      · intro i e
        rw [hkids, hne, hes]
        simp only [upd_apply]
        by_cases hi : i = p
        · rw [if_pos hi, hi]
          simp only [List.mem_append, List.mem_singleton, h.kids]
          by_cases he : e = g.ne
          · simp [he]
          · simp only [he, if_false, or_false]; constructor
            · rintro ⟨a, b⟩; exact ⟨by omega, b⟩
            · rintro ⟨a, b⟩; exact ⟨by omega, b⟩
        · rw [if_neg hi, h.kids]
          by_cases he : e = g.ne
          · simp [he, Ne.symm hi]
          · simp only [he, if_false]; constructor
            · rintro ⟨a, b⟩; exact ⟨by omega, b⟩
            · rintro ⟨a, b⟩; exact ⟨by omega, b⟩
      · intro i e
        rw [hpar, hne, hed]
        simp only [upd_apply]
        by_cases hi : i = c
        · rw [if_pos hi, hi]
          simp only [List.mem_append, List.mem_singleton, h.par]
          by_cases he : e = g.ne
          · simp [he]
          · simp only [he, if_false, or_false]; constructor
            · rintro ⟨a, b⟩; exact ⟨by omega, b⟩
            · rintro ⟨a, b⟩; exact ⟨by omega, b⟩
        · rw [if_neg hi, h.par]
          by_cases he : e = g.ne
          · simp [he, Ne.symm hi]
          · simp only [he, if_false]; constructor
            · rintro ⟨a, b⟩; exact ⟨by omega, b⟩
            · rintro ⟨a, b⟩; exact ⟨by omega, b⟩
      · intro i
        rw [hkids]; simp only [upd_apply]
        split
        · rw [List.nodup_append]
          refine ⟨h.kn p, by simp, ?_⟩
          intro a ha b hb; simp at hb; subst hb
          have := ((h.kids p a).1 ha).1
          omega
        · exact h.kn i
      · intro i
        rw [hpar]; simp only [upd_apply]
        split
        · rw [List.nodup_append]
          refine ⟨h.pn c, by simp, ?_⟩
          intro a ha b hb; simp at hb; subst hb
          have := ((h.par c a).1 ha).1
          omega
        · exact h.pn i
      · intro e he
        rw [hne] at he; rw [hnn]
        by_cases hen : e = g.ne
        · subst hen; rw [hesn, hedn]; exact ⟨hp.lv.1, hc⟩
        · rw [heslt e (by omega), hedlt e (by omega)]; exact h.edge e (by omega)
    · rw [hst]; exact h.st0
    · rw [hst]; exact h.st1
    · rw [hbne 0 (Ne.symm hc0)]; exact h.b0
    · rw [hlne 0 (Ne.symm hc0)]; exact h.l0
    · rw [hpar, upd_ne _ _ (Ne.symm hc0)]; exact h.par0
    · rw [hex]; exact h.ex0
    · intro e he
      rw [hne] at he
      by_cases hen : e = g.ne
      · subst hen; rw [hesn, hst]; exact ⟨hlv_of p hp.lv, hp.ne, hp.nA, hpB'⟩
      · rw [heslt e (by omega), hst]
        obtain ⟨a1, a2, a3, a4⟩ := h.esrc e (by omega)
        refine ⟨hlv_of _ a1, a2, a3, ?_⟩
        rw [hB]; rintro (a | ⟨a, _⟩)
        · exact a4 a
        · exact hes_ne e (by omega) a
    · intro e he
      rw [hne] at he
      by_cases hen : e = g.ne
      · subst hen; rw [hesn, hedn, hst, hp.rk]
        exact hcr
      · rw [heslt e (by omega), hedlt e (by omega), hst]; exact h.erank e (by omega)
    · intro e he
      rw [hne] at he
      by_cases hen : e = g.ne
      · subst hen; rw [hesn, heln, heon, hst]; exact ⟨hl, rfl⟩
      · rw [heslt e (by omega), hellt e (by omega), heolt e (by omega), hst]; exact h.estep e (by omega)
    · intro e he
      rw [hne] at he
      by_cases hen : e = g.ne
      · subst hen; rw [hesn, hedn, heln, hst]; intro hh; rw [hs, hc1 hh]
      · rw [heslt e (by omega), hedlt e (by omega), hellt e (by omega), hst]; exact h.etrg e (by omega)
    · intro e he
      rw [hne] at he
      by_cases hen : e = g.ne
      · subst hen; rw [hesn, hedn, heon, hbne p hpc]; exact hbc.2
      · rw [heslt e (by omega), hedlt e (by omega), heolt e (by omega), hbne _ (hes_ne e (by omega))]
        have := h.ebd e (by omega)
        by_cases hh : g.ed e = c
        · rw [hh] at this ⊢; have := hbc.1; omega
        · rw [hbne _ hh]; exact this
    · intro i hi hx
      rw [hex] at hx
      by_cases hic : i = c
      · subst hic
        by_cases hb : m.sense.better (P.add (g.bound p) (m.stc (g.st p) l)) (g.bound i) = true
        · rcases hU with b | ⟨a, _⟩
          · obtain ⟨ls, q1, q2⟩ := h.gen p hp.lv (b hx).1
            refine ⟨ls ++ [l], ?_, ?_⟩
            · rw [(hbeq hb).2, q1, List.append_assoc]
            · rw [(hbeq hb).1, hst]
              exact q2.snoc (hstep (b hx).2)
          · rw [hb] at a; simp at a
        · rw [Bool.not_eq_true] at hb
          simpa only [Gen, (hbeq' hb).1, (hbeq' hb).2, hst] using h.gen i (hlvc hb hx) hx
      · rcases (hlv i).1 hi with a | a
        · simpa only [Gen, hbne i hic, hlne i hic, hst] using h.gen i a hx
        · exact absurd a hic
    · rw [hnn, hst]; exact h.rxs
    · rw [hnn, hst, hex]; exact h.exr
    · rw [hexact, hnn, hex]; exact h.exa
    · intro hh
      rw [hpar] at hh
      by_cases h1c : 1 = c
      · rw [← h1c] at hh; simp at hh
      · rw [upd_ne _ _ h1c] at hh
        rw [hbne 1 h1c]; exact h.trg0 hh
    · intro i hi hq
      rw [hnn] at hi; rw [hst] at hq ⊢
      rw [hlayer, upd_apply]
      split
      · rename_i hh; subst hh
        rw [hlayc hq]
        rcases hcr with a | a
        · rw [hq] at a; simp at a
        · omega
      · exact h.lay i hi hq
    · exact h.An
    · exact hBn
    · intro i hi
      have hic : i ≠ c := fun hh => hcA (hh ▸ hi)
      obtain ⟨a1, a2, a3, a4⟩ := h.Am i hi
      rw [hst, hlayer, upd_ne _ _ hic]
      exact ⟨hlv_of i a1, a2, a3, a4⟩
    · intro i hi
      rw [hst, hlayer]
      by_cases hic : i = c
      · have hq : m.eqs (g.st c) = false := by
          rcases (hB i).1 hi with a | a
          · rw [← hic]; exact (h.Bm i a).2.1
          · exact a.2
        subst hic
        rw [upd_same]
        refine ⟨(hlv i).2 (Or.inr rfl), hq, hlayc hq, ?_⟩
        rcases hcr with a | a
        · rw [hq] at a; simp at a
        · exact a
      · rcases (hB i).1 hi with a | a
        · rw [upd_ne _ _ hic]
          obtain ⟨a1, a2, a3, a4⟩ := h.Bm i a
          exact ⟨hlv_of i a1, a2, a3, a4⟩
        · exact absurd a.1 hic
    · intro i hi hq
      rw [hst] at hq ⊢
      rcases (hlv i).1 hi with a | a
      · rcases h.done i a hq with b | b | b
        · exact Or.inl b
        · exact Or.inr (Or.inl ((hB i).2 (Or.inl b)))
        · exact Or.inr (Or.inr b)
      · exact Or.inr (Or.inl ((hB i).2 (Or.inr ⟨a, by rw [← a]; exact hq⟩)))
    · intro hr i hi hq hiA hiB l' hl' hrem
      rw [hexact] at hr
      rw [hst] at hq hl'
      have hic : i ≠ c := by
        intro hh; apply hiB; rw [hB]; exact Or.inr ⟨hh, by rw [← hh]; exact hq⟩
      have hiB0 : i ∉ B := fun hh => hiB ((hB i).2 (Or.inl hh))
      have hi0 : Lv g i := by
        rcases (hlv i).1 hi with a | a
        · exact a
        · exact absurd a hic
      by_cases hnew : i = p ∧ l' = l
      · obtain ⟨rfl, rfl⟩ := hnew
        intro s2 hs2
        rw [hst] at hs2
        rw [hs] at hs2
        refine Or.inr ⟨g.ne, by omega, hesn, by rw [heon, hst], ?_⟩
        rw [hedn, hst]
        simp at hs2; subst hs2; exact hcov
      · have hcv := h.cov hr i hi0 hq hiA hiB0 l' hl' (by
          rintro ⟨a, b⟩
          simp only [List.mem_cons] at b
          rcases b with b | b
          · exact hnew ⟨a, b⟩
          · exact hrem ⟨a, b⟩)
        intro s2 hs2
        rw [hst] at hs2
        rcases hcv s2 hs2 with q | ⟨e, q1, q2, q3, q4⟩
        · left; rw [hbne i hic, hst]; exact q
        · right
          exact ⟨e, by omega, by rw [heslt e q1]; exact q2, by rw [heolt e q1, hst]; exact q3,
            by rw [hedlt e q1, hst]; exact q4⟩
  · exact ⟨hlv_of p hp.lv, by rw [hst]; exact hp.ne, hp.nA, hpB', by rw [hst]; exact hp.rk,
      by rw [hlayer, upd_ne _ _ hpc]; exact hp.ly⟩

end Verif.Fl
