import Verif.DDLink
/-!
# One transition of a layered compilation keeps the invariant
-/
namespace Verif.DD
variable {σ : Type} {Vl : σ → Int → Prop}

section
variable [Same σ] {m : Mdl σ} {rank : σ → Nat} {r : Src σ} {prim : Int} {rel : Bool}

theorem Inv.bb {g : G σ} {d : Nat} {A B : List Nat} {p : Nat} {rem : List Int}
    (h : Inv Vl m rank r prim rel g d A B p rem) (x : Nat → Int) :
    Inv Vl m rank r prim rel { g with bb := x } d A B p rem :=
  h.frame rfl rfl rfl rfl rfl rfl rfl rfl rfl rfl (Nat.le_refl _) (fun _ _ => rfl) h.inj
    (fun _ _ => rfl) (fun _ _ => rfl) (fun _ _ => rfl) (fun _ _ hx => hx) h.ex0 h.rxs h.exr h.exa h.lay

theorem Inv.setAn {g : G σ} {d : Nat} {A B : List Nat} {p : Nat} {rem : List Int}
    (h : Inv Vl m rank r prim rel g d A B p rem) (x : List Nat) :
    Inv Vl m rank r prim rel { g with an := x } d A B p rem :=
  h.frame rfl rfl rfl rfl rfl rfl rfl rfl rfl rfl (Nat.le_refl _) (fun _ _ => rfl) h.inj
    (fun _ _ => rfl) (fun _ _ => rfl) (fun _ _ => rfl) (fun _ _ hx => hx) h.ex0 h.rxs h.exr h.exa h.lay

/-- The order of the lists does not matter. -/
theorem Inv.perm {g : G σ} {d : Nat} {A B A' B' : List Nat} {p : Nat} {rem : List Int}
    (h : Inv Vl m rank r prim rel g d A B p rem) (hA : A'.Nodup) (hB : B'.Nodup)
    (mA : ∀ i, i ∈ A' ↔ i ∈ A) (mB : ∀ i, i ∈ B' ↔ i ∈ B) :
    Inv Vl m rank r prim rel g d A' B' p rem :=
  { h with
    esrc := fun e he => by rw [mA, mB]; exact h.esrc e he
    An := hA
    Bn := hB
    Am := fun i hi => h.Am i ((mA i).1 hi)
    Bm := fun i hi => h.Bm i ((mB i).1 hi)
    done := fun i a b => by rw [mA, mB]; exact h.done i a b
    cov := fun hr i a b => by rw [mA, mB]; exact h.cov hr i a b }

/-- Dropping a label that is covered. -/
theorem Inv.skip {g : G σ} {d : Nat} {A B : List Nat} {p : Nat} {l : Int} {rem : List Int}
    (h : Inv Vl m rank r prim rel g d A B p (l :: rem)) (hc : CovL Vl m prim g p l) :
    Inv Vl m rank r prim rel g d A B p rem :=
  { h with
    cov := fun hr i a b c d' l' hl' hrem => by
      by_cases hn : i = p ∧ l' = l
      · rw [hn.1, hn.2]; exact hc
      · exact h.cov hr i a b c d' l' hl' (by
          rintro ⟨x, y⟩
          simp only [List.mem_cons] at y
          rcases y with y | y
          · exact hn ⟨x, y⟩
          · exact hrem ⟨x, y⟩) }

end

section
variable [Same σ] {m : Mdl σ} {rank : σ → Nat} {r : Src σ} {prim : Int} {rel : Bool}

theorem transition_cases (m : Mdl σ) (prim : Int) (g : G σ) (p : Nat) (l : Int) :
    (m.stf (g.st p) l = none ∧ transition m prim g p l = (g, none)) ∨
    (∃ s' f, m.stf (g.st p) l = some s' ∧ m.loc = some f ∧
      m.sense.better (g.bound p + m.stc (g.st p) l + f s' .dd) prim = false ∧
      transition m prim g p l = (g, none)) ∨
    (∃ s' x, m.stf (g.st p) l = some s' ∧
      (∀ f, m.loc = some f → m.sense.better (g.bound p + m.stc (g.st p) l + f s' .dd) prim = true) ∧
      transition m prim g p l = ({ (makeNode m g s' (g.ex p)).1 with bb := x },
        some (makeNode m g s' (g.ex p)).2)) := by
  unfold transition
  cases hs : m.stf (g.st p) l with
  | none => exact Or.inl ⟨rfl, rfl⟩
  | some s' =>
    right
    dsimp only
    cases hl : m.loc with
    | none =>
      right
      exact ⟨s', (makeNode m g s' (g.ex p)).1.bb, rfl, by simp, rfl⟩
    | some f =>
      dsimp only
      by_cases hb : m.sense.better (g.bound p + m.stc (g.st p) l + f s' .dd) prim = true
      · right
        rw [if_pos hb]
        split
        · exact ⟨s', (makeNode m g s' (g.ex p)).1.bb, rfl, by intro f' hf'; simp at hf'; subst hf'; exact hb, rfl⟩
        · exact ⟨s', _, rfl, by intro f' hf'; simp at hf'; subst hf'; exact hb, rfl⟩
      · left
        rw [if_neg hb]
        exact ⟨s', f, rfl, rfl, by simpa using hb, rfl⟩

omit [Same σ] in
theorem findDom_some {m : Mdl σ} {g : G σ} {cands : List Nat} {n o : Nat} {v : Int}
    (h : findDom m g cands n v = some o) :
    ∃ sd, m.sdom = some sd ∧ o ∈ cands ∧ m.sense.betterEQ (g.bound o) v = true ∧ sd (g.st o) (g.st n) = true := by
  unfold findDom at h
  cases hs : m.sdom with
  | none => rw [hs] at h; simp at h
  | some sd =>
    rw [hs] at h
    have h1 := List.mem_of_find?_eq_some h
    have h2 := List.find?_some h
    simp at h2
    exact ⟨sd, rfl, h1, h2.1, h2.2⟩

theorem visit_inv {g : G σ} {d : Nat} {A B : List Nat} {p : Nat} {l : Int} {rem : List Int}
    (H : LayeredV Vl m rank r.st r.bound)
    (h : Inv Vl m rank r prim rel g d A B p (l :: rem)) (hp : Cur m rank r g d A B p) (ha : AnOK g 1)
    (hl : l ∈ m.lgf (g.st p)) {g' : G σ} {o : Option Nat} (hv : visit m prim B g p l = (g', o)) :
    (o = none → Inv Vl m rank r prim rel g' d A B p rem ∧ Cur m rank r g' d A B p) ∧
    (∀ c, o = some c → c ∉ B ∧ Inv Vl m rank r prim rel g' d A (B ++ [c]) p rem ∧ Cur m rank r g' d A (B ++ [c]) p) ∧
    AnOK g' 1 ∧ g'.exact = g.exact ∧ g'.st p = g.st p := by
  have two := h.two
  rcases transition_cases m prim g p l with ⟨h1, h2⟩ | ⟨s', f, h1, hf, hb, h2⟩ | ⟨s', x, h1, hb, h2⟩
  · unfold DD.visit at hv
    rw [h2] at hv
    simp at hv
    obtain ⟨rfl, rfl⟩ := hv
    refine ⟨fun _ => ⟨h.skip ?_, hp⟩, by simp, ha, rfl, rfl⟩
    intro s hs; rw [h1] at hs; simp at hs
  · unfold DD.visit at hv
    rw [h2] at hv
    simp at hv
    obtain ⟨rfl, rfl⟩ := hv
    refine ⟨fun _ => ⟨h.skip ?_, hp⟩, by simp, ha, rfl, rfl⟩
    intro s hs; rw [h1] at hs; simp at hs; subst hs
    left
    intro c hc
    have := H.local_ f hf s' _ .dd c ((h.relx p hp.lv).step ⟨hp.ne, hl, h1⟩) hc
    rw [Sense.betterEQ_iff] at this
    rw [Sense.better_false] at hb ⊢
    simp only [Sense.k_add] at hb ⊢
    omega
  · have hst : Step m (g.st p) l s' := ⟨hp.ne, hl, h1⟩
    have hrelx := (h.relx p hp.lv).step hst
    have hsr := H.step _ _ _ _ (h.relx p hp.lv) hst
    obtain ⟨g1, c, k1, k2, k3, k4, k5, k6, k7, k8, k9, k10, k11, k12, k13, k14, k15, k16⟩ :=
      h.makeNode H s' (g.ex p) (fun hx => h.exa hx p hp.lv.1) hrelx (fun hx => by
        obtain ⟨ls, _, q2⟩ := h.gen p hp.lv hx
        exact ⟨_, _, q2.snoc hst⟩) (by
        rcases hsr with a | a
        · exact Or.inl a
        · rw [hp.rk] at a; right; omega)
    have hpc : p ≠ c := by
      intro hh
      have e := (k12 p hp.lv).1
      rw [hh] at e
      rcases hsr with a | a
      · rw [← k4.q, e, ← hh, hp.ne] at a; simp at a
      · rw [← k4.rk, e, ← hh] at a; omega
    have hcr : m.eqs (g1.st c) = true ∨ rank (g1.st c) = rank r.st + d + 1 := by
      rw [k4.q, k4.rk]
      rcases hsr with a | a
      · exact Or.inl a
      · rw [hp.rk] at a; right; omega
    have hp1 : Cur m rank r g1 d A B p := by
      obtain ⟨q1, q2, q3, q4, q5⟩ := k12 p hp.lv
      exact ⟨(k8 p).2 hp.lv, by rw [q1]; exact hp.ne, hp.nA, hp.nB, by rw [q1]; exact hp.rk, by rw [q3]; exact hp.ly⟩
    have hpst : g1.st p = g.st p := (k12 p hp.lv).1
    have hpex : g1.ex p = g.ex p := (k12 p hp.lv).2.2.2.2 hpc
    have hs1 : m.stf (g1.st p) l = some s' := by rw [hpst]; exact h1
    have hl1 : l ∈ m.lgf (g1.st p) := by rw [hpst]; exact hl
    have hst1 : Step m (g1.st p) l s' := by rw [hpst]; exact hst
    -- the arena after `transition`
    rw [k1] at h2
    generalize hg2 : ({ g1 with bb := x } : G σ) = g2 at h2
    have i2 : Inv Vl m rank r prim rel g2 d A B p (l :: rem) := by rw [← hg2]; exact k2.bb x
    have p2 : Cur m rank r g2 d A B p := by rw [← hg2]; exact ⟨hp1.lv, hp1.ne, hp1.nA, hp1.nB, hp1.rk, hp1.ly⟩
    have f2 : g2.st = g1.st ∧ g2.bound = g1.bound ∧ g2.par = g1.par ∧ g2.an = g1.an ∧ g2.ex = g1.ex ∧ g2.nn = g1.nn
      ∧ g2.exact = g1.exact := by
      rw [← hg2]; exact ⟨rfl, rfl, rfl, rfl, rfl, rfl, rfl⟩
    obtain ⟨f_st, f_b, f_par, f_an, f_ex, f_nn, f_exact⟩ := f2
    have lv2 : ∀ i, Lv g2 i ↔ Lv g i := by
      intro i; rw [← k8 i]; simp only [Lv, f_nn, f_par]
    unfold DD.visit at hv
    rw [h2] at hv
    simp only [] at hv
    by_cases hnew : g2.par c = []
    · -- first parent of the child
      have hnew1 : g1.par c = [] := by rw [← f_par]; exact hnew
      simp only [hnew, List.isEmpty_nil, if_true] at hv
      cases hd : findDom m g2 B c (g2.bound p + m.stc (g2.st p) l) with
      | none =>
        rw [hd] at hv
        simp only [Option.isSome_none, Option.getD_none, Option.isNone_none, Bool.true_and, Bool.and_true] at hv
        have hg' : g' = link m g2 p c l := by
          have := congrArg Prod.fst hv; simpa [link] using this.symm
        have ho : o = if !(m.eqs (g2.st c)) then some c else none := by
          have := congrArg Prod.snd hv
          have h3 : (link m g2 p c l).st = g2.st := by rw [link_eq m g2 p c l hpc]
          simp only [] at this
          rw [← this]
          have h4 := congrArg (fun f => f c) h3
          simp only [link] at h4
          simp [h4]
        have hcB : c ∉ B := by
          intro hm
          have := (i2.Bm c hm).1
          rcases this.2 with a | a
          · exact k5 a
          · exact a hnew
        have key : ∀ B', B'.Nodup → (∀ i, i ∈ B' ↔ i ∈ B ∨ (i = c ∧ m.eqs (g2.st c) = false)) →
            Inv Vl m rank r prim rel (link m g2 p c l) d A B' p rem ∧ Cur m rank r (link m g2 p c l) d A B' p ∧
            (∀ i, Lv (link m g2 p c l) i ↔ Lv g2 i ∨ i = c) := by
          intro B' n1 n2
          refine link_inv (s' := s') H i2 p2 (by rw [f_nn]; exact k3) k5 (by rw [f_st]; exact hcr)
            (by rw [f_st]; exact hl1) (by rw [f_st]; exact hs1) ?_ k4.one (Or.inl ⟨by rw [f_st]; exact k4.rx, ?_⟩) ?_ n1 n2
          · rw [f_st]; exact k4.cov
          · rw [f_ex, f_st, hpex]; exact fun hx => ⟨k6 hx, k4.ex hx⟩
          · intro _; rw [f_b]; exact k7 hnew1
        have hlane : (link m g2 p c l).an = g2.an := by rw [link_eq m g2 p c l hpc]
        have hlnn : (link m g2 p c l).nn = g2.nn := by rw [link_eq m g2 p c l hpc]
        have hlex : (link m g2 p c l).exact = g2.exact := by rw [link_eq m g2 p c l hpc]
        have hlst : (link m g2 p c l).st = g2.st := by rw [link_eq m g2 p c l hpc]
        have hlv := (key (if m.eqs (g2.st c) then B else B ++ [c])
          (by
            split
            · exact h.Bn
            · rw [List.nodup_append]; exact ⟨h.Bn, by simp, by intro a ha b hb; simp at hb; subst hb; intro hh; exact hcB (hh ▸ ha)⟩)
          (by intro i; by_cases hq : m.eqs (g2.st c) = true <;> simp [hq])).2.2
        refine ⟨?_, ?_, ?_, ?_, ?_⟩
        · intro hon
          have hq : m.eqs (g2.st c) = true := by
            rw [ho] at hon
            by_cases hq : m.eqs (g2.st c) = true
            · exact hq
            · simp [hq] at hon
          have := key B h.Bn (by intro i; simp [hq])
          rw [hg']; exact ⟨this.1, this.2.1⟩
        · intro c' hc'
          have hq : m.eqs (g2.st c) = false := by
            rw [ho] at hc'
            by_cases hq : m.eqs (g2.st c) = true
            · simp [hq] at hc'
            · simpa using hq
          have hcc : c' = c := by rw [ho, hq] at hc'; simpa using hc'.symm
          subst hcc
          have := key (B ++ [c']) (by
              rw [List.nodup_append]
              exact ⟨h.Bn, by simp, by intro a ha b hb; simp at hb; subst hb; intro hh; exact hcB (hh ▸ ha)⟩)
            (by intro i; simp [hq])
          rw [hg']; exact ⟨hcB, this.1, this.2.1⟩
        · rw [hg']
          constructor
          · rw [hlane, f_an, k13]
            split
            · rename_i hh
              rw [List.nodup_append]
              exact ⟨ha.1, by simp, by
                intro a haa b hb; simp at hb; subst hb; intro hh2; exact k14 ha hh (hh2 ▸ haa)⟩
            · simpa using ha.1
          · intro i
            rw [hlane, f_an, k13, hlnn, hlv, lv2]
            simp only [List.mem_append, ha.2]
            rw [f_nn]
            by_cases hc1 : c = 1
            · rw [if_neg (by simp [hc1])]
              simp only [List.not_mem_nil, or_false]
              constructor
              · rintro ⟨a, b⟩; exact ⟨by omega, by rcases b with b | b | b <;> simp [b]⟩
              · rintro ⟨a, b⟩
                have : i < g.nn := by
                  rcases b with (b | b) | b
                  · exact b.1
                  · omega
                  · omega
                refine ⟨this, ?_⟩
                rcases b with (b | b) | b
                · exact Or.inl b
                · right; left; omega
                · right; left; omega
            · rw [if_pos ⟨hnew1, hc1⟩]
              simp only [List.mem_singleton]
              constructor
              · rintro (⟨a, b⟩ | b)
                · exact ⟨by omega, by rcases b with b | b | b <;> simp [b]⟩
                · exact ⟨by omega, by simp [b]⟩
              · rintro ⟨a, b⟩
                rcases b with (b | b) | b | b
                · exact Or.inl ⟨b.1, Or.inl b⟩
                · exact Or.inr b
                · exact Or.inl ⟨by omega, Or.inr (Or.inl b)⟩
                · exact Or.inl ⟨by omega, Or.inr (Or.inl b)⟩
        · rw [hg', hlex, f_exact, k11]
        · rw [hg', hlst, f_st, hpst]
      | some o' =>
        obtain ⟨sd, s1, s2, s3, s4⟩ := findDom_some hd
        rw [hd] at hv
        simp only [Option.isSome_some, if_true, Option.getD_some, Option.isNone_some, Bool.false_and] at hv
        have hoB := i2.Bm o' s2
        have hop : p ≠ o' := by
          intro hh; rw [← hh] at hoB; exact p2.nB (hh ▸ s2)
        have ho0 : o' ≠ 0 := by
          intro hh
          have := hoB.2.2.2
          rw [hh, i2.st0] at this; omega
        have hop1 : o' ≠ 1 := by
          intro hh
          have := hoB.2.1
          rw [hh, i2.st1, H.sink] at this; simp at this
        have hopar : g2.par o' ≠ [] := by
          rcases hoB.1.2 with a | a
          · exact absurd a ho0
          · exact a
        have hcov := H.dom sd s1 (g2.st o') (g2.st c) _ _ (i2.relx o' hoB.1) (by rw [f_st]; exact k4.rx _ hrelx) hoB.2.1
          (by
            rw [f_st] at hoB ⊢
            cases he : m.eqs (g1.st c) with
            | true => exact Or.inr ⟨_, _, _, h.relx p hp.lv, by rw [k4.tm (k4.q ▸ he)]; exact hst, rfl, by rw [hoB.2.2.2, hp.rk]⟩
            | false =>
              rcases hcr with a | a
              · rw [he] at a; simp at a
              · exact Or.inl ⟨rfl, by rw [a]; exact hoB.2.2.2⟩) s4
        have hc1 : c ≠ 1 := by
          intro hh; apply hcov.2; rw [hh]; exact i2.st1
        generalize hg3 : ({ g2 with an := g2.an.dropLast } : G σ) = g3 at hv
        have i3 : Inv Vl m rank r prim rel g3 d A B p (l :: rem) := by rw [← hg3]; exact i2.setAn _
        have p3 : Cur m rank r g3 d A B p := by
          rw [← hg3]; exact ⟨p2.lv, p2.ne, p2.nA, p2.nB, p2.rk, p2.ly⟩
        have e3 : g3.st = g2.st ∧ g3.bound = g2.bound ∧ g3.par = g2.par ∧ g3.nn = g2.nn ∧ g3.exact = g2.exact := by
          rw [← hg3]; exact ⟨rfl, rfl, rfl, rfl, rfl⟩
        have han3 : g3.an = g.an := by
          rw [← hg3]; dsimp only; rw [f_an, k13, if_pos ⟨hnew1, hc1⟩]; simp
        have hg' : g' = link m g3 p o' l := by
          have := congrArg Prod.fst hv
          refine Eq.trans (Eq.symm this) ?_
          unfold link; rw [e3.1, e3.2.1]
        have ho : o = none := by
          have := congrArg Prod.snd hv
          simpa using this.symm
        have hbet : m.sense.better (g3.bound p + m.stc (g3.st p) l) (g3.bound o') = false := by
          rw [e3.1, e3.2.1]
          rw [Sense.betterEQ_iff] at s3
          rw [Sense.better_false]; exact s3
        have key := link_inv (s' := s') (B' := B) H i3 p3 (c := o') (by rw [e3.2.2.2.1]; exact hoB.1.1) ho0
          (by rw [e3.1]; exact Or.inr hoB.2.2.2) (by rw [e3.1, f_st]; exact hl1) (by rw [e3.1, f_st]; exact hs1)
          (by rw [e3.1]; have := hcov.1; rw [f_st] at this; rw [f_st]; exact this.trans k4.cov) (fun hh => absurd hh hop1)
          (Or.inr ⟨hbet, by rw [e3.2.2.1]; exact hopar⟩) (fun hh => absurd (e3.2.2.1 ▸ hh) hopar) h.Bn
          (by intro i
              constructor
              · intro hh; exact Or.inl hh
              · rintro (a | ⟨a, _⟩)
                · exact a
                · rw [a]; exact s2)
        have hlane : (link m g3 p o' l).an = g3.an := by rw [link_eq m g3 p o' l hop]
        have hlnn : (link m g3 p o' l).nn = g3.nn := by rw [link_eq m g3 p o' l hop]
        have hlex : (link m g3 p o' l).exact = g3.exact := by rw [link_eq m g3 p o' l hop]
        have hlst : (link m g3 p o' l).st = g3.st := by rw [link_eq m g3 p o' l hop]
        have lv3 : ∀ i, Lv g3 i ↔ Lv g i := by
          intro i; rw [← lv2 i]; simp only [Lv, e3.2.2.1, e3.2.2.2.1]
        refine ⟨fun _ => by rw [hg']; exact ⟨key.1, key.2.1⟩, by rw [ho]; simp, ?_, ?_, ?_⟩
        · rw [hg']
          refine ⟨by rw [hlane, han3]; exact ha.1, fun i => ?_⟩
          rw [hlane, han3, hlnn, key.2.2, lv3, ha.2, e3.2.2.2.1, f_nn]
          have ho'lv : Lv g o' := (lv2 o').1 hoB.1
          constructor
          · rintro ⟨a, b⟩; exact ⟨by omega, by rcases b with b | b | b <;> simp [b]⟩
          · rintro ⟨a, b⟩
            rcases b with (b | b) | b | b
            · exact ⟨b.1, Or.inl b⟩
            · rw [b]; exact ⟨ho'lv.1, Or.inl ho'lv⟩
            · exact ⟨by omega, Or.inr (Or.inl b)⟩
            · exact ⟨by omega, Or.inr (Or.inl b)⟩
        · rw [hg', hlex, e3.2.2.2.2, f_exact, k11]
        · rw [hg', hlst, e3.1, f_st, hpst]
    · -- the child already had a parent
      have hie : (g2.par c).isEmpty = false := by simpa using hnew
      simp only [hie, Bool.false_and,
        Bool.and_false] at hv
      have hg' : g' = link m g2 p c l := by
        have := congrArg Prod.fst hv; simpa [link] using this.symm
      have ho : o = none := by
        have := congrArg Prod.snd hv
        simpa using this.symm
      have hlvc : Lv g2 c := ⟨by rw [f_nn]; exact k3, Or.inr hnew⟩
      have hcB : m.eqs (g2.st c) = false → c ∈ B := by
        intro hq
        rcases i2.done c hlvc hq with a | a | a
        · have := (i2.Am c a).2.2.2
          rw [f_st] at this hq
          rcases hcr with b | b
          · rw [hq] at b; simp at b
          · omega
        · exact a
        · rw [f_st] at a hq
          rcases hcr with b | b
          · rw [hq] at b; simp at b
          · omega
      have key := link_inv (s' := s') (B' := B) H i2 p2 (c := c) (by rw [f_nn]; exact k3) k5 (by rw [f_st]; exact hcr)
        (by rw [f_st]; exact hl1) (by rw [f_st]; exact hs1) (by rw [f_st]; exact k4.cov) k4.one
        (Or.inl ⟨by rw [f_st]; exact k4.rx, by rw [f_ex, f_st, hpex]; exact fun hx => ⟨k6 hx, k4.ex hx⟩⟩) (fun hh => absurd hh hnew) h.Bn
        (by intro i
            constructor
            · intro hh; exact Or.inl hh
            · rintro (a | ⟨a, b⟩)
              · exact a
              · rw [a]; exact hcB b)
      have hlane : (link m g2 p c l).an = g2.an := by rw [link_eq m g2 p c l hpc]
      have hlnn : (link m g2 p c l).nn = g2.nn := by rw [link_eq m g2 p c l hpc]
      have hlex : (link m g2 p c l).exact = g2.exact := by rw [link_eq m g2 p c l hpc]
      have hlst : (link m g2 p c l).st = g2.st := by rw [link_eq m g2 p c l hpc]
      have hnew1 : ¬ g1.par c = [] := by rw [← f_par]; exact hnew
      refine ⟨fun _ => by rw [hg']; exact ⟨key.1, key.2.1⟩, by rw [ho]; simp, ?_, ?_, ?_⟩
      · rw [hg']
        have han : g2.an = g.an := by rw [f_an, k13, if_neg (by simp [hnew1])]; simp
        refine ⟨by rw [hlane, han]; exact ha.1, fun i => ?_⟩
        rw [hlane, han, hlnn, key.2.2, lv2, ha.2, f_nn]
        have hclv : Lv g c := (lv2 c).1 hlvc
        constructor
        · rintro ⟨a, b⟩; exact ⟨by omega, by rcases b with b | b | b <;> simp [b]⟩
        · rintro ⟨a, b⟩
          rcases b with (b | b) | b | b
          · exact ⟨b.1, Or.inl b⟩
          · rw [b]; exact ⟨hclv.1, Or.inl hclv⟩
          · exact ⟨by omega, Or.inr (Or.inl b)⟩
          · exact ⟨by omega, Or.inr (Or.inl b)⟩
      · rw [hg', hlex, f_exact, k11]
      · rw [hg', hlst, f_st, hpst]

end
end Verif.DD
