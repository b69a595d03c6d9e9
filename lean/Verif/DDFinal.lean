import Verif.DDLoop
/-!
# What a finished layered compilation guarantees
-/
namespace Verif.DD
variable {σ : Type} {Vl : σ → Int → Prop} [Same σ] {m : Mdl σ} {rank : σ → Nat} {r : Src σ} {prim : Int} {rel : Bool}

/-- Nothing left to expand. -/
def Fin (Vl : σ → Int → Prop) (m : Mdl σ) (rank : σ → Nat) (r : Src σ) (prim : Int) (rel : Bool) (g : G σ) : Prop :=
  ∃ d p, Inv Vl m rank r prim rel g d [] [] p []

theorem Str.one_of_stt {g : G σ} (h : Str g) (h1 : g.st 1 = m.stt) {i : Nat} (hi : i < g.nn)
    (hs : g.st i = m.stt) (hR : ∀ a : σ, Same.same a a = true) : i = 1 := h.inj i 1 hi (by have := h.two; omega) (by rw [hs, h1]; exact hR _)

/-- Every completion of a live node is pruned, or runs into an arc to the sink that is at least as
good; `K` bounds the remaining ranks. -/
theorem fin_path (H : LayeredV Vl m rank r.st r.bound) {g : G σ} (h : Fin Vl m rank r prim rel g)
    (hr : rel = false → g.exact = true) :
    ∀ (K n : Nat) (c : Int), Lv g n → m.eqs (g.st n) = false → (∀ i, Lv g i → m.eqs (g.st i) = false →
      rank (g.st i) < rank (g.st n) + K) →
      Vl (g.st n) c → m.sense.better (g.bound n + c) prim = false ∨
      ∃ e, e ∈ g.par 1 ∧ m.sense.k (g.bound n) + m.sense.k c ≤ m.sense.k (g.bound (g.es e)) + m.sense.k (g.eo e) := by
  obtain ⟨d, p, h⟩ := h
  intro K
  induction K with
  | zero => intro n c h1 h2 h3; have := h3 n h1 h2; omega
  | succ K ih =>
    intro n c h1 h2 h3 hval
    obtain ⟨l, s', c', hst, hp', rfl⟩ := H.ends.open H.sink hval h2
    rcases h.cov hr n h1 h2 (by simp) (by simp) l hst.2.1 (by simp) s' hst.2.2 with hb | ⟨e, e1, e2, e3, e4⟩
    · left
      have := hb c' hp'
      rw [← Int.add_assoc]; exact this
    · obtain ⟨c'', hp'', hc''⟩ := e4 c' hp'
      rw [Sense.betterEQ_iff] at hc''
      have hbd := h.ebd e e1
      rw [e2, e3] at hbd
      by_cases ht : m.eqs (g.st (g.ed e)) = true
      · obtain ⟨h1', h0⟩ := H.ends.terminal hp'' ht
        have hed := h.toStr.one_of_stt h.st1 (h.edge e e1).2 h1' H.fair.refl
        right
        refine ⟨e, (h.par 1 e).2 ⟨e1, hed⟩, ?_⟩
        rw [e2, e3, Sense.k_add]
        rw [h0, Sense.k_zero] at hc''
        omega
      · have ht : m.eqs (g.st (g.ed e)) = false := by simpa using ht
        have hrk := (h.erank e e1).resolve_left (by simp [ht])
        rw [e2] at hrk
        rcases ih (g.ed e) c'' (h.toStr.ed_lv e1) ht (fun i a b => by have := h3 i a b; omega) hp'' with x | ⟨e', x1, x2⟩
        · left
          rw [Sense.better_false] at x ⊢
          simp only [Sense.k_add] at x ⊢
          omega
        · right
          refine ⟨e', x1, ?_⟩
          rw [Sense.k_add]
          omega

theorem fin_root (H : LayeredV Vl m rank r.st r.bound) {g : G σ} (h : Fin Vl m rank r prim rel g)
    (hr : rel = false → g.exact = true) {n : Nat} {c : Int} (hn : Lv g n) (hq : m.eqs (g.st n) = false)
    (hv : Vl (g.st n) c) : m.sense.better (g.bound n + c) prim = false ∨
      ∃ e, e ∈ g.par 1 ∧ m.sense.k (g.bound n) + m.sense.k c ≤ m.sense.k (g.bound (g.es e)) + m.sense.k (g.eo e) := by
  obtain ⟨d, p, h'⟩ := id h
  exact fin_path H h hr (rank r.st + d + 1) n c hn hq (fun i a b => by
    rcases h'.done i a b with x | x | x
    · simp at x
    · simp at x
    · omega) hv

/-! ### `tighten` -/

omit [Same σ] in
theorem tightenLoop_spec (g : G σ) : ∀ (es : List Nat) (cur : Int) (lb : List Int),
    (tightenLoop m g es cur lb = (cur, lb) ∨
      ∃ e, e ∈ es ∧ tightenLoop m g es cur lb = (g.bound (g.es e) + g.eo e, g.lab (g.es e) ++ [g.el e])) ∧
    m.sense.k cur ≤ m.sense.k (tightenLoop m g es cur lb).1 ∧
    (∀ e, e ∈ es → m.sense.k (g.bound (g.es e) + g.eo e) ≤ m.sense.k (tightenLoop m g es cur lb).1) := by
  intro es
  induction es with
  | nil => intro cur lb; simp [tightenLoop]
  | cons e es ih =>
    intro cur lb
    unfold tightenLoop
    dsimp only
    by_cases hb : m.sense.better (g.bound (g.es e) + g.eo e) cur = true
    · rw [if_pos hb]
      obtain ⟨a1, a2, a3⟩ := ih (g.bound (g.es e) + g.eo e) (g.lab (g.es e) ++ [g.el e])
      rw [Sense.better_iff] at hb
      refine ⟨Or.inr ?_, by omega, ?_⟩
      · rcases a1 with a | ⟨e', b1, b2⟩
        · exact ⟨e, by simp, a⟩
        · exact ⟨e', by simp [b1], b2⟩
      · intro e' he'
        rcases List.mem_cons.1 he' with x | x
        · subst x; exact a2
        · exact a3 e' x
    · rw [if_neg hb]
      obtain ⟨a1, a2, a3⟩ := ih cur lb
      have hb : m.sense.better (g.bound (g.es e) + g.eo e) cur = false := by simpa using hb
      rw [Sense.better_false] at hb
      refine ⟨?_, a2, ?_⟩
      · rcases a1 with a | ⟨e', b1, b2⟩
        · exact Or.inl a
        · exact Or.inr ⟨e', by simp [b1], b2⟩
      · intro e' he'
        rcases List.mem_cons.1 he' with x | x
        · subst x; omega
        · exact a3 e' x

omit [Same σ] in
/-- Effect of tightening the sink, when all its incoming sums are in range. -/
theorem tighten_trg {g : G σ} (ht : g.trg = 1)
    (hin : ∀ e, e ∈ g.par 1 → m.sense.better (g.bound (g.es e) + g.eo e) m.sense.best0 = true) :
    ∃ bd lb, tighten m g g.trg = { g with bound := upd g.bound 1 bd, lab := upd g.lab 1 lb } ∧
      ((g.par 1 = [] ∧ bd = m.sense.best0) ∨
       (∃ e, e ∈ g.par 1 ∧ bd = g.bound (g.es e) + g.eo e ∧ lb = g.lab (g.es e) ++ [g.el e])) ∧
      (∀ e, e ∈ g.par 1 → m.sense.k (g.bound (g.es e) + g.eo e) ≤ m.sense.k bd) := by
  refine ⟨(tightenLoop m g (g.par 1) m.sense.best0 (g.lab 1)).1,
    (tightenLoop m g (g.par 1) m.sense.best0 (g.lab 1)).2, ?_, ?_, ?_⟩
  · unfold tighten
    rw [ht]
    simp
  · obtain ⟨a, b, c⟩ := tightenLoop_spec (m := m) g (g.par 1) m.sense.best0 (g.lab 1)
    rcases a with a | ⟨e, a1, a2⟩
    · left
      rw [a] at c ⊢
      refine ⟨?_, rfl⟩
      rw [List.eq_nil_iff_forall_not_mem]
      intro e he
      have h1 := hin e he
      have h2 := c e he
      rw [Sense.better_iff] at h1
      dsimp only at h2
      omega
    · right
      exact ⟨e, a1, by rw [a2], by rw [a2]⟩
  · exact (tightenLoop_spec (m := m) g (g.par 1) m.sense.best0 (g.lab 1)).2.2

theorem fin_inrange (H : LayeredV Vl m rank r.st r.bound) {g : G σ} (h : Fin Vl m rank r prim rel g) :
    ∀ e, e ∈ g.par 1 → m.sense.better (g.bound (g.es e) + g.eo e) m.sense.best0 = true := by
  obtain ⟨d, p, h⟩ := h
  intro e he
  have he := (h.par 1 e).1 he
  obtain ⟨h1, h2, _⟩ := h.esrc e he.1
  obtain ⟨h3, h4⟩ := h.estep e he.1
  have := (h.relx _ h1).step ⟨h2, h3, h.etrg e he.1 he.2⟩
  rw [h4]
  exact H.range _ _ this

end Verif.DD
