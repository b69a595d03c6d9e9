import Verif.Props.UF
/-!
# Forests and the edges Kruskal's rule picks

`Conn` is the connectivity of `Props/UF.lean`.  An ordered list of edges is independent over `E` when
each of them joins two parts not connected before.
-/
namespace Verif.UF

theorem conn_snoc {E : List (Nat × Nat)} {x y a b : Nat} :
    Conn (E ++ [(x, y)]) a b ↔ Conn E a b ∨ (Conn E a x ∧ Conn E y b) ∨ (Conn E a y ∧ Conn E x b) := by
  constructor
  · intro h
    induction h with
    | refl a => exact .inl (.refl a)
    | edge h =>
      rcases List.mem_append.1 h with h | h
      · exact .inl (.edge h)
      · simp at h
        obtain ⟨rfl, rfl⟩ := h
        exact .inr (.inl ⟨.refl _, .refl _⟩)
    | symm _ ih =>
      rcases ih with h | ⟨h1, h2⟩ | ⟨h1, h2⟩
      · exact .inl h.symm
      · exact .inr (.inr ⟨h2.symm, h1.symm⟩)
      · exact .inr (.inl ⟨h2.symm, h1.symm⟩)
    | trans _ _ ih1 ih2 =>
      rcases ih1 with h | ⟨h1, h2⟩ | ⟨h1, h2⟩ <;> rcases ih2 with g | ⟨g1, g2⟩ | ⟨g1, g2⟩
      · exact .inl (h.trans g)
      · exact .inr (.inl ⟨h.trans g1, g2⟩)
      · exact .inr (.inr ⟨h.trans g1, g2⟩)
      · exact .inr (.inl ⟨h1, h2.trans g⟩)
      · exact .inr (.inl ⟨h1, g2⟩)
      · exact .inl (h1.trans g2)
      · exact .inr (.inr ⟨h1, h2.trans g⟩)
      · exact .inl (h1.trans g2)
      · exact .inr (.inr ⟨h1, g2⟩)
  · have hm : ∀ {p q}, Conn E p q → Conn (E ++ [(x, y)]) p q := fun h => h.mono (fun e he => List.mem_append_left _ he)
    have he : Conn (E ++ [(x, y)]) x y := .edge (by simp)
    rintro (h | ⟨h1, h2⟩ | ⟨h1, h2⟩)
    · exact hm h
    · exact ((hm h1).trans he).trans (hm h2)
    · exact ((hm h1).trans he.symm).trans (hm h2)

/-- Same connectivity. -/
def Same (E E' : List (Nat × Nat)) : Prop := ∀ a b, Conn E a b ↔ Conn E' a b

theorem Same.snoc {E E' : List (Nat × Nat)} (h : Same E E') (e : Nat × Nat) : Same (E ++ [e]) (E' ++ [e]) := by
  intro a b
  rw [conn_snoc, conn_snoc, h, h, h, h, h]

/-- An edge that joins new parts only with the help of `e` can replace `e`. -/
theorem exch {E : List (Nat × Nat)} {e f : Nat × Nat} (h : ¬ Conn E f.1 f.2) (hc : Conn (E ++ [e]) f.1 f.2) : Same (E ++ [e]) (E ++ [f]) := by
  intro a b
  have h3 : (Conn E f.1 e.1 ∧ Conn E e.2 f.2) ∨ (Conn E f.1 e.2 ∧ Conn E e.1 f.2) := (conn_snoc.1 hc).resolve_left h
  rw [show E ++ [e] = E ++ [(e.1, e.2)] from rfl, show E ++ [f] = E ++ [(f.1, f.2)] from rfl, conn_snoc, conn_snoc]
  rcases h3 with ⟨h1, h2⟩ | ⟨h1, h2⟩
  · constructor
    · rintro (g | ⟨g1, g2⟩ | ⟨g1, g2⟩)
      · exact .inl g
      · exact .inr (.inl ⟨g1.trans h1.symm, h2.symm.trans g2⟩)
      · exact .inr (.inr ⟨g1.trans h2, h1.trans g2⟩)
    · rintro (g | ⟨g1, g2⟩ | ⟨g1, g2⟩)
      · exact .inl g
      · exact .inr (.inl ⟨g1.trans h1, h2.trans g2⟩)
      · exact .inr (.inr ⟨g1.trans h2.symm, h1.symm.trans g2⟩)
  · constructor
    · rintro (g | ⟨g1, g2⟩ | ⟨g1, g2⟩)
      · exact .inl g
      · exact .inr (.inr ⟨g1.trans h2, h1.trans g2⟩)
      · exact .inr (.inl ⟨g1.trans h1.symm, h2.symm.trans g2⟩)
    · rintro (g | ⟨g1, g2⟩ | ⟨g1, g2⟩)
      · exact .inl g
      · exact .inr (.inr ⟨g1.trans h1, h2.trans g2⟩)
      · exact .inr (.inl ⟨g1.trans h2.symm, h1.symm.trans g2⟩)

theorem snoc_swap {E : List (Nat × Nat)} {e f : Nat × Nat} : Same (E ++ [e] ++ [f]) (E ++ [f] ++ [e]) := by
  intro a b
  constructor <;> intro h <;> refine h.mono (fun x hx => ?_) <;> simp at hx ⊢ <;> rcases hx with h | h | h <;> simp [h]

variable {α : Type} (ends : α → Nat × Nat)

/-- Each edge joins two parts not connected by `E` and the edges before it. -/
def Ind : List (Nat × Nat) → List α → Prop
  | _, [] => True
  | E, f :: F => ¬ Conn E (ends f).1 (ends f).2 ∧ Ind (E ++ [ends f]) F

variable {ends}

theorem Ind.same : ∀ {F : List α} {E E' : List (Nat × Nat)}, Same E E' → Ind ends E F → Ind ends E' F := by
  intro F
  induction F with
  | nil => intros; trivial
  | cons f F ih =>
    rintro E E' hs ⟨h1, h2⟩
    exact ⟨fun h => h1 ((hs _ _).2 h), ih (hs.snoc _) h2⟩

theorem Ind.not_conn : ∀ {F : List α} {E : List (Nat × Nat)}, Ind ends E F → ∀ f, f ∈ F → ¬ Conn E (ends f).1 (ends f).2 := by
  intro F
  induction F with
  | nil => intro E _ f hf; simp at hf
  | cons g F ih =>
    rintro E ⟨h1, h2⟩ f hf
    rcases List.mem_cons.1 hf with rfl | hf
    · exact h1
    · exact fun h => ih h2 f hf (h.mono (fun e he => List.mem_append_left _ he))

theorem Same.append : ∀ (L : List (Nat × Nat)) {E E' : List (Nat × Nat)}, Same E E' → Same (E ++ L) (E' ++ L) := by
  intro L
  induction L with
  | nil => intro E E' h; simpa using h
  | cons a L ih =>
    intro E E' h
    have := ih (h.snoc a)
    simpa [List.append_assoc] using this

/-- Exchange: one edge of an independent list can be given up for a new one.  If the list spans the
new edge, the connectivity stays the same. -/
theorem Ind.exchange : ∀ {F : List α} {E : List (Nat × Nat)} {e : Nat × Nat}, Ind ends E F → F ≠ [] → ¬ Conn E e.1 e.2 →
    ∃ F1 f F2, F = F1 ++ f :: F2 ∧ Ind ends (E ++ [e]) (F1 ++ F2) ∧
      (Conn (E ++ F.map ends) e.1 e.2 → Same (E ++ [e] ++ (F1 ++ F2).map ends) (E ++ F.map ends)) := by
  intro F
  induction F with
  | nil => intro E e _ h; exact absurd rfl h
  | cons f F ih =>
    rintro E e ⟨h1, h2⟩ _ he
    by_cases hc : Conn (E ++ [e]) (ends f).1 (ends f).2
    · have hs := exch h1 hc
      refine ⟨[], f, F, rfl, h2.same (fun a b => (hs a b).symm), fun _ => ?_⟩
      have := Same.append (F.map ends) hs
      simpa [List.append_assoc] using this
    · have he' : ¬ Conn (E ++ [ends f]) e.1 e.2 := fun h => hc ((exch he h _ _).1 (.edge (by simp)))
      cases F with
      | nil =>
        refine ⟨[], f, [], rfl, trivial, fun h => ?_⟩
        exact absurd h he'
      | cons g F =>
        obtain ⟨F1, f', F2, q1, q2, q3⟩ := ih h2 (by simp) he'
        refine ⟨f :: F1, f', F2, by rw [q1]; rfl, ⟨hc, q2.same snoc_swap⟩, fun h => ?_⟩
        have h4 := q3 (by simpa [List.append_assoc] using h)
        have h5 := Same.append ((F1 ++ F2).map ends) (snoc_swap (E := E) (e := e) (f := ends f))
        intro a b
        have a1 := h4 a b
        have a2 := h5 a b
        simp only [List.append_assoc, List.map_cons, List.cons_append, List.nil_append] at a1 a2 ⊢
        exact a2.trans a1

/-- A node that no edge touches is connected to itself only. -/
theorem conn_touch {E : List (Nat × Nat)} {v : Nat} (h : ∀ e, e ∈ E → e.1 ≠ v ∧ e.2 ≠ v) {a b : Nat} (c : Conn E a b) : a = v ↔ b = v := by
  induction c with
  | refl a => rfl
  | edge he =>
    have := h _ he
    exact ⟨fun x => absurd x this.1, fun x => absurd x this.2⟩
  | symm _ ih => exact ih.symm
  | trans _ _ ih1 ih2 => exact ih1.trans ih2

/-- Consecutive pairs. -/
def pairsOf : List Nat → List (Nat × Nat)
  | a :: b :: p => (a, b) :: pairsOf (b :: p)
  | _ => []

/-- The edges of a way through distinct nodes are independent. -/
theorem ind_path : ∀ (p : List Nat) (a : Nat) (F : List α) (E : List (Nat × Nat)), F.map ends = pairsOf (a :: p) → (a :: p).Nodup →
    (∀ v, v ∈ p → ∀ e, e ∈ E → e.1 ≠ v ∧ e.2 ≠ v) → Ind ends E F := by
  intro p
  induction p with
  | nil =>
    intro a F E h _ _
    have : F = [] := by simpa [pairsOf] using h
    subst this; trivial
  | cons b p ih =>
    intro a F E h hn hE
    cases F with
    | nil => simp [pairsOf] at h
    | cons f F =>
      simp only [List.map_cons, pairsOf, List.cons.injEq] at h
      obtain ⟨h1, h2⟩ := h
      rw [List.nodup_cons] at hn
      refine ⟨?_, ih b F _ h2 hn.2 ?_⟩
      · rw [h1]
        intro hc
        have : a = b := (conn_touch (hE b (by simp)) hc).2 rfl
        exact hn.1 (by rw [this]; simp)
      · intro v hv e he
        rcases List.mem_append.1 he with he | he
        · exact hE v (by simp [hv]) e he
        · simp at he
          subst he
          rw [h1]
          refine ⟨fun h => hn.1 (by rw [show a = v from h]; simp [hv]), fun h => ?_⟩
          have h3 := hn.2
          rw [List.nodup_cons] at h3
          exact h3.1 (by rw [show b = v from h]; exact hv)

end Verif.UF
