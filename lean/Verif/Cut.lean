import Verif.Compile
/-!
# The cut set of a relaxed diagram (src/dd.cpp:743-792)
-/
namespace Verif.DD
set_option linter.unusedSectionVars false
variable {σ : Type} {Vl : σ → Int → Prop} [Same σ] {m : Mdl σ} {rank : σ → Nat} {r : Src σ} {prim : Int}

theorem nodup_length_le : ∀ (n : Nat) (l : List Nat), l.Nodup → (∀ x, x ∈ l → x < n) → l.length ≤ n := by
  intro n
  induction n with
  | zero =>
    intro l _ h
    cases l with
    | nil => simp
    | cons a l => have := h a (by simp); omega
  | succ n ih =>
    intro l hn h
    by_cases hm : n ∈ l
    · have := ih (l.erase n) (hn.erase n) (fun x hx => by
        obtain ⟨a, b⟩ := hn.mem_erase_iff.1 hx
        have := h x b; omega)
      rw [List.length_erase_of_mem hm] at this
      omega
    · have := ih l hn (fun x hx => by
        have := h x hx
        have : x ≠ n := fun hh => hm (hh ▸ hx)
        omega)
      omega

/-- Enqueue the unseen kids. -/
theorem cutFold (g : G σ) : ∀ (es q inq : List Nat), ∃ new, es.foldl (fun (acc : List Nat × List Nat) e =>
      if g.ed e ∈ acc.2 ∨ g.ed e = g.trg then acc else (acc.1 ++ [g.ed e], acc.2 ++ [g.ed e])) (q, inq) = (q ++ new, inq ++ new) ∧
    (inq.Nodup → (inq ++ new).Nodup) ∧ (∀ x, x ∈ new → ∃ e, e ∈ es ∧ g.ed e = x ∧ x ≠ g.trg) ∧
    (∀ e, e ∈ es → g.ed e ≠ g.trg → g.ed e ∈ inq ++ new) := by
  intro es
  induction es with
  | nil => intro q inq; exact ⟨[], by simp⟩
  | cons e es ih =>
    intro q inq
    rw [List.foldl_cons]
    dsimp only
    by_cases hc : g.ed e ∈ inq ∨ g.ed e = g.trg
    · rw [if_pos hc]
      obtain ⟨new, h1, h2, h3, h4⟩ := ih q inq
      refine ⟨new, h1, h2, fun x hx => ?_, fun e' he' hne => ?_⟩
      · obtain ⟨e', a, b⟩ := h3 x hx; exact ⟨e', by simp [a], b⟩
      · rcases List.mem_cons.1 he' with x | x
        · subst x
          rcases hc with y | y
          · simp [y]
          · exact absurd y hne
        · exact h4 e' x hne
    · rw [if_neg hc]
      obtain ⟨new, h1, h2, h3, h4⟩ := ih (q ++ [g.ed e]) (inq ++ [g.ed e])
      refine ⟨g.ed e :: new, by rw [h1]; simp, fun hn => ?_, fun x hx => ?_, fun e' he' hne => ?_⟩
      · have := h2 (by
          rw [List.nodup_append]
          refine ⟨hn, by simp, ?_⟩
          intro a ha b hb hab
          simp at hb
          subst hab; subst hb
          exact hc (Or.inl ha))
        simpa using this
      · rcases List.mem_cons.1 hx with y | y
        · exact ⟨e, by simp, y.symm, by rw [y]; exact fun hh => hc (Or.inr hh)⟩
        · obtain ⟨e', a, b⟩ := h3 x y; exact ⟨e', by simp [a], b⟩
      · rcases List.mem_cons.1 he' with x | x
        · subst x; simp
        · have := h4 e' x hne
          simpa using this

/-- What the loop knows: `V` is processed, `q` pending. -/
structure CI (g : G σ) (V q inq cs : List Nat) : Prop where
  perm : inq.Perm (V ++ q)
  nd : inq.Nodup
  root : g.root ∈ inq
  lt : ∀ x, x ∈ inq → x < g.nn
  lv : ∀ x, x ∈ inq → x = g.root ∨ ∃ e, e ∈ g.kids (g.es e) ∧ g.es e ∈ V ∧ g.ed e = x ∧ x ≠ g.trg
  ex : ∀ x, x ∈ inq → g.ex x = true
  csm : ∀ x, x ∈ cs ↔ x ∈ V ∧ allKidsExact g x = false
  csn : cs.Nodup
  kid : ∀ x, x ∈ V → allKidsExact g x = true → ∀ e, e ∈ g.kids x → g.ed e ≠ g.trg → g.ed e ∈ inq

theorem cutLoop_spec {g : G σ} (hk : ∀ i e, e ∈ g.kids i → g.es e = i ∧ g.ed e < g.nn) :
    ∀ (f : Nat) (V q inq cs : List Nat), CI g V q inq cs → g.nn < V.length + f →
    ∃ V' cs', cutLoop g f q inq cs = some cs' ∧ CI g V' [] V' cs' := by
  intro f
  induction f with
  | zero =>
    intro V q inq cs h hf
    have h1 := nodup_length_le g.nn inq h.nd h.lt
    have h2 := h.perm.length_eq
    simp at h2
    omega
  | succ f ih =>
    intro V q inq cs h hf
    cases q with
    | nil =>
      refine ⟨V, cs, rfl, ?_⟩
      have hp : inq.Perm V := by simpa using h.perm
      have hm := fun x => hp.mem_iff (a := x)
      exact ⟨by simp, hp.nodup_iff.1 h.nd, (hm _).1 h.root, fun x hx => h.lt x ((hm x).2 hx),
        fun x hx => h.lv x ((hm x).2 hx), fun x hx => h.ex x ((hm x).2 hx), h.csm, h.csn,
        fun x hx ha e he hne => (hm _).1 (h.kid x hx ha e he hne)⟩
    | cons n q =>
      have hn : n ∈ inq := h.perm.mem_iff.2 (by simp)
      have hnV : n ∉ V := by
        have := h.perm.nodup_iff.1 h.nd
        intro hh
        exact (List.nodup_append.1 this).2.2 n hh n (by simp) rfl
      have hp' : inq.Perm (V ++ [n] ++ q) := by simpa using h.perm
      unfold cutLoop
      rw [if_pos (h.ex n hn)]
      by_cases ha : allKidsExact g n = true
      · rw [if_pos ha]
        obtain ⟨new, f1, f2, f3, f4⟩ := cutFold g (g.kids n) q inq
        rw [f1]
        refine ih (V ++ [n]) (q ++ new) (inq ++ new) cs ?_ (by simp; omega)
        refine ⟨?_, f2 h.nd, by simp [h.root], ?_, ?_, ?_, ?_, h.csn, ?_⟩
        · have := hp'.append_right new
          simpa using this
        · intro x hx
          rcases List.mem_append.1 hx with y | y
          · exact h.lt x y
          · obtain ⟨e, e1, e2, e3⟩ := f3 x y
            rw [← e2]; exact (hk n e e1).2
        · intro x hx
          rcases List.mem_append.1 hx with y | y
          · rcases h.lv x y with z | ⟨e, z1, z2, z3⟩
            · exact Or.inl z
            · exact Or.inr ⟨e, z1, by simp [z2], z3⟩
          · obtain ⟨e, e1, e2, e3⟩ := f3 x y
            have := (hk n e e1).1
            exact Or.inr ⟨e, by rw [this]; exact e1, by simp [this], e2, e3⟩
        · intro x hx
          rcases List.mem_append.1 hx with y | y
          · exact h.ex x y
          · obtain ⟨e, e1, e2, e3⟩ := f3 x y
            unfold allKidsExact at ha
            rw [List.all_eq_true] at ha
            have := ha e e1
            simp at this
            rw [e2] at this
            exact this.resolve_left e3
        · intro x
          rw [h.csm]
          simp only [List.mem_append, List.mem_singleton]
          constructor
          · rintro ⟨a, b⟩; exact ⟨Or.inl a, b⟩
          · rintro ⟨a | a, b⟩
            · exact ⟨a, b⟩
            · subst a; rw [ha] at b; simp at b
        · intro x hx hax e he hne
          rcases List.mem_append.1 hx with y | y
          · exact List.mem_append_left _ (h.kid x y hax e he hne)
          · simp at y; subst y
            exact f4 e he hne
      · rw [if_neg ha]
        have ha : allKidsExact g n = false := by simpa using ha
        refine ih (V ++ [n]) q inq (cs ++ [n]) ?_ (by simp; omega)
        refine ⟨hp', h.nd, h.root, h.lt, ?_, h.ex, ?_, ?_, ?_⟩
        · intro x hx
          rcases h.lv x hx with z | ⟨e, z1, z2, z3⟩
          · exact Or.inl z
          · exact Or.inr ⟨e, z1, by simp [z2], z3⟩
        · intro x
          simp only [List.mem_append, List.mem_singleton]
          rw [h.csm]
          constructor
          · rintro (⟨a, b⟩ | a)
            · exact ⟨Or.inl a, b⟩
            · subst a; exact ⟨Or.inr rfl, ha⟩
          · rintro ⟨a | a, b⟩
            · exact Or.inl ⟨a, b⟩
            · exact Or.inr a
        · rw [List.nodup_append]
          refine ⟨h.csn, by simp, ?_⟩
          intro a h1 b h2 hab
          simp at h2
          subst hab; subst h2
          exact hnV ((h.csm _).1 h1).1
        · intro x hx hax e he hne
          rcases List.mem_append.1 hx with y | y
          · exact h.kid x y hax e he hne
          · simp at y; subst y
            rw [ha] at hax; simp at hax

theorem cutSet_spec {g : G σ} (hk : ∀ i e, e ∈ g.kids i → g.es e = i ∧ g.ed e < g.nn) (hr : g.root < g.nn)
    (hx : g.ex g.root = true) : ∃ V cs, cutSet g = some cs ∧ CI g V [] V cs := by
  refine cutLoop_spec hk (g.nn + 1) [] [g.root] [g.root] [] ?_ (by simp)
  exact ⟨by simp, by simp, by simp, by simpa using hr, by simp, by simpa using hx, by simp, by simp, by simp⟩

section

/-- The cut set of a compiled relaxed diagram. -/
theorem relaxed_cut {g0 g : G σ} (F : RelFacts Vl m rank r prim g0 g) :
    ∃ V cs, cutSet g = some cs ∧ CI g V [] V cs := by
  obtain ⟨d, p, h⟩ := F.fin
  obtain ⟨f1, f2, f3, f4, f5, f6, f7, f8, f9, f10, f11, f12, f13, f14⟩ := F.fields
  refine cutSet_spec ?_ ?_ ?_
  · intro i e he
    rw [f3] at he
    obtain ⟨a, b⟩ := (h.kids i e).1 he
    rw [f4, f5, f12]
    exact ⟨b, (h.edge e a).2⟩
  · rw [f10, f12]; have := h.two; omega
  · rw [f10, f8]; exact h.ex0

/-- Nodes the cut-set search visits are live, non-sink. -/
theorem cut_live {g0 g : G σ} (F : RelFacts Vl m rank r prim g0 g) {V cs : List Nat} (C : CI g V [] V cs) {x : Nat} (hx : x ∈ V) :
    Lv g0 x ∧ x ≠ 1 := by
  obtain ⟨d, p, h⟩ := F.fin
  obtain ⟨f1, f2, f3, f4, f5, f6, f7, f8, f9, f10, f11, f12, f13, f14⟩ := F.fields
  rcases C.lv x hx with a | ⟨e, e1, e2, e3, e4⟩
  · rw [f10] at a; subst a
    exact ⟨⟨by have := h.two; omega, Or.inl rfl⟩, by omega⟩
  · rw [f3] at e1
    obtain ⟨a, _⟩ := (h.kids _ e).1 e1
    have := h.toStr.ed_lv a
    rw [f5] at e3
    rw [e3] at this
    rw [f11] at e4
    exact ⟨this, e4⟩

/-- Coverage of a visited node's completions. -/
theorem cut_path (H : LayeredV Vl m rank r.st r.bound) {g0 g : G σ} (F : RelFacts Vl m rank r prim g0 g)
    {V cs : List Nat} (C : CI g V [] V cs) :
    ∀ (K n : Nat) (c : Int), n ∈ V → m.eqs (g0.st n) = false → (∀ i, Lv g0 i → m.eqs (g0.st i) = false →
      rank (g0.st i) < rank (g0.st n) + K) → Vl (g0.st n) c →
      m.sense.better (g0.bound n + c) prim = false ∨
      (∃ k c', k ∈ cs ∧ Vl (g0.st k) c' ∧ m.sense.k (g0.bound n) + m.sense.k c ≤ m.sense.k (g0.bound k) + m.sense.k c') ∨
      (∃ e, e ∈ g0.par 1 ∧ g0.es e ∈ V ∧ allKidsExact g (g0.es e) = true ∧
        m.sense.k (g0.bound n) + m.sense.k c ≤ m.sense.k (g0.bound (g0.es e)) + m.sense.k (g0.eo e)) := by
  obtain ⟨d, p, h⟩ := F.fin
  obtain ⟨f1, f2, f3, f4, f5, f6, f7, f8, f9, f10, f11, f12, f13, f14⟩ := F.fields
  intro K
  induction K with
  | zero =>
    intro n c h1 h2 h3
    have := h3 n (cut_live F C h1).1 h2; omega
  | succ K ih =>
    intro n c hnV h2 h3 hval
    have h1 := (cut_live F C hnV).1
    by_cases ha : allKidsExact g n = true
    case neg =>
      have ha : allKidsExact g n = false := by simpa using ha
      exact Or.inr (Or.inl ⟨n, c, (C.csm n).2 ⟨hnV, ha⟩, hval, Int.le_refl _⟩)
    obtain ⟨l, s', c', hst, hp', rfl⟩ := H.ends.open H.sink hval h2
    rcases h.cov (by simp) n h1 h2 (by simp) (by simp) l hst.2.1 (by simp) s' hst.2.2 with hb | ⟨e, e1, e2, e3, e4⟩
    · left
      have := hb c' hp'
      rw [← Int.add_assoc]; exact this
    · obtain ⟨c'', hp'', hc''⟩ := e4 c' hp'
      rw [Sense.betterEQ_iff] at hc''
      have hbd := h.ebd e e1
      rw [e2, e3] at hbd
      have he : e ∈ g0.kids n := (h.kids n e).2 ⟨e1, e2⟩
      by_cases ht : m.eqs (g0.st (g0.ed e)) = true
      · obtain ⟨h1', h0⟩ := H.ends.terminal hp'' ht
        have hed := h.toStr.one_of_stt h.st1 (h.edge e e1).2 h1' H.fair.refl
        right; right
        refine ⟨e, (h.par 1 e).2 ⟨e1, hed⟩, by rw [e2]; exact hnV, by rw [e2]; exact ha, ?_⟩
        rw [e2, e3, Sense.k_add]
        rw [h0, Sense.k_zero] at hc''
        omega
      · have ht : m.eqs (g0.st (g0.ed e)) = false := by simpa using ht
        have hrk := (h.erank e e1).resolve_left (by simp [ht])
        rw [e2] at hrk
        have hne1 : g0.ed e ≠ 1 := by
          intro hh; rw [hh, h.st1, H.sink] at ht; simp at ht
        have hkV : g0.ed e ∈ V := by
          have := C.kid n hnV ha e (by rw [f3]; exact he) (by rw [f5, f11]; exact hne1)
          rw [f5] at this; exact this
        rcases ih (g0.ed e) c'' hkV ht (fun i a b => by have := h3 i a b; omega) hp'' with x | ⟨k, c3, x1, x2, x3⟩ | ⟨e', x1, x2, x3, x4⟩
        · left
          rw [Sense.better_false] at x ⊢
          simp only [Sense.k_add] at x ⊢
          omega
        · right; left
          refine ⟨k, c3, x1, x2, ?_⟩
          rw [Sense.k_add]; omega
        · right; right
          refine ⟨e', x1, x2, x3, ?_⟩
          rw [Sense.k_add]; omega

/-- Every completion of the root is pruned, covered by the cut set, or lost on an arc from a
visited node straight to the sink. -/
theorem cut_covers (H : LayeredV Vl m rank r.st r.bound) {g0 g : G σ} (F : RelFacts Vl m rank r prim g0 g)
    {V cs : List Nat} (C : CI g V [] V cs) {c : Int} (hv : Vl r.st c) :
      m.sense.better (r.bound + c) prim = false ∨
      (∃ k c', k ∈ cs ∧ Vl (g0.st k) c' ∧ m.sense.k r.bound + m.sense.k c ≤ m.sense.k (g0.bound k) + m.sense.k c') ∨
      (∃ e, e ∈ g0.par 1 ∧ g0.es e ∈ V ∧ allKidsExact g (g0.es e) = true ∧
        m.sense.k r.bound + m.sense.k c ≤ m.sense.k (g0.bound (g0.es e)) + m.sense.k (g0.eo e)) := by
  obtain ⟨d, p, h⟩ := F.fin
  have h0 : 0 ∈ V := by have := C.root; rw [F.fields.2.2.2.2.2.2.2.2.2.1] at this; exact this
  have := cut_path H F C (rank r.st + d + 1) 0 c h0 (by rw [h.st0]; exact H.src) (fun i a b => by
    rcases h.done i a b with x | x | x
    · simp at x
    · simp at x
    · omega) (by rw [h.st0]; exact hv)
  rw [h.b0] at this
  exact this

end
end Verif.DD
