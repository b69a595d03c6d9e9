import Verif.Fl.Near
/-!
# Coverage of the search over machine numbers, up to rounding
-/
namespace Verif.Fl
open Verif.DD
open Verif.BB (BS Opn Grow Rest Fate domStep domScan findPool clone setPrimal qord clone_grow findPool_some domStep_wrel setPrimal_primal)
set_option linter.unusedSectionVars false
variable {σ : Type} {Vl : σ → Int → Prop} {P : Num} {m : Mdl σ} {rank : σ → Nat} [Same σ] {N : Nat} {E C D R v : Int}

/-- A solution of value `v` is matched by the primal bound, or some queue node of rank at least `ρ` still stands for it. -/
def Cov (Vl : σ → Int → Prop) (m : Mdl σ) (rank : σ → Nat) (N : Nat) (E D v : Int) (s : BS σ) (ρ : Nat) : Prop :=
  Met m N E D v s.primal ∨
  ∃ i key c, Opn s i key ∧ ρ ≤ rank (s.pst i) ∧ Sup Vl m rank E v (s.pst i) (s.pbound i) c

theorem Cov.mono {s : BS σ} {ρ ρ' : Nat} (h : Cov Vl m rank N E D v s ρ) (hρ : ρ' ≤ ρ) : Cov Vl m rank N E D v s ρ' := by
  rcases h with x | ⟨i, key, c, h1, h2, h3⟩
  · exact .inl x
  · exact .inr ⟨i, key, c, h1, by omega, h3⟩

/-- Queue keys are optimistic, up to rounding. -/
def KeyOK (Vl : σ → Int → Prop) (m : Mdl σ) (rank : σ → Nat) (N : Nat) (E D v : Int) (s : BS σ) : Prop :=
  ∀ i key, Opn s i key → ∀ c, Sup Vl m rank E v (s.pst i) (s.pbound i) c → Met m N E D v s.primal ∨ Met m N E D v key

/-- The dominance test only ever relates states of equal rank. -/
def DR (m : Mdl σ) (rank : σ → Nat) : Prop :=
  ∀ sd, m.sdom = some sd → ∀ a b, Rch m rank m.sti a → Rch m rank m.sti b →
    m.eqs a = false → m.eqs b = false → sd a b = true → rank a = rank b

/-- `BB.okCut` with the machine's addition. -/
def okCut (P : Num) (m : Mdl σ) (g : G σ) (s : BS σ) (n : Nat) : Bool :=
  !(m.sense.better (P.add (g.bound n) (g.bb n)) s.primal) || (domStep m s (g.st n) (g.bound n)).1 ||
  match findPool s (g.st n) with
  | none => true
  | some o => decide (n ≠ g.root) && !(m.sense.better (g.bound n) (s.pbound o)) &&
      ((domStep m s (g.st n) (g.bound n)).2.pq.at_ == s.pq.at_)

/-- A state that covers another stands for the same solutions. -/
theorem Sup.cover {a b : σ} {x y c : Int} (h : Sup Vl m rank E v b y c) (hr : rank a = rank b) (hc : CoverV Vl m a b)
    (hx : m.sense.betterEQ x y = true) : ∃ c', Sup Vl m rank E v a x c' := by
  obtain ⟨c', h1, h2⟩ := hc c h.1
  rw [Sense.betterEQ_iff] at h2 hx
  have := h.2
  exact ⟨c', h1, by rw [hr]; omega⟩

theorem PInv.rch {s : BS σ} (h : PInv P m s) {i : Nat} (hi : i < s.pn) : Rch m rank m.sti (s.pst i) := by
  obtain ⟨c, hp⟩ := (h.gen i hi).1.path
  exact rch_of_path hp .root

/-- Coverage by one cut-set node. -/
theorem cutStep_cov (H : LayV Vl P m rank m.sti 0) (hD : DR m rank) {lc : Option (σ → Ctx → Int)} {g : G σ} {cur : Nat} {s0 : BS σ} {n : Nat} (h : PInv P m s0)
    (hK : KeyOK Vl m rank N E D v s0) (hp : Run P m m.sti 0 (g.lab n) (g.st n) (g.bound n)) (hq : m.eqs (g.st n) = false)
    (hbb : ∀ c, Sup Vl m rank E v (g.st n) (g.bound n) c → Met m N E D v s0.primal ∨ Met m N E D v (P.add (g.bound n) (g.bb n)))
    (hkey : ∀ c, Sup Vl m rank E v (g.st n) (g.bound n) c → Met m N E D v s0.primal ∨ Met m N E D v (insKey P lc g n))
    (hok : okCut P m g s0 n = true)
    (hold : n ≠ g.root → ∀ o, o < s0.pn → s0.pst o = g.st n → ∀ c, Sup Vl m rank E v (g.st n) (s0.pbound o) c → Cov Vl m rank N E D v s0 (rank (g.st n))) :
    KeyOK Vl m rank N E D v (cutStep P m lc g cur s0 n) ∧ (∀ ρ, Cov Vl m rank N E D v s0 ρ → Cov Vl m rank N E D v (cutStep P m lc g cur s0 n) ρ) ∧
    ∀ c, Sup Vl m rank E v (g.st n) (g.bound n) c → Cov Vl m rank N E D v (cutStep P m lc g cur s0 n) (rank (g.st n)) := by
  obtain ⟨cp, hpp⟩ := hp.path
  have hrn : Rch m rank m.sti (g.st n) := rch_of_path hpp .root
  unfold Fl.cutStep
  dsimp only
  generalize hs : (if n = g.root then { s0 with wrel := s0.wrel + 1 } else s0) = s
  have hopn : ∀ i key, Opn s i key ↔ Opn s0 i key := by
    intro i key; rw [← hs]; split <;> exact Iff.rfl
  have f1 : s.pst = s0.pst := by rw [← hs]; split <;> rfl
  have f2 : s.pbound = s0.pbound := by rw [← hs]; split <;> rfl
  have f3 : s.primal = s0.primal := by rw [← hs]; split <;> rfl
  have f4 : s.pn = s0.pn := by rw [← hs]; split <;> rfl
  have f5 : s.pq = s0.pq := by rw [← hs]; split <;> rfl
  have hok : okCut P m g s n = true := by
    rw [← hok, ← hs]
    split
    · unfold okCut
      rw [domStep_wrel]
      rfl
    · rfl
  have hP : PInv P m s := by
    rw [← hs]; split
    · exact ⟨h.wf, h.ord, h.pos, h.root, h.idx, h.gen, h.inj, h.uq⟩
    · exact h
  have hK : KeyOK Vl m rank N E D v s := by
    intro i key ho
    rw [f1, f2, f3]
    exact hK i key ((hopn i key).1 ho)
  have hcs : ∀ ρ, Cov Vl m rank N E D v s0 ρ → Cov Vl m rank N E D v s ρ := by
    rintro ρ (x | ⟨i, key, c, x1, x2, x3⟩)
    · left; rw [f3]; exact x
    · right; exact ⟨i, key, c, (hopn i key).2 x1, by rw [f1]; exact x2, by rw [f1, f2]; exact x3⟩
  rw [← f3] at hbb hkey
  have hold : n ≠ g.root → ∀ o, o < s.pn → s.pst o = g.st n → ∀ c, Sup Vl m rank E v (g.st n) (s.pbound o) c → Cov Vl m rank N E D v s (rank (g.st n)) := by
    intro hnr o ho hso c hv
    rw [f2] at hv
    rw [f4] at ho
    rw [f1] at hso
    exact hcs _ (hold hnr o ho hso c hv)
  suffices hmain : ∀ s', s' = (if m.sense.better (P.add (g.bound n) (g.bb n)) s.primal = true then
      match domStep m s (g.st n) (g.bound n) with
      | (true, s1) => { s1 with log := s1.log ++ [(cur, n, Fate.dominated)] }
      | (false, s1) =>
        match findPool s1 (g.st n) with
        | some o => { s1 with log := s1.log ++ [(cur, n, Fate.deduped o)] }
        | none =>
          if m.sense.better (insKey P lc g n) (clone s1 (g.st n) (g.lab n) (g.bound n) (g.bb n)).primal = true then
            { clone s1 (g.st n) (g.lab n) (g.bound n) (g.bb n) with
              pq := (Heap.insertHeap (qord m) (clone s1 (g.st n) (g.lab n) (g.bound n) (g.bb n)).pq (s1.pn, insKey P lc g n)).1,
              log := (clone s1 (g.st n) (g.lab n) (g.bound n) (g.bb n)).log ++ [(cur, n, Fate.queued)] }
          else { clone s1 (g.st n) (g.lab n) (g.bound n) (g.bb n) with
              log := (clone s1 (g.st n) (g.lab n) (g.bound n) (g.bb n)).log ++ [(cur, n, Fate.weak)] }
      else { s with log := s.log ++ [(cur, n, Fate.bounded)] }) →
      KeyOK Vl m rank N E D v s' ∧ (∀ ρ, Cov Vl m rank N E D v s ρ → Cov Vl m rank N E D v s' ρ) ∧ ∀ c, Sup Vl m rank E v (g.st n) (g.bound n) c → Cov Vl m rank N E D v s' (rank (g.st n)) by
    obtain ⟨a, b, c⟩ := hmain _ rfl
    exact ⟨a, fun ρ hv => b ρ (hcs ρ hv), c⟩
  intro s' hs'
  by_cases hb : m.sense.better (P.add (g.bound n) (g.bb n)) s.primal = true
  · rw [if_pos hb] at hs'
    unfold okCut at hok
    rw [hb] at hok
    obtain ⟨q', d1, d2, d3, d4, d5, d6, d7, d8, d9⟩ := domStep_spec hP (g.st n) (g.bound n)
    have hP1 := hP.sub d2 d3 d4 d6
    generalize hdd : domStep m s (g.st n) (g.bound n) = D at *
    obtain ⟨b, s1⟩ := D
    dsimp only at d1
    subst d1
    -- what was removed is covered by the new node
    have hrem : ∀ i key, Opn s i key → Opn { s with pq := q' } i key ∨
        (m.sense.betterEQ (g.bound n) (s.pbound i) = true ∧ rank (g.st n) = rank (s.pst i) ∧ CoverV Vl m (g.st n) (s.pst i)) := by
      rintro i key ⟨l, l1, l2⟩
      by_cases hl : Heap.Live q' l
      · left; exact ⟨l, hl, by dsimp only; rw [d4]; exact l2⟩
      · right
        obtain ⟨sd, h1, h2, h3⟩ := d8 l l1 hl
        rw [l2] at h2 h3
        have hi := hP.idx i key ⟨l, l1, l2⟩
        have hri := hP.rch (rank := rank) hi
        have hqi := (hP.gen i hi).2
        have hr := hD sd h1 _ _ hrn hri hq hqi h3
        exact ⟨h2, hr, H.dcov sd h1 _ _ hrn hri hq (Or.inl ⟨hqi, hr⟩) h3⟩
    cases b with
    | true =>
      dsimp only at hs'
      obtain ⟨sd, l, h1, h2, h3, h4⟩ := d9 rfl
      have hol : Opn { s with pq := q' } (s.pq.val l).1 (s.pq.val l).2 := ⟨l, h2, by dsimp only; rw [d4]⟩
      have hi := hP1.idx _ _ hol
      have hri := hP.rch (rank := rank) hi
      have hqi := (hP.gen _ hi).2
      have hr := hD sd h1 _ _ hri hrn hqi hq h4
      have hcv := H.dcov sd h1 _ _ hri hrn hqi (Or.inl ⟨hq, hr⟩) h4
      have hnew : ∀ c, Sup Vl m rank E v (g.st n) (g.bound n) c → Cov Vl m rank N E D v s' (rank (g.st n)) := by
        intro c hv
        obtain ⟨c', v1⟩ := hv.cover hr hcv h3
        right
        subst hs'
        exact ⟨_, _, c', hol, by rw [← hr]; exact Nat.le_refl _, v1⟩
      refine ⟨?_, ?_, hnew⟩
      · subst hs'
        rintro i key ⟨l', l1, l2⟩
        exact hK i key ⟨l', d6 l' l1, by rw [← d4]; exact l2⟩
      · rintro ρ (x | ⟨i, key, c, x1, x2, x3⟩)
        · left; subst hs'; exact x
        · rcases hrem i key x1 with y | ⟨y1, y2, y3⟩
          · right; subst hs'; exact ⟨i, key, c, y, x2, x3⟩
          · obtain ⟨c', v1⟩ := x3.cover y2 y3 y1
            exact (hnew c' v1).mono (by omega)
    | false =>
      dsimp only at hs' hok
      have hfp : findPool { s with pq := q' } (g.st n) = findPool s (g.st n) := rfl
      rw [hfp] at hs'
      cases hf : findPool s (g.st n) with
      | some o =>
        rw [hf] at hs' hok
        simp only [Bool.not_true, Bool.false_or, Bool.and_eq_true, decide_eq_true_eq, Bool.not_eq_true', beq_iff_eq] at hok
        obtain ⟨⟨o1, o2⟩, o3⟩ := hok
        have hqq := d7 o3
        obtain ⟨p1, p2⟩ := findPool_some hf
        have p2 := H.uniq _ _ _ _ _ _ (hP.gen o p1).1.path.choose_spec hpp p2
        dsimp only at hs'
        subst hs'
        rw [hqq]
        have hcc : ∀ ρ, Cov Vl m rank N E D v s ρ → Cov Vl m rank N E D v { s with pq := s.pq, log := s.log ++ [(cur, n, Fate.deduped o)] } ρ := by
          rintro ρ (x | ⟨i, key, c, x1, x2, x3⟩)
          · exact Or.inl x
          · exact Or.inr ⟨i, key, c, x1, x2, x3⟩
        refine ⟨fun i key ho => hK i key ho, hcc, ?_⟩
        intro c hv
        rw [Sense.better_false] at o2
        exact hcc _ (hold o1 o p1 p2 c ⟨hv.1, by have := hv.2; omega⟩)
      | none =>
        rw [hf] at hs'
        dsimp only at hs'
        have hG := clone_grow { s with pq := q' } (g.st n) (g.lab n) (g.bound n) (g.bb n)
        have hP2 := hP1.clone (g.bb n) hp hq (findPool_none hP.uq hf)
        generalize hs2 : clone { s with pq := q' } (g.st n) (g.lab n) (g.bound n) (g.bb n) = s2 at *
        have k1 : s2.primal = s.primal := by rw [← hs2]; rfl
        have k2 : s2.pst s.pn = g.st n := by rw [← hs2]; simp [clone]
        have k3 : s2.pbound s.pn = g.bound n := by rw [← hs2]; simp [clone]
        have k4 : ∀ i key, Opn s2 i key ↔ Opn { s with pq := q' } i key := by intro i key; rw [← hs2]; exact Iff.rfl
        rw [k1] at hs'
        have hsub : ∀ i key, Opn { s with pq := q' } i key → Opn s i key := by
          rintro i key ⟨l', l1, l2⟩
          exact ⟨l', d6 l' l1, by rw [← d4]; exact l2⟩
        by_cases hbk : m.sense.better (insKey P lc g n) s.primal = true
        · rw [if_pos hbk] at hs'
          have hoi : ∀ i key, Opn s' i key ↔ Opn s2 i key ∨ (i, key) = (s.pn, insKey P lc g n) := by
            intro i key
            rw [hs']
            exact opn_ins hP2 _ i key
          have g1 : s'.pst = s2.pst := by rw [hs']
          have g2 : s'.pbound = s2.pbound := by rw [hs']
          have g3 : s'.primal = s.primal := by rw [hs']
          have hnew : ∀ c, Sup Vl m rank E v (g.st n) (g.bound n) c → Cov Vl m rank N E D v s' (rank (g.st n)) := by
            intro c hv
            right
            refine ⟨s.pn, _, c, (hoi _ _).2 (Or.inr rfl), ?_, ?_⟩
            · rw [g1, k2]; exact Nat.le_refl _
            · rw [g1, k2, g2, k3]; exact hv
          refine ⟨?_, ?_, hnew⟩
          · intro i key ho c hv
            rw [g1, g2] at hv
            rw [g3]
            rcases (hoi i key).1 ho with x | x
            · have hx := (k4 i key).1 x
              have hi := hP1.idx i key hx
              rw [hG.st i hi, hG.bd i hi] at hv
              exact hK i key (hsub i key hx) c hv
            · simp only [Prod.mk.injEq] at x
              obtain ⟨x1, x2⟩ := x
              rw [x1, k2, k3] at hv
              rw [x2]
              exact hkey c hv
          · rintro ρ (x | ⟨i, key, c, x1, x2, x3⟩)
            · left; rw [g3]; exact x
            · rcases hrem i key x1 with y | ⟨y1, y2, y3⟩
              · right
                have hi := hP1.idx i key y
                refine ⟨i, key, c, (hoi _ _).2 (Or.inl ((k4 i key).2 y)), ?_, ?_⟩
                · rw [g1, hG.st i hi]; exact x2
                · rw [g1, hG.st i hi, g2, hG.bd i hi]; exact x3
              · obtain ⟨c', v1⟩ := x3.cover y2 y3 y1
                exact (hnew c' v1).mono (by omega)
        · rw [if_neg hbk] at hs'
          have hoi : ∀ i key, Opn s' i key ↔ Opn s2 i key := by intro i key; rw [hs']; exact Iff.rfl
          have g1 : s'.pst = s2.pst := by rw [hs']
          have g2 : s'.pbound = s2.pbound := by rw [hs']
          have g3 : s'.primal = s.primal := by rw [hs']
          have hnew : ∀ c, Sup Vl m rank E v (g.st n) (g.bound n) c → Cov Vl m rank N E D v s' (rank (g.st n)) := by
            intro c hv
            left
            rw [g3]
            rcases hkey c hv with x | x
            · exact x
            · rw [Sense.better_iff] at hbk
              unfold Met at x ⊢
              omega
          refine ⟨?_, ?_, hnew⟩
          · intro i key ho c hv
            rw [g1, g2] at hv
            rw [g3]
            have hx := (k4 i key).1 ((hoi i key).1 ho)
            have hi := hP1.idx i key hx
            rw [hG.st i hi, hG.bd i hi] at hv
            exact hK i key (hsub i key hx) c hv
          · rintro ρ (x | ⟨i, key, c, x1, x2, x3⟩)
            · left; rw [g3]; exact x
            · rcases hrem i key x1 with y | ⟨y1, y2, y3⟩
              · right
                have hi := hP1.idx i key y
                refine ⟨i, key, c, (hoi _ _).2 ((k4 i key).2 y), ?_, ?_⟩
                · rw [g1, hG.st i hi]; exact x2
                · rw [g1, hG.st i hi, g2, hG.bd i hi]; exact x3
              · obtain ⟨c', v1⟩ := x3.cover y2 y3 y1
                exact (hnew c' v1).mono (by omega)
  · rw [if_neg hb] at hs'
    subst hs'
    refine ⟨fun i key ho => hK i key ho, ?_, ?_⟩
    · rintro ρ (x | ⟨i, key, c, x1, x2, x3⟩)
      · exact Or.inl x
      · exact Or.inr ⟨i, key, c, x1, x2, x3⟩
    · intro c hv
      left
      show Met m N E D v s.primal
      rcases hbb c hv with x | x
      · exact x
      · rw [Sense.better_iff] at hb
        unfold Met at x ⊢
        omega

/-- `okCut` along the loop over the cut set. -/
def okFold (P : Num) (m : Mdl σ) (lc : Option (σ → Ctx → Int)) (g : G σ) (cur : Nat) : BS σ → List Nat → Bool
  | _, [] => true
  | s, n :: cs => okCut P m g s n && okFold P m lc g cur (cutStep P m lc g cur s n) cs

theorem cutFold_cov (H : LayV Vl P m rank m.sti 0) (hD : DR m rank) {lc : Option (σ → Ctx → Int)} {g : G σ} {cur : Nat} {ρ0 : Nat} : ∀ (cs : List Nat) {s0 : BS σ},
    PInv P m s0 → KeyOK Vl m rank N E D v s0 → okFold P m lc g cur s0 cs = true →
    (∀ n, n ∈ cs → Run P m m.sti 0 (g.lab n) (g.st n) (g.bound n) ∧ m.eqs (g.st n) = false ∧ (n ≠ g.root → ρ0 < rank (g.st n)) ∧
      (∀ c, Sup Vl m rank E v (g.st n) (g.bound n) c → Met m N E D v s0.primal ∨ Met m N E D v (P.add (g.bound n) (g.bb n))) ∧
      (∀ c, Sup Vl m rank E v (g.st n) (g.bound n) c → Met m N E D v s0.primal ∨ Met m N E D v (insKey P lc g n))) →
    (∀ o, o < s0.pn → ρ0 < rank (s0.pst o) → ∀ c, Sup Vl m rank E v (s0.pst o) (s0.pbound o) c → Cov Vl m rank N E D v s0 (rank (s0.pst o))) →
    KeyOK Vl m rank N E D v (cs.foldl (cutStep P m lc g cur) s0) ∧
    (∀ ρ, Cov Vl m rank N E D v s0 ρ → Cov Vl m rank N E D v (cs.foldl (cutStep P m lc g cur) s0) ρ) ∧
    (∀ n, n ∈ cs → ∀ c, Sup Vl m rank E v (g.st n) (g.bound n) c → Cov Vl m rank N E D v (cs.foldl (cutStep P m lc g cur) s0) (rank (g.st n))) ∧
    (∀ i, i < (cs.foldl (cutStep P m lc g cur) s0).pn → i < s0.pn ∨ ∃ n, n ∈ cs ∧
      (cs.foldl (cutStep P m lc g cur) s0).pst i = g.st n ∧ (cs.foldl (cutStep P m lc g cur) s0).pbound i = g.bound n) := by
  intro cs
  induction cs with
  | nil =>
    intro s0 _ hK _ _ _
    exact ⟨hK, fun _ x => x, by simp, fun i hi => Or.inl hi⟩
  | cons n cs ih =>
    intro s0 hP hK hok hc hA
    simp only [okFold, Bool.and_eq_true] at hok
    obtain ⟨p1, p2, p3, p4, p5⟩ := hc n (by simp)
    obtain ⟨a1, a2, a3, _, a5⟩ := cutStep_inv (lc := lc) (cur := cur) hP p1 p2
    obtain ⟨b1, b2, b3⟩ := cutStep_cov (lc := lc) (cur := cur) H hD hP hK p1 p2 p4 p5 hok.1 (by
      intro hnr o ho hst c hv
      have := hA o ho (by rw [hst]; exact p3 hnr) c (by rw [hst]; exact hv)
      rw [hst] at this
      exact this)
    rw [List.foldl_cons]
    have hmono : ∀ k, k ∈ cs → Run P m m.sti 0 (g.lab k) (g.st k) (g.bound k) ∧ m.eqs (g.st k) = false ∧ (k ≠ g.root → ρ0 < rank (g.st k)) ∧
      (∀ c, Sup Vl m rank E v (g.st k) (g.bound k) c → Met m N E D v (cutStep P m lc g cur s0 n).primal ∨ Met m N E D v (P.add (g.bound k) (g.bb k))) ∧
      (∀ c, Sup Vl m rank E v (g.st k) (g.bound k) c → Met m N E D v (cutStep P m lc g cur s0 n).primal ∨ Met m N E D v (insKey P lc g k)) := by
      rw [a3.primal]
      exact fun k hk => hc k (by simp [hk])
    have hA' : ∀ o, o < (cutStep P m lc g cur s0 n).pn → ρ0 < rank ((cutStep P m lc g cur s0 n).pst o) →
        ∀ c, Sup Vl m rank E v ((cutStep P m lc g cur s0 n).pst o) ((cutStep P m lc g cur s0 n).pbound o) c →
        Cov Vl m rank N E D v (cutStep P m lc g cur s0 n) (rank ((cutStep P m lc g cur s0 n).pst o)) := by
      intro o ho hr c hv
      rcases a5 o ho with x | ⟨x1, x2⟩
      · rw [a2.st o x] at hr hv ⊢
        rw [a2.bd o x] at hv
        exact b2 _ (hA o x hr c hv)
      · rw [x1] at hv ⊢
        rw [x2] at hv
        exact b3 c hv
    obtain ⟨i1, i2, i3, i4⟩ := ih a1 b1 hok.2 hmono hA'
    obtain ⟨_, g2, _, _⟩ := cutFold_inv (lc := lc) (cur := cur) cs a1 (fun k hk => ⟨(hmono k hk).1, (hmono k hk).2.1⟩)
    refine ⟨i1, fun ρ x => i2 ρ (b2 ρ x), ?_, ?_⟩
    · intro k hk c hv
      simp only [List.mem_cons] at hk
      rcases hk with x | x
      · rw [x] at hv ⊢; exact i2 _ (b3 c hv)
      · exact i3 k x c hv
    · intro i hi
      rcases i4 i hi with x | ⟨k, k1, k2⟩
      · rcases a5 i x with y | ⟨y1, y2⟩
        · exact Or.inl y
        · right
          exact ⟨n, by simp, by rw [g2.st i x]; exact y1, by rw [g2.bd i x]; exact y2⟩
      · exact Or.inr ⟨k, by simp [k1], k2⟩

/-- `BB.noShortcut` with the machine's addition. -/
def noShortcut (P : Num) (m : Mdl σ) (g : G σ) (cs : List Nat) (p : Int) : Bool :=
  (g.par g.trg).all (fun e => !(g.ex (g.es e) && !(cs.contains (g.es e)) && m.sense.better (P.add (g.bound (g.es e)) (g.eo e)) p))

/-- `BB.okExpandP` with the machine's addition. -/
def okExpand (P : Num) (m : Mdl σ) (wres fuel : Nat) (s : BS σ) (cur : Nat) : Bool :=
  ((relaxed P m s.primal s.wrel fuel (s.src cur)).map fun g =>
    if m.sense.better (g.bound g.trg) s.primal then
      let s1 := if g.exact then setPrimal m s (g.bound g.trg) (g.lab g.trg) else s
      ((restricted P m s1.primal wres fuel (s1.src cur)).map fun r =>
        let s2 := if m.sense.better (r.bound r.trg) s1.primal then
          setPrimal m s1 (r.bound r.trg) (r.lab r.trg) else s1
        if !r.exact && !g.exact then
          ((cutSet g).map (fun cs => noShortcut P m g cs s2.primal && okFold P m m.loc g cur s2 cs)).getD true
        else true).getD true
    else true).getD true

/-- `BB.okLoop` with the machine's addition: the search drops nothing for a bad reason. -/
def okLoop (P : Num) (m : Mdl σ) (wres dfuel : Nat) (lim : Nat → Bool) : Nat → Nat → BS σ → Bool
  | 0, _, _ => true
  | f + 1, k, s =>
    if Heap.empty s.pq then true
    else
      let x := Heap.extractMax (qord m) s.pq
      let s1 := { s with pq := x.1 }
      if lim k then true
      else if m.sense.better x.2.2 s1.primal then
        okExpand P m wres dfuel s1 x.2.1 &&
          ((expandP P m (fun _ => m) (fun _ => m.loc) wres dfuel s1 x.2.1).map (okLoop P m wres dfuel lim f (k + 1))).getD true
      else okLoop P m wres dfuel lim f (k + 1) s1

/-- Every pool node is covered. -/
def HInv (Vl : σ → Int → Prop) (m : Mdl σ) (rank : σ → Nat) (N : Nat) (E D v : Int) (s : BS σ) : Prop :=
  ∀ i, i < s.pn → ∀ c, Sup Vl m rank E v (s.pst i) (s.pbound i) c → Cov Vl m rank N E D v s (rank (s.pst i))

theorem Met.up {p q : Int} (h : Met m N E D v p) (hb : m.sense.k p ≤ m.sense.k q) : Met m N E D v q := by
  unfold Met at h ⊢; omega

theorem Cov.set {s : BS σ} {x : Int} {lb : List Int} (hb : m.sense.better x s.primal = true) {ρ : Nat} (h : Cov Vl m rank N E D v s ρ) :
    Cov Vl m rank N E D v (setPrimal m s x lb) ρ := by
  rcases h with y | y
  · left
    rw [setPrimal_primal hb]
    rw [Sense.better_iff] at hb
    exact y.up (by omega)
  · exact Or.inr y

theorem KeyOK.set {s : BS σ} {x : Int} {lb : List Int} (hb : m.sense.better x s.primal = true) (h : KeyOK Vl m rank N E D v s) :
    KeyOK Vl m rank N E D v (setPrimal m s x lb) := by
  intro i key ho c hv
  rw [setPrimal_primal hb]
  rw [Sense.better_iff] at hb
  exact (h i key ho c hv).imp (fun y => y.up (by omega)) id

/-- The key of a cut-set node. -/
theorem near_key (H : Nr Vl P m rank N E C D R) (hv : Sized m C v) {g : G σ} {n : Nat} {p c : Int} (hr : Rch m rank m.sti (g.st n))
    (hq : m.eqs (g.st n) = false) (hs : Sup Vl m rank E v (g.st n) (g.bound n) c) (hb : Met m N E D v p ∨ Met m N E D v (P.add (g.bound n) (g.bb n))) :
    Met m N E D v p ∨ Met m N E D v (insKey P m.loc g n) := by
  unfold insKey
  cases hl : m.loc with
  | none => exact hb
  | some f =>
    right
    have hf := H.loc f hl _ .bb c hr hs.1
    have hrk := H.rb _ hr hq
    have hE := H.acc.pos
    have z0 := sl_nonneg hE (rank (g.st n))
    have z1 := sl_mono hE (show rank (g.st n) + 1 ≤ N + 2 by omega)
    have z2 : sl E (rank (g.st n) + 1) = sl E (rank (g.st n)) + E := rfl
    have hbig := H.big
    have hoff := H.off
    have hvv := hv
    unfold Sized at hvv
    have := H.acc.k m.sense hs.2 hf (by omega) (by omega)
    unfold Met
    dsimp only
    omega

/-- One expansion keeps every pool node covered, given that `cur`, just taken from the queue, is the
only hole. -/
theorem expand_cov (H : Nr Vl P m rank N E C D R) (hD : DR m rank) (hv0 : Sized m C v) {wres fuel : Nat}
    {s s' : BS σ} {cur : Nat} (hP : PInv P m s) (hc : cur < s.pn) (hK : KeyOK Vl m rank N E D v s)
    (hA : ∀ i, i < s.pn → ∀ c, Sup Vl m rank E v (s.pst i) (s.pbound i) c → Cov Vl m rank N E D v s (rank (s.pst i)) ∨
      (rank (s.pst i) ≤ rank (s.pst cur) ∧ ∃ c', Sup Vl m rank E v (s.pst cur) (s.pbound cur) c'))
    (hok : okExpand P m wres fuel s cur = true) (h : expandP P m (fun _ => m) (fun _ => m.loc) wres fuel s cur = some s') :
    KeyOK Vl m rank N E D v s' ∧ HInv Vl m rank N E D v s' := by
  have F : Fm P m rank (fun _ => m) := Fm.const H.lay.toLay
  obtain ⟨hgen, hopen⟩ := hP.gen cur hc
  have hL : LayV Vl P m rank (s.src cur).st (s.src cur).bound := H.lay.of_run hgen hopen
  have hR : Rch m rank m.sti (s.src cur).st := hP.rch hc
  have ext : ∀ {ls : List Int} {x : Int} {t : σ}, Run P m (s.pst cur) (s.pbound cur) ls t x → Run P m m.sti 0 (s.plab cur ++ ls) t x :=
    fun hp => hgen.trans hp
  -- closing the hole is enough, when pool and queue are unchanged
  have close : ∀ t : BS σ, (∀ ρ, Cov Vl m rank N E D v s ρ → Cov Vl m rank N E D v t ρ) → Grow s t →
      (∀ i, i < t.pn → i < s.pn ∨ ∀ c, Sup Vl m rank E v (t.pst i) (t.pbound i) c → Cov Vl m rank N E D v t (rank (t.pst i))) →
      (∀ c, Sup Vl m rank E v (s.pst cur) (s.pbound cur) c → Cov Vl m rank N E D v t (rank (s.pst cur))) → HInv Vl m rank N E D v t := by
    intro t hcov hG hnew hcur i hi c hv
    rcases hnew i hi with x | x
    · rw [hG.st i x] at hv ⊢
      rw [hG.bd i x] at hv
      rcases hA i x c hv with y | ⟨y1, c', y2⟩
      · exact hcov _ y
      · exact (hcur c' y2).mono y1
    · exact x c hv
  unfold okExpand at hok
  unfold Fl.expandP at h
  simp only [Option.bind_eq_some_iff] at h
  obtain ⟨g, hg, h⟩ := h
  rw [hg] at hok
  simp only [Option.map_some, Option.getD_some] at hok
  split at h
  · rename_i hbet
    rw [if_pos hbet] at hok
    obtain ⟨s1, hs1⟩ : ∃ s1, s1 = if g.exact = true then setPrimal m s (g.bound g.trg) (g.lab g.trg) else s := ⟨_, rfl⟩
    rw [← hs1] at h hok
    have h1 : PInv P m s1 ∧ KeyOK Vl m rank N E D v s1 ∧ (∀ ρ, Cov Vl m rank N E D v s ρ → Cov Vl m rank N E D v s1 ρ) ∧ Grow s s1 ∧ s1.pn = s.pn ∧
        m.sense.betterEQ s1.primal s.primal = true ∧ s1.src cur = s.src cur ∧
        (g.exact = true → ∀ c, Sup Vl m rank E v (s.pst cur) (s.pbound cur) c → Met m N E D v s1.primal) := by
      rw [hs1]
      split
      · rename_i hx
        refine ⟨hP.set _ _, hK.set hbet, fun ρ x => x.set hbet, ⟨Nat.le_refl _, fun _ _ => rfl, fun _ _ => rfl, fun _ _ => rfl⟩, rfl, ?_, rfl, ?_⟩
        · rw [setPrimal_primal hbet]
          rw [Sense.better_iff] at hbet
          rw [Sense.betterEQ_iff]; omega
        · intro _ c hv
          rw [setPrimal_primal hbet]
          rcases near_relaxed H hR hv0 hL hg hv with y | y
          · rw [Sense.better_iff] at hbet
            exact y.up (by omega)
          · exact y
      · rename_i hx
        exact ⟨hP, hK, fun _ x => x, Grow.refl _, rfl, by rw [Sense.betterEQ_iff]; omega, rfl, fun hh => absurd hh hx⟩
    obtain ⟨hP1, hK1, hC1, hG1, e5, hp1, hsrc, hx1⟩ := h1
    simp only [Option.bind_eq_some_iff] at h
    obtain ⟨r, hr, h⟩ := h
    rw [hr] at hok
    simp only [Option.map_some, Option.getD_some] at hok
    rw [hsrc] at hr
    obtain ⟨s2, hs2⟩ : ∃ s2, s2 = if m.sense.better (r.bound r.trg) s1.primal = true then setPrimal m s1 (r.bound r.trg) (r.lab r.trg) else s1 := ⟨_, rfl⟩
    rw [← hs2] at h hok
    have h2 : PInv P m s2 ∧ KeyOK Vl m rank N E D v s2 ∧ (∀ ρ, Cov Vl m rank N E D v s1 ρ → Cov Vl m rank N E D v s2 ρ) ∧ Grow s1 s2 ∧ s2.pn = s1.pn ∧
        m.sense.betterEQ s2.primal s1.primal = true ∧
        (r.exact = true → ∀ c, Sup Vl m rank E v (s.pst cur) (s.pbound cur) c → Met m N E D v s2.primal) := by
      have hrx : r.exact = true → ∀ c, Sup Vl m rank E v (s.pst cur) (s.pbound cur) c → Met m N E D v s1.primal ∨ Met m N E D v (r.bound r.trg) := by
        intro hx c hv
        exact near_restricted H hR hv0 hL hr hx hv
      rw [hs2]
      split
      · rename_i hb2
        refine ⟨hP1.set _ _, hK1.set hb2, fun ρ x => x.set hb2, ⟨Nat.le_refl _, fun _ _ => rfl, fun _ _ => rfl, fun _ _ => rfl⟩, rfl, ?_, ?_⟩
        · rw [setPrimal_primal hb2]
          rw [Sense.better_iff] at hb2
          rw [Sense.betterEQ_iff]; omega
        · intro hx c hv
          rw [setPrimal_primal hb2]
          rcases hrx hx c hv with y | y
          · rw [Sense.better_iff] at hb2
            exact y.up (by omega)
          · exact y
      · rename_i hb2
        refine ⟨hP1, hK1, fun _ x => x, Grow.refl _, rfl, by rw [Sense.betterEQ_iff]; omega, ?_⟩
        intro hx c hv
        rcases hrx hx c hv with y | y
        · exact y
        · rw [Sense.better_iff] at hb2
          exact y.up (by omega)
    obtain ⟨hP2, hK2, hC2, hG2, i5, hp2, hx2⟩ := h2
    have hC : ∀ ρ, Cov Vl m rank N E D v s ρ → Cov Vl m rank N E D v s2 ρ := fun ρ x => hC2 ρ (hC1 ρ x)
    have hG := hG1.trans hG2
    have hpp : m.sense.k s.primal ≤ m.sense.k s2.primal := by
      rw [Sense.betterEQ_iff] at hp1 hp2; omega
    split at h
    · rename_i hcond
      rw [if_pos hcond] at hok
      simp only [Option.map_eq_some_iff] at h
      obtain ⟨cs, hcs, rfl⟩ := h
      rw [hcs] at hok
      simp only [Option.map_some, Option.getD_some, Bool.and_eq_true] at hok
      obtain ⟨hroot, cs', hcs', _, hk⟩ := relaxed_cut (r := s.src cur) hL.toLay hg
      rw [hcs] at hcs'
      simp at hcs'
      subst hcs'
      obtain ⟨cs', hcs', hbk, hcov⟩ := near_facts H hR hv0 hL hg
      rw [hcs] at hcs'
      simp at hcs'
      subst hcs'
      have hfacts : ∀ n, n ∈ cs → Run P m m.sti 0 (g.lab n) (g.st n) (g.bound n) ∧ m.eqs (g.st n) = false ∧ (n ≠ g.root → rank (s.pst cur) < rank (g.st n)) ∧
          (∀ c, Sup Vl m rank E v (g.st n) (g.bound n) c → Met m N E D v s2.primal ∨ Met m N E D v (P.add (g.bound n) (g.bb n))) ∧
          (∀ c, Sup Vl m rank E v (g.st n) (g.bound n) c → Met m N E D v s2.primal ∨ Met m N E D v (insKey P m.loc g n)) := by
        intro n hn
        obtain ⟨b1, ⟨ls, b2, b4⟩, b5⟩ := hk n hn
        have q1 : Run P m m.sti 0 (g.lab n) (g.st n) (g.bound n) := by rw [b2]; exact ext b4
        have q2 : ∀ c, Sup Vl m rank E v (g.st n) (g.bound n) c → Met m N E D v s2.primal ∨ Met m N E D v (P.add (g.bound n) (g.bb n)) :=
          fun c hv => (hbk n hn c hv).imp (fun y => y.up hpp) id
        obtain ⟨_, q3⟩ := q1.path
        exact ⟨q1, b1, b5, q2, fun c hv => near_key H hv0 (rch_of_path q3 .root) b1 hv (q2 c hv)⟩
      have hpool : ∀ o, o < s2.pn → rank (s.pst cur) < rank (s2.pst o) → ∀ c, Sup Vl m rank E v (s2.pst o) (s2.pbound o) c →
          Cov Vl m rank N E D v s2 (rank (s2.pst o)) := by
        intro o ho hr c hv
        have ho' : o < s.pn := by omega
        rw [hG.st o ho'] at hr hv ⊢
        rw [hG.bd o ho'] at hv
        rcases hA o ho' c hv with y | ⟨y1, _⟩
        · exact hC _ y
        · omega
      obtain ⟨a1, a2, a3, a4⟩ := cutFold_cov (ρ0 := rank (s.pst cur)) H.lay hD cs hP2 hK2 hok.2 hfacts hpool
      obtain ⟨_, g2, r2, _⟩ := cutFold_inv (lc := m.loc) (cur := cur) cs hP2 (fun k hk => ⟨(hfacts k hk).1, (hfacts k hk).2.1⟩)
      refine ⟨a1, close _ (fun ρ x => a2 ρ (hC ρ x)) (hG.trans g2) ?_ ?_⟩
      · intro i hi
        rcases a4 i hi with x | ⟨k, k1, k2, k3⟩
        · exact Or.inl (by omega)
        · right
          intro c hv
          rw [k2, k3] at hv
          rw [k2]
          exact a3 k k1 c hv
      · intro c hv
        rcases hcov c hv with y | ⟨k, c', k1, k2⟩ | ⟨e, e1, e2, e3, e4⟩
        · left
          rw [r2.primal]
          exact y.up hpp
        · refine (a3 k k1 c' k2).mono ?_
          by_cases hkr : k = g.root
          · rw [hkr, hroot]; exact Nat.le_refl _
          · exact Nat.le_of_lt ((hfacts k k1).2.2.1 hkr)
        · left
          rw [r2.primal]
          have := hok.1
          unfold noShortcut at this
          rw [List.all_eq_true] at this
          have := this e e1
          rw [e2] at this
          simp only [Bool.true_and, Bool.not_eq_true', Bool.and_eq_false_iff, Bool.not_eq_false', List.contains_iff_mem] at this
          rcases this with x | x
          · exact absurd x e3
          · rw [Sense.better_false] at x
            exact e4.up x
    · rename_i hcond
      simp at h
      subst h
      refine ⟨hK2, close _ hC hG (fun i hi => Or.inl (by omega)) ?_⟩
      intro c hv
      left
      by_cases hrx : r.exact = true
      · exact hx2 hrx c hv
      · have hgx : g.exact = true := by
          cases hge : g.exact with
          | true => rfl
          | false =>
            exfalso; apply hcond
            simp at hrx
            rw [hrx, hge]; rfl
        rw [Sense.betterEQ_iff] at hp2
        exact (hx1 hgx c hv).up hp2
  · rename_i hbet
    simp at h
    subst h
    refine ⟨hK, close s (fun _ x => x) (Grow.refl _) (fun i hi => Or.inl hi) ?_⟩
    intro c hv
    left
    rcases near_relaxed H hR hv0 hL hg hv with y | y
    · exact y
    · rw [Sense.better_iff] at hbet
      exact y.up (by omega)

theorem loop_cov (H : Nr Vl P m rank N E C D R) (hD : DR m rank) (hv0 : Sized m C v) {p0 : Int} (hp0 : m.sense.betterEQ p0 (P.best0 m.sense) = true)
    {wres dfuel : Nat} {lim : Nat → Bool} :
    ∀ (f k : Nat) (s s' : BS σ), PInv P m s → TInv P m p0 s → KeyOK Vl m rank N E D v s → HInv Vl m rank N E D v s →
      okLoop P m wres dfuel lim f k s = true →
      loopP P m (fun _ _ => m) (fun _ _ => m.loc) wres dfuel lim f k s = some s' → s'.stopped = true ∨
      (Vl m.sti v → Met m N E D v s'.primal) := by
  have F : Fm P m rank (fun _ => m) := Fm.const H.lay.toLay
  intro f
  induction f with
  | zero => intro k s s' _ _ _ _ _ h; simp [Fl.loopP] at h
  | succ f ih =>
    intro k s s' hP hT hK hH hok h
    unfold Fl.loopP at h
    unfold okLoop at hok
    dsimp only at h hok
    by_cases he : Heap.empty s.pq = true
    · rw [if_pos he] at h
      simp at h; subst h
      right
      intro hs
      have hv : Sup Vl m rank E v (s.pst 0) (s.pbound 0) v := by
        rw [hP.root.1, hP.root.2]
        refine ⟨hs, ?_⟩
        have := sl_nonneg H.acc.pos (rank m.sti)
        rw [Sense.k_zero]; omega
      rcases hH 0 hP.pos v hv with x | ⟨i, key, c', ⟨l, ⟨j, j1, j2, _⟩, _⟩, _⟩
      · exact x
      · exfalso
        simp [Heap.empty] at he
        omega
    · rw [if_neg he] at h hok
      obtain ⟨a1, a2, a3, _, a5, a6⟩ := hP.extract (by simpa using he)
      have hT1 : TInv P m p0 { s with pq := (Heap.extractMax (qord m) s.pq).1 } := hT.congr ⟨rfl, rfl, rfl, rfl⟩
      have hK1 : KeyOK Vl m rank N E D v { s with pq := (Heap.extractMax (qord m) s.pq).1 } := fun i key ho => hK i key (a6 i key ho)
      have hA : ∀ i, i < s.pn → ∀ c, Sup Vl m rank E v (s.pst i) (s.pbound i) c →
          Cov Vl m rank N E D v { s with pq := (Heap.extractMax (qord m) s.pq).1 } (rank (s.pst i)) ∨
          (rank (s.pst i) ≤ rank (s.pst (Heap.extractMax (qord m) s.pq).2.1) ∧
            ∃ c', Sup Vl m rank E v (s.pst (Heap.extractMax (qord m) s.pq).2.1) (s.pbound (Heap.extractMax (qord m) s.pq).2.1) c') := by
        intro i hi c hv
        rcases hH i hi c hv with x | ⟨j, key, c', x1, x2, x3⟩
        · exact Or.inl (Or.inl x)
        · rcases a5 j key x1 with y | y
          · exact Or.inl (Or.inr ⟨j, key, c', y, x2, x3⟩)
          · right
            rw [← y]
            exact ⟨x2, c', x3⟩
      split at h
      · simp at h; subst h
        exact Or.inl rfl
      · rename_i hl
        rw [if_neg hl] at hok
        split at h
        · rename_i hb
          rw [if_pos hb] at hok
          simp only [Option.bind_eq_some_iff] at h
          obtain ⟨s2, h2, h3⟩ := h
          simp only [Bool.and_eq_true] at hok
          rw [h2] at hok
          simp only [Option.map_some, Option.getD_some] at hok
          obtain ⟨b1, b2, _⟩ := expand_inv F hp0 a1 hT1 a2 h2
          obtain ⟨c1, c2⟩ := expand_cov H hD hv0 a1 a2 hK1 hA hok.1 h2
          exact ih _ _ _ b1 b2 c1 c2 hok.2 h3
        · rename_i hb
          rw [if_neg hb] at hok
          refine ih _ _ _ a1 hT1 hK1 ?_ hok h
          intro i hi c hv
          rcases hA i hi c hv with x | ⟨x1, c', x2⟩
          · exact x
          · left
            have hb' : ¬ m.sense.better (Heap.extractMax (qord m) s.pq).2.2 s.primal = true := hb
            show Met m N E D v s.primal
            rw [Sense.better_iff] at hb'
            rcases hK _ _ a3 c' x2 with y | y
            · exact y
            · exact y.up (by omega)

end Verif.Fl
