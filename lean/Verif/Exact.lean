import Verif.Sweep
import Verif.DDVisit
import Verif.ResGen
/-!
# Invariant of `Exact::compute`
-/
namespace Verif.DD
set_option linter.unusedSectionVars false
variable {σ : Type} {m : Mdl σ} {r : Src σ} {prim : Int} [DecidableEq σ]

/-- `μ` grows along every step from a reachable state. -/
def Acyc (m : Mdl σ) (s0 : σ) (μ : σ → Nat) : Prop :=
  ∀ s ls c, Path m s0 ls c s → ∀ l s', Step m s l s' → μ s < μ s'

/-- `q` is the queue, `X` the nodes expanded so far (the last may be in progress: `p`, `rem`). -/
structure EInv (m : Mdl σ) (r : Src σ) (g : G σ) (X q : List Nat) (p : Nat) (rem : List Int) : Prop extends Str g where
  st0 : g.st 0 = r.st
  st1 : g.st 1 = m.stt
  b0 : g.bound 0 = r.bound
  l0 : g.lab 0 = r.lab
  par0 : g.par 0 = []
  live : ∀ i, i < g.nn → i = 0 ∨ i = 1 ∨ g.par i ≠ []
  and : g.an.Nodup
  anm : ∀ i, i ∈ g.an ↔ i < g.nn
  est : ∀ e, e < g.ne → Step m (g.st (g.es e)) (g.el e) (g.st (g.ed e)) ∧ g.eo e = m.stc (g.st (g.es e)) (g.el e)
  reach : ∀ i, i < g.nn → i ≠ 1 → ∃ ls c, Path m r.st ls c (g.st i)
  qm : ∀ i, i ∈ q → i < g.nn ∧ m.eqs (g.st i) = false
  Xm : ∀ i, i ∈ X → i < g.nn ∧ m.eqs (g.st i) = false
  nd : (X ++ q).Nodup
  all : ∀ i, i < g.nn → m.eqs (g.st i) = false → i ∈ X ∨ i ∈ q
  done : m.loc = none → ∀ i, i ∈ X → ∀ l s', Step m (g.st i) l s' → (i = p ∧ l ∈ rem) ∨
    ∃ e, e < g.ne ∧ g.es e = i ∧ g.el e = l ∧ g.st (g.ed e) = s'

theorem start2_einv (hS : m.eqs m.stt = true) (hq : m.eqs r.st = false) :
    EInv m r (start2 m r) [] [0] 0 [] := by
  have hne : r.st ≠ m.stt := by
    intro hh; rw [hh, hS] at hq; simp at hq
  have hf : findNode (start r) m.stt = none := by
    unfold findNode start
    simp [hne]
  have hs : start2 m r = { start r with
      st := upd (fun _ => r.st) 1 m.stt, lab := upd (fun _ => r.lab) 1 [],
      bound := upd (fun _ => r.bound) 1 m.sense.best0, bb := upd (fun _ => r.bb) 1 0,
      layer := upd (fun _ => 0) 1 0, ex := upd (fun _ => true) 1 true,
      par := upd (fun _ => []) 1 [], kids := upd (fun _ => []) 1 [], nn := 2, an := [0, 1], trg := 1 } := by
    unfold start2 makeNode
    rw [hf]
    rfl
  have hpar : ∀ i, upd (fun _ => ([] : List Nat)) 1 [] i = [] := by
    intro i; rw [upd_apply]; split <;> rfl
  rw [hs]
  have two : ∀ i, i < 2 → i = 0 ∨ i = 1 := by omega
  constructor
  · constructor
    · rfl
    · rfl
    · exact Nat.le_refl _
    · intro i j hi hj hij
      rcases two i hi with rfl | rfl <;> rcases two j hj with rfl | rfl
      · rfl
      · simp [upd_apply] at hij; exact absurd hij hne
      · simp [upd_apply] at hij; exact absurd hij.symm hne
      · rfl
    · intro i e; dsimp only [start]; rw [hpar]; simp
    · intro i e; dsimp only [start]; rw [hpar]; simp
    · intro i; dsimp only; rw [hpar]; simp
    · intro i; dsimp only; rw [hpar]; simp
    · intro e he; simp [start] at he
  · simp [upd_apply]
  · simp
  · simp [upd_apply]
  · simp [upd_apply]
  · simp [upd_apply]
  · intro i hi
    rcases two i hi with h | h
    · exact Or.inl h
    · exact Or.inr (Or.inl h)
  · show [0, 1].Nodup
    decide
  · intro i
    show i ∈ [0, 1] ↔ i < 2
    simp; omega
  · intro e he; simp [start] at he
  · intro i hi h1
    rcases two i hi with rfl | rfl
    · refine ⟨[], 0, ?_⟩
      dsimp only
      rw [upd_ne _ _ (by decide)]
      exact Path.nil _
    · exact absurd rfl h1
  · intro i hi
    simp at hi; subst hi
    refine ⟨Nat.zero_lt_two, ?_⟩
    dsimp only
    rw [upd_ne _ _ (by decide)]; exact hq
  · simp
  · simp
  · intro i hi hh
    rcases two i hi with rfl | rfl
    · simp
    · dsimp only at hh; rw [upd_same, hS] at hh; simp at hh
  · simp

/-- Adding the arc of one transition. -/
theorem EInv.arc {μ : σ → Nat} (hA : Acyc m r.st μ) (hS : m.eqs m.stt = true) {g : G σ} {X q : List Nat} {p : Nat} {l : Int} {rem : List Int}
    (h : EInv m r g X q p (l :: rem)) (hX : p ∈ X) {s' : σ} (hst : Step m (g.st p) l s') (pe : Bool) (x : Nat → Int)
    {g1 : G σ} {c : Nat} (hg1 : g1 = { (makeNode m g s' pe).1 with bb := x }) (hc : c = (makeNode m g s' pe).2) :
    (∀ i, i < g.nn → g1.st i = g.st i) ∧
    EInv m r (addEdge g1 p c l (m.stc (g1.st p) l)) X
      (if !(m.eqs ((addEdge g1 p c l (m.stc (g1.st p) l)).st c)) && (g1.par c).isEmpty then q ++ [c] else q) p rem ∧
    (∀ i, i < g.nn → (addEdge g1 p c l (m.stc (g1.st p) l)).st i = g.st i) := by
  obtain ⟨hpn, hpq⟩ := h.Xm p hX
  have hp1 : p ≠ 1 := by intro hh; rw [hh, h.st1, hS] at hpq; simp at hpq
  obtain ⟨lp, cp, hpath⟩ := h.reach p hpn hp1
  have hmu := hA _ _ _ hpath _ _ hst
  have hroot : s' ≠ r.st := by
    intro hh
    -- the root has the least measure among reachable states
    have hmono : ∀ {s ls c t}, Path m s ls c t → ∀ ls0 c0, Path m r.st ls0 c0 s → μ s ≤ μ t := by
      intro s ls c t hp
      induction hp with
      | nil => intros; exact Nat.le_refl _
      | cons hs' _ ih =>
        intro ls0 c0 h0
        have a := hA _ _ _ h0 _ _ hs'
        have b := ih _ _ (h0.snoc hs')
        omega
    have := hmono hpath [] 0 (Path.nil _)
    rw [hh] at hmu; omega
  -- the arena after makeNode
  have hcase : (c < g.nn ∧ g.st c = s' ∧ (g.par c ≠ [] ∨ c = 1) ∧ g1.st = g.st ∧ g1.par = g.par ∧ g1.kids = g.kids ∧ g1.nn = g.nn ∧ g1.an = g.an
        ∧ g1.bound = g.bound ∧ g1.lab = g.lab) ∨
      (c = g.nn ∧ (∀ i, i < g.nn → g.st i ≠ s') ∧ g1.st = upd g.st g.nn s' ∧ g1.par = g.par ∧ g1.kids = g.kids ∧ g1.nn = g.nn + 1 ∧ g1.an = g.an ++ [g.nn]
        ∧ g1.bound = upd g.bound g.nn m.sense.best0 ∧ g1.lab = upd g.lab g.nn []) := by
    rcases makeNode_casesEq m h.toStr s' pe with ⟨a, a1, a2, a3, a4⟩ | ⟨a, a1, a2, a3, a4, a5, a6⟩ | ⟨a1, a2⟩
    · left
      rw [a4] at hg1 hc
      dsimp only at hc
      subst hc
      rw [hg1]
      refine ⟨a1, a2, ?_, rfl, rfl, rfl, rfl, rfl, rfl, rfl⟩
      rcases a3 with y | y | y
      · exact Or.inl y
      · exfalso; rw [y, h.st0] at a2; exact hroot a2.symm
      · exact Or.inr y
    · exfalso
      rcases h.live a a1 with y | y | y
      · exact a4 y
      · exact a5 y
      · exact y a3
    · right
      rw [a2] at hg1 hc
      dsimp only at hc
      rw [hg1]
      exact ⟨hc, a1, rfl, rfl, rfl, rfl, rfl, rfl, rfl⟩
  have hmisc : g1.root = g.root ∧ g1.trg = g.trg ∧ g1.ne = g.ne ∧ g1.es = g.es ∧ g1.ed = g.ed ∧ g1.el = g.el ∧ g1.eo = g.eo := by
    rw [hg1]
    unfold makeNode
    split
    · dsimp only; split <;> exact ⟨rfl, rfl, rfl, rfl, rfl, rfl, rfl⟩
    · exact ⟨rfl, rfl, rfl, rfl, rfl, rfl, rfl⟩
  obtain ⟨m1, m2, m3, m4, m5, m6, m7⟩ := hmisc
  have hstp : ∀ i, i < g.nn → g1.st i = g.st i := by
    intro i hi
    rcases hcase with ⟨_, _, _, a, _⟩ | ⟨_, _, a, _⟩
    · rw [a]
    · rw [a, upd_ne _ _ (by omega)]
  have hcn : c < g1.nn := by
    rcases hcase with ⟨a, _, _, _, _, _, b, _⟩ | ⟨a, _, _, _, _, b, _⟩ <;> omega
  have hnn : g.nn ≤ g1.nn := by
    rcases hcase with ⟨a, _, _, _, _, _, b, _⟩ | ⟨a, _, _, _, _, b, _⟩ <;> omega
  have hcs : g1.st c = s' := by
    rcases hcase with ⟨a, b, _, d, _⟩ | ⟨a, _, b, _⟩
    · rw [d]; exact b
    · rw [a, b, upd_same]
  have hpc : p ≠ c := by
    intro hh
    have := hstp p hpn
    rw [hh, hcs] at this
    rw [this, ← hh] at hmu; omega
  have hpar1 : g1.par = g.par := by
    rcases hcase with ⟨_, _, _, _, a, _⟩ | ⟨_, _, _, a, _⟩ <;> exact a
  have hkid1 : g1.kids = g.kids := by
    rcases hcase with ⟨_, _, _, _, _, a, _⟩ | ⟨_, _, _, _, a, _⟩ <;> exact a
  have hc0 : c ≠ 0 := by
    intro hh
    rw [hh, hstp 0 (by have := h.two; omega), h.st0] at hcs
    exact hroot hcs.symm
  refine ⟨hstp, ?_⟩
  rw [addEdge_eq _ _ _ _ _ hpc]
  dsimp only
  refine ⟨?_, hstp⟩
  have hcX : (g1.par c).isEmpty = true → m.eqs s' = false → c = g.nn := by
    intro he hq
    rcases hcase with ⟨a, b, y, _⟩ | ⟨a, _⟩
    · exfalso
      rcases y with y | y
      · apply y; rw [← hpar1]; simpa using he
      · rw [y, h.st1] at b; rw [← b, hS] at hq; simp at hq
    · exact a
  have hnew : c = g.nn → g1.par c = [] := by
    intro hh; rw [hpar1, hh]; exact h.par_ge (Nat.le_refl _)
  have hstep1 : Step m (g1.st p) l (g1.st c) := by rw [hstp p hpn, hcs]; exact hst
  have hinj1 : ∀ i j, i < g1.nn → j < g1.nn → g1.st i = g1.st j → i = j := by
    intro i j hi hj hij
    rcases hcase with ⟨_, _, _, a, _, _, b, _⟩ | ⟨a0, a1, a, _, _, b, _⟩
    · rw [a] at hij; rw [b] at hi hj; exact h.injEq i j hi hj hij
    · rw [a] at hij
      rw [b] at hi hj
      by_cases hi' : i = g.nn
      · by_cases hj' : j = g.nn
        · rw [hi', hj']
        · rw [hi', upd_same, upd_ne _ _ hj'] at hij
          exact absurd hij.symm (a1 j (by omega))
      · by_cases hj' : j = g.nn
        · rw [hj', upd_same, upd_ne _ _ hi'] at hij
          exact absurd hij (a1 i (by omega))
        · rw [upd_ne _ _ hi', upd_ne _ _ hj'] at hij
          exact h.injEq i j (by omega) (by omega) hij
  have hnoe : ∀ i, g.ne ∉ g.kids i ∧ g.ne ∉ g.par i := fun i =>
    ⟨fun hh => Nat.lt_irrefl _ ((h.kids i _).1 hh).1, fun hh => Nat.lt_irrefl _ ((h.par i _).1 hh).1⟩
  constructor
  · constructor
    · exact m1.trans h.root
    · exact m2.trans h.trg
    · have := h.two; dsimp only; omega
    · exact fun i j hi hj hij => hinj1 i j hi hj ((same_iff _ _).1 hij)
    · intro i e
      dsimp only
      rw [m3, m4, hkid1, upd_apply]
      constructor
      · intro he
        split at he
        · rename_i hi
          simp only [List.mem_append, List.mem_singleton] at he
          rcases he with he | he
          · obtain ⟨a, b⟩ := (h.kids p e).1 he
            rw [upd_ne _ _ (by omega)]
            exact ⟨by omega, by rw [hi]; exact b⟩
          · rw [he, upd_same]; exact ⟨by omega, hi.symm⟩
        · obtain ⟨a, b⟩ := (h.kids i e).1 he
          rw [upd_ne _ _ (by omega)]
          exact ⟨by omega, b⟩
      · rintro ⟨a, b⟩
        by_cases hen : e = g.ne
        · rw [hen, upd_same] at b
          rw [if_pos b.symm, hen]; simp
        · rw [upd_ne _ _ hen] at b
          have := (h.kids i e).2 ⟨by omega, b⟩
          split
          · rename_i hi; rw [hi] at this; simp [this]
          · exact this
    · intro i e
      dsimp only
      rw [m3, m5, hpar1, upd_apply]
      constructor
      · intro he
        split at he
        · rename_i hi
          simp only [List.mem_append, List.mem_singleton] at he
          rcases he with he | he
          · obtain ⟨a, b⟩ := (h.par c e).1 he
            rw [upd_ne _ _ (by omega)]
            exact ⟨by omega, by rw [hi]; exact b⟩
          · rw [he, upd_same]; exact ⟨by omega, hi.symm⟩
        · obtain ⟨a, b⟩ := (h.par i e).1 he
          rw [upd_ne _ _ (by omega)]
          exact ⟨by omega, b⟩
      · rintro ⟨a, b⟩
        by_cases hen : e = g.ne
        · rw [hen, upd_same] at b
          rw [if_pos b.symm, hen]; simp
        · rw [upd_ne _ _ hen] at b
          have := (h.par i e).2 ⟨by omega, b⟩
          split
          · rename_i hi; rw [hi] at this; simp [this]
          · exact this
    · intro i
      dsimp only
      rw [m3, hkid1, upd_apply]
      split
      · rw [List.nodup_append]
        exact ⟨h.kn p, by simp, by intro a ha b hb; simp at hb; subst hb; intro hh; exact (hnoe p).1 (hh ▸ ha)⟩
      · exact h.kn i
    · intro i
      dsimp only
      rw [m3, hpar1, upd_apply]
      split
      · rw [List.nodup_append]
        exact ⟨h.pn c, by simp, by intro a ha b hb; simp at hb; subst hb; intro hh; exact (hnoe c).2 (hh ▸ ha)⟩
      · exact h.pn i
    · intro e he
      dsimp only at he ⊢
      rw [m3] at he
      rw [m3, m4, m5, upd_apply, upd_apply]
      split
      · exact ⟨by omega, hcn⟩
      · have := h.edge e (by omega); omega
  · have := h.two; exact (hstp 0 (by omega)).trans h.st0
  · have := h.two; exact (hstp 1 (by omega)).trans h.st1
  · have := h.two
    show g1.bound 0 = _
    rcases hcase with ⟨_, _, _, _, _, _, _, _, a, _⟩ | ⟨_, _, _, _, _, _, _, a, _⟩
    · rw [a]; exact h.b0
    · rw [a, upd_ne _ _ (by omega)]; exact h.b0
  · have := h.two
    show g1.lab 0 = _
    rcases hcase with ⟨_, _, _, _, _, _, _, _, _, a⟩ | ⟨_, _, _, _, _, _, _, _, a⟩
    · rw [a]; exact h.l0
    · rw [a, upd_ne _ _ (by omega)]; exact h.l0
  · show upd g1.par c _ 0 = []
    rw [upd_ne _ _ (Ne.symm hc0), hpar1]; exact h.par0
  · intro i hi
    dsimp only at hi ⊢
    rw [upd_apply]
    split
    · right; right; simp
    · rw [hpar1]
      rename_i hic
      have hi' : i < g.nn := by
        rcases hcase with ⟨_, _, _, _, _, _, b, _⟩ | ⟨b0, _, _, _, _, b, _⟩ <;> omega
      exact h.live i hi'
  · show g1.an.Nodup
    rcases hcase with ⟨_, _, _, _, _, _, _, a, _⟩ | ⟨_, _, _, _, _, _, a, _⟩
    · rw [a]; exact h.and
    · rw [a, List.nodup_append]
      refine ⟨h.and, by simp, ?_⟩
      intro x hx y hy
      simp at hy; subst hy
      have := (h.anm x).1 hx
      omega
  · intro i
    show i ∈ g1.an ↔ i < g1.nn
    rcases hcase with ⟨_, _, _, _, _, _, b, a, _⟩ | ⟨_, _, _, _, _, b, a, _⟩
    · rw [a, b]; exact h.anm i
    · rw [a, b, List.mem_append, h.anm i, List.mem_singleton]; omega
  · intro e he
    dsimp only at he ⊢
    rw [m3] at he
    rw [m3, m4, m5, m6, m7]
    by_cases hen : e = g.ne
    · subst hen
      simp only [upd_same]
      exact ⟨hstep1, trivial⟩
    · simp only [upd_ne _ _ hen]
      have hed := h.edge e (by omega)
      rw [hstp _ hed.1, hstp _ hed.2]
      exact h.est e (by omega)
  · intro i hi hi1
    dsimp only at hi ⊢
    by_cases hig : i < g.nn
    · rw [hstp i hig]; exact h.reach i hig hi1
    · have hic : i = c := by
        rcases hcase with ⟨_, _, _, _, _, _, b, _⟩ | ⟨b0, _, _, _, _, b, _⟩ <;> omega
      rw [hic, hcs]
      exact ⟨_, _, hpath.snoc hst⟩
  · intro i hi
    dsimp only
    split at hi
    · rename_i hcond
      simp only [List.mem_append, List.mem_singleton] at hi
      rcases hi with hi | hi
      · obtain ⟨a, b⟩ := h.qm i hi
        exact ⟨by omega, by rw [hstp i a]; exact b⟩
      · rw [hi]; exact ⟨hcn, by simp at hcond; exact hcond.1⟩
    · obtain ⟨a, b⟩ := h.qm i hi
      exact ⟨by omega, by rw [hstp i a]; exact b⟩
  · intro i hi
    obtain ⟨a, b⟩ := h.Xm i hi
    dsimp only
    exact ⟨by omega, by rw [hstp i a]; exact b⟩
  · split
    · rename_i hcond
      simp only [Bool.and_eq_true, Bool.not_eq_true'] at hcond
      have hcg := hcX hcond.2 (by rw [← hcs]; exact hcond.1)
      rw [← List.append_assoc, List.nodup_append]
      refine ⟨h.nd, by simp, ?_⟩
      intro a ha b hb
      simp at hb; subst hb
      intro hh
      have : a < g.nn := by
        rw [List.mem_append] at ha
        rcases ha with x | x
        · exact (h.Xm a x).1
        · exact (h.qm a x).1
      omega
    · exact h.nd
  · intro i hi hq
    dsimp only at hi hq
    by_cases hig : i < g.nn
    · rw [hstp i hig] at hq
      rcases h.all i hig hq with x | x
      · exact Or.inl x
      · right
        split
        · simp [x]
        · exact x
    · have hic : i = c ∧ c = g.nn := by
        rcases hcase with ⟨_, _, _, _, _, _, b, _⟩ | ⟨b0, _, _, _, _, b, _⟩ <;> omega
      right
      rw [hic.1] at hq ⊢
      rw [if_pos (by rw [hq, hnew hic.2]; rfl)]
      simp
  · intro hloc i hi l' s'' hs
    dsimp only at hs ⊢
    have hin := (h.Xm i hi).1
    rw [hstp i hin] at hs
    rw [m3, m4, m5, m6]
    rcases h.done hloc i hi l' s'' hs with ⟨a, b⟩ | ⟨e, e1, e2, e3, e4⟩
    · simp only [List.mem_cons] at b
      rcases b with b | b
      · right
        refine ⟨g.ne, by omega, by rw [upd_same]; exact a.symm, by rw [upd_same]; exact b.symm, ?_⟩
        rw [upd_same, hcs]
        have h1 := hs.2.2
        rw [a, b, hst.2.2] at h1
        simpa using h1
      · exact Or.inl ⟨a, b⟩
    · right
      have hne : e ≠ g.ne := by omega
      refine ⟨e, by omega, by rw [upd_ne _ _ hne]; exact e2, by rw [upd_ne _ _ hne]; exact e3, ?_⟩
      rw [upd_ne _ _ hne, hstp _ (h.edge e e1).2]
      exact e4

theorem EInv.skip {g : G σ} {X q : List Nat} {p : Nat} {l : Int} {rem : List Int} (h : EInv m r g X q p (l :: rem))
    (hs : m.loc = none → ∀ s', ¬ Step m (g.st p) l s') : EInv m r g X q p rem :=
  { h with
    done := by
      intro hl i hi l' s' hst
      rcases h.done hl i hi l' s' hst with ⟨a, b⟩ | x
      · simp only [List.mem_cons] at b
        rcases b with b | b
        · subst a; subst b; exact absurd hst (hs hl s')
        · exact Or.inl ⟨a, b⟩
      · exact Or.inr x }

theorem exLabels_inv {μ : σ → Nat} (hA : Acyc m r.st μ) (hS : m.eqs m.stt = true) {X : List Nat} {p : Nat} : ∀ (ls : List Int) (g : G σ) (q : List Nat),
    EInv m r g X q p ls → p ∈ X → (∀ l, l ∈ ls → l ∈ m.lgf (g.st p)) →
    ∀ g' q', exLabels m prim p ls g q = (g', q') → EInv m r g' X q' p [] := by
  intro ls
  induction ls with
  | nil =>
    intro g q h _ _ g' q' he
    simp [exLabels] at he
    obtain ⟨rfl, rfl⟩ := he
    exact h
  | cons l ls ih =>
    intro g q h hX hl g' q' he
    obtain ⟨hpn, hpq⟩ := h.Xm p hX
    unfold exLabels at he
    rcases transition_cases m prim g p l with ⟨h1, h2⟩ | ⟨s', f, h1, hf, hb, h2⟩ | ⟨s', x, h1, hb, h2⟩
    · rw [h2] at he
      refine ih g q (h.skip ?_) hX (fun x hx => hl x (by simp [hx])) g' q' he
      intro _ s' hst
      have := hst.2.2; rw [h1] at this; simp at this
    · rw [h2] at he
      refine ih g q (h.skip ?_) hX (fun x hx => hl x (by simp [hx])) g' q' he
      intro hln; rw [hln] at hf; simp at hf
    · rw [h2] at he
      dsimp only at he
      obtain ⟨_, w2, w3⟩ := EInv.arc hA hS h hX ⟨hpq, hl l (by simp), h1⟩ (g.ex p) x rfl rfl
      exact ih _ _ w2 hX (fun y hy => by rw [w3 p hpn]; exact hl y (by simp [hy])) g' q' he

theorem EInv.pop {g : G σ} {X q : List Nat} {p n : Nat} (h : EInv m r g X (n :: q) p []) :
    EInv m r g (X ++ [n]) q n (m.lgf (g.st n)) :=
  { h with
    qm := fun i hi => h.qm i (by simp [hi])
    Xm := by
      intro i hi
      simp only [List.mem_append, List.mem_singleton] at hi
      rcases hi with x | x
      · exact h.Xm i x
      · rw [x]; exact h.qm n (by simp)
    nd := by have := h.nd; rw [List.append_assoc]; exact this
    all := by
      intro i hi hq
      rcases h.all i hi hq with x | x
      · left; simp [x]
      · simp only [List.mem_cons] at x
        rcases x with x | x
        · left; simp [x]
        · exact Or.inr x
    done := by
      intro hl i hi l s' hst
      simp only [List.mem_append, List.mem_singleton] at hi
      rcases hi with x | x
      · rcases h.done hl i x l s' hst with ⟨_, y⟩ | y
        · simp at y
        · exact Or.inr y
      · left; exact ⟨x, by rw [x] at hst; exact hst.2.1⟩ }

theorem exLoop_inv {μ : σ → Nat} (hA : Acyc m r.st μ) (hS : m.eqs m.stt = true) : ∀ (f : Nat) (g : G σ) (X q : List Nat) (p : Nat),
    EInv m r g X q p [] → ∀ g', exLoop m prim f g q = some g' → ∃ X' p', EInv m r g' X' [] p' [] := by
  intro f
  induction f with
  | zero => intro g X q p _ g' he; simp [exLoop] at he
  | succ f ih =>
    intro g X q p h g' he
    cases q with
    | nil => simp [exLoop] at he; subst he; exact ⟨X, p, h⟩
    | cons n q =>
      unfold exLoop at he
      dsimp only at he
      generalize hv : exLabels m prim n (m.lgf (g.st n)) g q = v at he
      obtain ⟨g1, q1⟩ := v
      have h2 := exLabels_inv hA hS _ g q h.pop (by simp) (fun _ hx => hx) g1 q1 hv
      exact ih g1 _ q1 n h2 g' he

/-! ### Termination -/

theorem nodup_inj_le {α β : Type} [DecidableEq β] (f : α → β) : ∀ {l : List α} {k : List β}, l.Nodup →
    (∀ x y, x ∈ l → y ∈ l → f x = f y → x = y) → (∀ x, x ∈ l → f x ∈ k) → l.length ≤ k.length := by
  intro l
  induction l with
  | nil => intro k _ _ _; simp
  | cons a l ih =>
    intro k hn hi hs
    rw [List.nodup_cons] at hn
    have ha := hs a (by simp)
    have := ih (k := k.erase (f a)) hn.2 (fun x y hx hy => hi x y (by simp [hx]) (by simp [hy])) (by
      intro x hx
      rw [List.mem_erase_of_ne (by intro hh; exact hn.1 (hi x a (by simp [hx]) (by simp) hh ▸ hx))]
      exact hs x (by simp [hx]))
    rw [List.length_erase_of_mem ha] at this
    have := List.length_pos_of_mem ha
    simp; omega

theorem EInv.card (hS : m.eqs m.stt = true) {g : G σ} {X q : List Nat} {p : Nat} {ls : List Int} (h : EInv m r g X q p ls) {U : List σ}
    (hU : ∀ s ls c, Path m r.st ls c s → m.eqs s = false → s ∈ U) : (X ++ q).length ≤ U.length := by
  have hm : ∀ i, i ∈ X ++ q → i < g.nn ∧ m.eqs (g.st i) = false := by
    intro i hi
    rw [List.mem_append] at hi
    rcases hi with x | x
    · exact h.Xm i x
    · exact h.qm i x
  refine nodup_inj_le g.st h.nd (fun x y hx hy => h.injEq x y (hm x hx).1 (hm y hy).1) ?_
  intro i hi
  obtain ⟨a, b⟩ := hm i hi
  have h1 : i ≠ 1 := by intro hh; rw [hh, h.st1, hS] at b; simp at b
  obtain ⟨ls, c, hp⟩ := h.reach i a h1
  exact hU _ ls c hp b

theorem exLoop_some {μ : σ → Nat} (hA : Acyc m r.st μ) (hS : m.eqs m.stt = true) {U : List σ}
    (hU : ∀ s ls c, Path m r.st ls c s → m.eqs s = false → s ∈ U) : ∀ (f : Nat) (g : G σ) (X q : List Nat) (p : Nat),
    EInv m r g X q p [] → U.length < X.length + f → ∃ g', exLoop m prim f g q = some g' := by
  intro f
  induction f with
  | zero =>
    intro g X q p h hf
    have := h.card hS hU
    rw [List.length_append] at this
    omega
  | succ f ih =>
    intro g X q p h hf
    cases q with
    | nil => exact ⟨g, by simp [exLoop]⟩
    | cons n q =>
      unfold exLoop
      dsimp only
      generalize hv : exLabels m prim n (m.lgf (g.st n)) g q = v
      obtain ⟨g1, q1⟩ := v
      have h2 := exLabels_inv hA hS _ g q h.pop (by simp) (fun _ hx => hx) g1 q1 hv
      exact ih g1 _ q1 n h2 (by rw [List.length_append, List.length_singleton]; omega)

end Verif.DD
