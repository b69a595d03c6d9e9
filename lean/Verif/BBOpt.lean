import Verif.BBInv
/-!
# Termination of the search, and what it covers
-/
namespace Verif.BB
open Verif.DD
set_option linter.unusedSectionVars false
variable {σ : Type} {m : Mdl σ} {rank : σ → Nat} {M : Int → Mdl σ} {Vl : σ → Int → Prop} {Wl : Int → σ → Int → Prop} [Same σ]

/-! ### Termination -/

theorem expand_some {lc : Int → Option (σ → Ctx → Int)} (F : FamV Vl Wl m rank M) {N : Nat} (hN : RankBound m rank m.sti 0 N) {wres fuel : Nat} (hf : N + 2 ≤ fuel)
    {s : BS σ} {cur : Nat} (hP : PInv m s) (hc : cur < s.pn) : ∃ s', expandP m M lc wres fuel s cur = some s' := by
  obtain ⟨hgen, hopen⟩ := hP.gen cur hc
  obtain ⟨g, hg⟩ := relaxed_some (prim := s.primal) (r := s.src cur) (F.lay s.primal _ _ _ hgen hopen)
    (F.rankBound (r := s.src cur) hgen hopen hN) s.wrel hf
  unfold expandP
  rw [hg]
  simp only [Option.bind_some]
  split
  · obtain ⟨s1, hs1⟩ : ∃ s1, s1 = if g.exact = true then setPrimal m s (g.bound g.trg) (g.lab g.trg) else s := ⟨_, rfl⟩
    rw [← hs1]
    have hsrc : s1.src cur = s.src cur := by rw [hs1]; split <;> rfl
    rw [hsrc]
    obtain ⟨r, hr⟩ := restricted_some (prim := s1.primal) (r := s.src cur) (F.lay s1.primal _ _ _ hgen hopen)
      (F.rankBound (r := s.src cur) hgen hopen hN) wres hf
    rw [hr]
    simp only [Option.bind_some]
    split
    · obtain ⟨_, cs, hcs, _⟩ := cut_factsP F (r := s.src cur) hgen hopen hg
      rw [hcs]
      exact ⟨_, rfl⟩
    · exact ⟨_, rfl⟩
  · exact ⟨_, rfl⟩

theorem PInv.card {s : BS σ} (h : PInv m s) {U : List σ}
    (hU : ∀ x ls c, Path m m.sti ls c x → m.eqs x = false → x ∈ U) : s.pn ≤ U.length := by
  haveI : DecidableEq σ := fun _ _ => Classical.propDecidable _
  have := nodup_inj_le s.pst (l := List.range s.pn) (k := U) List.nodup_range
    (fun x y hx hy => h.inj x y (by simpa using hx) (by simpa using hy)) (by
    intro i hi
    obtain ⟨a, b⟩ := h.gen i (by simpa using hi)
    exact hU _ _ _ a b)
  simpa using this

theorem loop_some {Wl : Nat → Int → σ → Int → Prop} {M : Nat → Int → Mdl σ} {lc : Nat → Int → Option (σ → Ctx → Int)} (F : ∀ k, FamV Vl (Wl k) m rank (M k)) {p0 : Int} (hp0 : m.sense.betterEQ p0 m.sense.best0 = true) {N : Nat}
    (hN : RankBound m rank m.sti 0 N) {U : List σ} (hU : ∀ x ls c, Path m m.sti ls c x → m.eqs x = false → x ∈ U)
    {wres dfuel : Nat} (hf : N + 2 ≤ dfuel) {lim : Nat → Bool} :
    ∀ (f k : Nat) (s : BS σ), PInv m s → TInv m p0 s → s.pq.at_ + U.length < f + 1 + s.pn →
      ∃ s', loopP m M lc wres dfuel lim f k s = some s' := by
  intro f
  induction f with
  | zero =>
    intro k s hP _ h
    have := hP.card hU
    have := hP.wf.one_le
    omega
  | succ f ih =>
    intro k s hP hT h
    unfold loopP
    dsimp only
    by_cases he : Heap.empty s.pq = true
    · rw [if_pos he]; exact ⟨_, rfl⟩
    · rw [if_neg he]
      obtain ⟨a1, a2, _, a4, _⟩ := hP.extract (by simpa using he)
      have hT1 : TInv m p0 { s with pq := (Heap.extractMax (qord m) s.pq).1 } := hT.congr ⟨rfl, rfl, rfl, rfl⟩
      split
      · exact ⟨_, rfl⟩
      · split
        · obtain ⟨s2, h2⟩ := expand_some (wres := wres) (F k) hN hf a1 a2
          obtain ⟨b1, b2, _, _, b5⟩ := expand_inv (F k) hp0 a1 hT1 a2 h2
          rw [h2]
          simp only [Option.bind_some]
          refine ih _ _ b1 b2 ?_
          dsimp only at b5
          omega
        · refine ih _ _ a1 hT1 ?_
          dsimp only; omega

/-! ### Coverage -/

/-- A value is already matched by the primal bound, or some queue node of rank at least `ρ` can
still reach something as good. -/
def Cov (Vl : σ → Int → Prop) (m : Mdl σ) (rank : σ → Nat) (s : BS σ) (ρ : Nat) (v : Int) : Prop :=
  m.sense.betterEQ s.primal v = true ∨
  ∃ i key c, Opn s i key ∧ ρ ≤ rank (s.pst i) ∧ Vl (s.pst i) c ∧ m.sense.betterEQ (s.pbound i + c) v = true

theorem Cov.mono {s : BS σ} {ρ ρ' : Nat} {v v' : Int} (h : Cov Vl m rank s ρ v) (hρ : ρ' ≤ ρ) (hv : m.sense.betterEQ v v' = true) :
    Cov Vl m rank s ρ' v' := by
  rw [Sense.betterEQ_iff] at hv
  rcases h with x | ⟨i, key, c, h1, h2, h3, h4⟩
  · left; rw [Sense.betterEQ_iff] at x ⊢; omega
  · right
    refine ⟨i, key, c, h1, by omega, h3, ?_⟩
    rw [Sense.betterEQ_iff] at h4 ⊢; omega

/-- Queue keys are optimistic for what can still improve the primal bound. -/
def KeyOK (Vl : σ → Int → Prop) (m : Mdl σ) (s : BS σ) : Prop :=
  ∀ i key, Opn s i key → ∀ c, Vl (s.pst i) c → m.sense.better (s.pbound i + c) s.primal = true →
    m.sense.betterEQ key (s.pbound i + c) = true

/-- The dominance test only ever relates states of equal rank. -/
def DomRank (m : Mdl σ) (rank : σ → Nat) : Prop :=
  ∀ sd, m.sdom = some sd → ∀ a b va vb, Relx m rank m.sti 0 a va → Relx m rank m.sti 0 b vb →
    m.eqs a = false → m.eqs b = false → sd a b = true → rank a = rank b

/-- This cut-set node is not dropped for a bad reason: when its state is already in the pool
(src/dd.hpp:355, 369) the earlier node was at least as good, it is not the root being split, and no
queue node was removed on its behalf (src/search.cpp:153-158). -/
def okCut (m : Mdl σ) (g : G σ) (s : BS σ) (n : Nat) : Bool :=
  !(m.sense.better (g.bound n + g.bb n) s.primal) || (domStep m s (g.st n) (g.bound n)).1 ||
  match findPool s (g.st n) with
  | none => true
  | some o => decide (n ≠ g.root) && !(m.sense.better (g.bound n) (s.pbound o)) &&
      ((domStep m s (g.st n) (g.bound n)).2.pq.at_ == s.pq.at_)

theorem CoverV.val {a b : σ} (h : CoverV Vl m a b) {c : Int} (hv : Vl b c) : ∃ c', Vl a c' ∧ m.sense.k c ≤ m.sense.k c' := by
  obtain ⟨c', h1, h2⟩ := h c hv
  exact ⟨c', h1, by rw [Sense.betterEQ_iff] at h2; exact h2⟩

theorem domStep_wrel (s0 : BS σ) (x : Nat) (st : σ) (bd : Int) :
    domStep m { s0 with wrel := x } st bd = ((domStep m s0 st bd).1, { (domStep m s0 st bd).2 with wrel := x }) := by
  unfold domStep
  cases m.sdom with
  | none => rfl
  | some sd =>
    have hds : ∀ (ls acc : List Nat), domScan m sd { s0 with wrel := x } st bd ls acc = domScan m sd s0 st bd ls acc := by
      intro ls
      induction ls with
      | nil => intro acc; rfl
      | cons l ls ih => intro acc; simp only [domScan, ih]
    dsimp only
    rw [hds]

/-- Coverage by one cut-set node. -/
theorem cutStep_cov (H : LayeredV Vl m rank m.sti 0) (hD : DomRank m rank) {lc : Option (σ → Ctx → Int)} {g : G σ} {cur : Nat} {s0 : BS σ} {n : Nat} (h : PInv m s0)
    (hK : KeyOK Vl m s0) (hp : Path m m.sti (g.lab n) (g.bound n) (g.st n)) (hq : m.eqs (g.st n) = false)
    (hbb : ∀ c, Vl (g.st n) c → m.sense.better (g.bound n + c) s0.primal = true → m.sense.betterEQ (g.bb n) c = true)
    (hlc : ∀ f, lc = some f → ∀ c, Vl (g.st n) c → m.sense.better (g.bound n + c) s0.primal = true → m.sense.betterEQ (f (g.st n) .bb) c = true)
    (hok : okCut m g s0 n = true)
    (hold : n ≠ g.root → ∀ o, o < s0.pn → s0.pst o = g.st n → ∀ c, Vl (g.st n) c → Cov Vl m rank s0 (rank (g.st n)) (s0.pbound o + c)) :
    KeyOK Vl m (cutStep m lc g cur s0 n) ∧ (∀ ρ v, Cov Vl m rank s0 ρ v → Cov Vl m rank (cutStep m lc g cur s0 n) ρ v) ∧
    ∀ c, Vl (g.st n) c → Cov Vl m rank (cutStep m lc g cur s0 n) (rank (g.st n)) (g.bound n + c) := by
  have hrn : Relx m rank m.sti 0 (g.st n) (g.bound n) := by
    have := hp.relx (rank := rank) (v0 := 0) Relx.root
    rwa [Int.zero_add] at this
  have hkey : ∀ c, Vl (g.st n) c → m.sense.better (g.bound n + c) s0.primal = true → m.sense.betterEQ (insKey lc g n) (g.bound n + c) = true := by
    intro c hv hb
    unfold insKey
    rw [Sense.betterEQ_iff, Sense.k_add, Sense.k_add]
    cases hl : lc with
    | none =>
      have := hbb c hv hb
      rw [Sense.betterEQ_iff] at this
      dsimp only; omega
    | some f =>
      have := hlc f hl c hv hb
      rw [Sense.betterEQ_iff] at this
      dsimp only; omega
  unfold cutStep
  dsimp only
  generalize hs : (if n = g.root then { s0 with wrel := s0.wrel + 1 } else s0) = s
  have hopn : ∀ i key, Opn s i key ↔ Opn s0 i key := by
    intro i key; rw [← hs]; split <;> exact Iff.rfl
  have f1 : s.pst = s0.pst := by rw [← hs]; split <;> rfl
  have f2 : s.pbound = s0.pbound := by rw [← hs]; split <;> rfl
  have f3 : s.primal = s0.primal := by rw [← hs]; split <;> rfl
  have f4 : s.pn = s0.pn := by rw [← hs]; split <;> rfl
  have f5 : s.pq = s0.pq := by rw [← hs]; split <;> rfl
  have hok : okCut m g s n = true := by
    rw [← hok, ← hs]
    split
    · unfold okCut
      rw [domStep_wrel]
      rfl
    · rfl
  have hP : PInv m s := by
    rw [← hs]; split
    · exact ⟨h.wf, h.ord, h.pos, h.root, h.idx, h.gen, h.inj, h.uq⟩
    · exact h
  have hK : KeyOK Vl m s := by
    intro i key ho
    rw [f1, f2, f3]
    exact hK i key ((hopn i key).1 ho)
  have hcs : ∀ ρ v, Cov Vl m rank s0 ρ v → Cov Vl m rank s ρ v := by
    rintro ρ v (x | ⟨i, key, c, x1, x2, x3, x4⟩)
    · left; rw [f3]; exact x
    · right; exact ⟨i, key, c, (hopn i key).2 x1, by rw [f1]; exact x2, by rw [f1]; exact x3, by rw [f2]; exact x4⟩
  rw [← f3] at hbb hkey
  have hold : n ≠ g.root → ∀ o, o < s.pn → s.pst o = g.st n → ∀ c, Vl (g.st n) c → Cov Vl m rank s (rank (g.st n)) (s.pbound o + c) := by
    intro hnr o ho hso c hv
    rw [f2]
    rw [f4] at ho
    rw [f1] at hso
    exact hcs _ _ (hold hnr o ho hso c hv)
  suffices hmain : ∀ s', s' = (if m.sense.better (g.bound n + g.bb n) s.primal = true then
      match domStep m s (g.st n) (g.bound n) with
      | (true, s1) => { s1 with log := s1.log ++ [(cur, n, Fate.dominated)] }
      | (false, s1) =>
        match findPool s1 (g.st n) with
        | some o => { s1 with log := s1.log ++ [(cur, n, Fate.deduped o)] }
        | none =>
          if m.sense.better (insKey lc g n) (clone s1 (g.st n) (g.lab n) (g.bound n) (g.bb n)).primal = true then
            { clone s1 (g.st n) (g.lab n) (g.bound n) (g.bb n) with
              pq := (Heap.insertHeap (qord m) (clone s1 (g.st n) (g.lab n) (g.bound n) (g.bb n)).pq (s1.pn, insKey lc g n)).1,
              log := (clone s1 (g.st n) (g.lab n) (g.bound n) (g.bb n)).log ++ [(cur, n, Fate.queued)] }
          else { clone s1 (g.st n) (g.lab n) (g.bound n) (g.bb n) with
              log := (clone s1 (g.st n) (g.lab n) (g.bound n) (g.bb n)).log ++ [(cur, n, Fate.weak)] }
      else { s with log := s.log ++ [(cur, n, Fate.bounded)] }) →
      KeyOK Vl m s' ∧ (∀ ρ v, Cov Vl m rank s ρ v → Cov Vl m rank s' ρ v) ∧ ∀ c, Vl (g.st n) c → Cov Vl m rank s' (rank (g.st n)) (g.bound n + c) by
    obtain ⟨a, b, c⟩ := hmain _ rfl
    exact ⟨a, fun ρ v hv => b ρ v (hcs ρ v hv), c⟩
  intro s' hs'
  by_cases hb : m.sense.better (g.bound n + g.bb n) s.primal = true
  · rw [if_pos hb] at hs'
    unfold okCut at hok
    rw [hb] at hok
    obtain ⟨q', d1, d2, d3, d4, d5, d6, d7, d8, d9⟩ := domStep_spec hP (g.st n) (g.bound n)
    have hP1 := hP.sub d2 d3 d4 d6
    generalize hdd : domStep m s (g.st n) (g.bound n) = D at *
    obtain ⟨b, s1⟩ := D
    dsimp only at d1
    subst d1
    -- what was removed is covered by the new node
    have hrem : ∀ i key, Opn s i key → Opn { s with pq := q' } i key ∨
        (m.sense.betterEQ (g.bound n) (s.pbound i) = true ∧ rank (g.st n) = rank (s.pst i) ∧ CoverV Vl m (g.st n) (s.pst i)) := by
      rintro i key ⟨l, l1, l2⟩
      by_cases hl : Heap.Live q' l
      · left; exact ⟨l, hl, by dsimp only; rw [d4]; exact l2⟩
      · right
        obtain ⟨sd, h1, h2, h3⟩ := d8 l l1 hl
        rw [l2] at h2 h3
        have hi := hP.idx i key ⟨l, l1, l2⟩
        have hri := (hP.layered H hi).1
        have hqi := (hP.gen i hi).2
        have hr := hD sd h1 _ _ _ _ hrn hri hq hqi h3
        exact ⟨h2, hr, (H.dom sd h1 _ _ _ _ hrn hri hq (Or.inl ⟨hqi, hr⟩) h3).1⟩
    cases b with
    | true =>
      dsimp only at hs'
      obtain ⟨sd, l, h1, h2, h3, h4⟩ := d9 rfl
      have hol : Opn { s with pq := q' } (s.pq.val l).1 (s.pq.val l).2 := ⟨l, h2, by dsimp only; rw [d4]⟩
      have hi := hP1.idx _ _ hol
      have hri := (hP.layered H hi).1
      have hqi := (hP.gen _ hi).2
      have hr := hD sd h1 _ _ _ _ hri hrn hqi hq h4
      have hcv := (H.dom sd h1 _ _ _ _ hri hrn hqi (Or.inl ⟨hq, hr⟩) h4).1
      rw [Sense.betterEQ_iff] at h3
      have hnew : ∀ c, Vl (g.st n) c → Cov Vl m rank s' (rank (g.st n)) (g.bound n + c) := by
        intro c hv
        obtain ⟨c', v1, v2⟩ := CoverV.val hcv hv
        right
        subst hs'
        refine ⟨_, _, c', hol, by rw [← hr]; exact Nat.le_refl _, v1, ?_⟩
        rw [Sense.betterEQ_iff, Sense.k_add, Sense.k_add]; dsimp only; omega
      refine ⟨?_, ?_, hnew⟩
      · subst hs'
        rintro i key ⟨l', l1, l2⟩
        exact hK i key ⟨l', d6 l' l1, by rw [← d4]; exact l2⟩
      · rintro ρ v (x | ⟨i, key, c, x1, x2, x3, x4⟩)
        · left; subst hs'; exact x
        · rcases hrem i key x1 with y | ⟨y1, y2, y3⟩
          · right; subst hs'; exact ⟨i, key, c, y, x2, x3, x4⟩
          · obtain ⟨c', v1, v2⟩ := CoverV.val y3 x3
            refine (hnew c' v1).mono (by omega) ?_
            rw [Sense.betterEQ_iff, Sense.k_add] at *
            omega
    | false =>
      dsimp only at hs' hok
      have hfp : findPool { s with pq := q' } (g.st n) = findPool s (g.st n) := rfl
      rw [hfp] at hs'
      cases hf : findPool s (g.st n) with
      | some o =>
        rw [hf] at hs' hok
        simp only [Bool.not_true, Bool.false_or, Bool.and_eq_true, decide_eq_true_eq, Bool.not_eq_true', beq_iff_eq] at hok
        obtain ⟨⟨o1, o2⟩, o3⟩ := hok
        have hqq := d7 o3
        obtain ⟨p1, p2⟩ := findPool_some hf
        have p2 := hP.uq.uniq _ _ _ _ _ _ (hP.gen o p1).1 hp p2
        dsimp only at hs'
        subst hs'
        rw [hqq]
        have hcc : ∀ ρ v, Cov Vl m rank s ρ v → Cov Vl m rank { s with pq := s.pq, log := s.log ++ [(cur, n, Fate.deduped o)] } ρ v := by
          rintro ρ v (x | ⟨i, key, c, x1, x2, x3, x4⟩)
          · exact Or.inl x
          · exact Or.inr ⟨i, key, c, x1, x2, x3, x4⟩
        refine ⟨fun i key ho => hK i key ho, hcc, ?_⟩
        intro c hv
        refine hcc _ _ ((hold o1 o p1 p2 c hv).mono (Nat.le_refl _) ?_)
        rw [Sense.better_false] at o2
        rw [Sense.betterEQ_iff, Sense.k_add, Sense.k_add]; omega
      | none =>
        rw [hf] at hs'
        dsimp only at hs'
        have hG := clone_grow { s with pq := q' } (g.st n) (g.lab n) (g.bound n) (g.bb n)
        have hP2 := hP1.clone (g.bb n) hp hq (findPool_none hP.uq hf)
        generalize hs2 : clone { s with pq := q' } (g.st n) (g.lab n) (g.bound n) (g.bb n) = s2 at *
        have k1 : s2.primal = s.primal := by rw [← hs2]; rfl
        have k2 : s2.pst s.pn = g.st n := by rw [← hs2]; simp [clone]
        have k3 : s2.pbound s.pn = g.bound n := by rw [← hs2]; simp [clone]
        have k4 : ∀ i key, Opn s2 i key ↔ Opn { s with pq := q' } i key := by intro i key; rw [← hs2]; exact Iff.rfl
        rw [k1] at hs'
        have hsub : ∀ i key, Opn { s with pq := q' } i key → Opn s i key := by
          rintro i key ⟨l', l1, l2⟩
          exact ⟨l', d6 l' l1, by rw [← d4]; exact l2⟩
        by_cases hbk : m.sense.better (insKey lc g n) s.primal = true
        · rw [if_pos hbk] at hs'
          have hoi : ∀ i key, Opn s' i key ↔ Opn s2 i key ∨ (i, key) = (s.pn, insKey lc g n) := by
            intro i key
            rw [hs']
            exact opn_ins hP2 _ i key
          have g1 : s'.pst = s2.pst := by rw [hs']
          have g2 : s'.pbound = s2.pbound := by rw [hs']
          have g3 : s'.primal = s.primal := by rw [hs']
          have hnew : ∀ c, Vl (g.st n) c → Cov Vl m rank s' (rank (g.st n)) (g.bound n + c) := by
            intro c hv
            right
            refine ⟨s.pn, _, c, (hoi _ _).2 (Or.inr rfl), ?_, ?_, ?_⟩
            · rw [g1, k2]; exact Nat.le_refl _
            · rw [g1, k2]; exact hv
            · rw [g2, k3, Sense.betterEQ_iff]; omega
          refine ⟨?_, ?_, hnew⟩
          · intro i key ho c hv hbet
            rw [g1] at hv
            rw [g2] at hbet ⊢
            rw [g3] at hbet
            rcases (hoi i key).1 ho with x | x
            · have hx := (k4 i key).1 x
              have hi := hP1.idx i key hx
              rw [hG.st i hi] at hv
              rw [hG.bd i hi] at hbet ⊢
              exact hK i key (hsub i key hx) c hv hbet
            · simp only [Prod.mk.injEq] at x
              obtain ⟨x1, x2⟩ := x
              rw [x1, k2] at hv
              rw [x1, k3] at hbet ⊢
              rw [x2]
              exact hkey c hv hbet
          · rintro ρ v (x | ⟨i, key, c, x1, x2, x3, x4⟩)
            · left; rw [g3]; exact x
            · rcases hrem i key x1 with y | ⟨y1, y2, y3⟩
              · right
                have hi := hP1.idx i key y
                refine ⟨i, key, c, (hoi _ _).2 (Or.inl ((k4 i key).2 y)), ?_, ?_, ?_⟩
                · rw [g1, hG.st i hi]; exact x2
                · rw [g1, hG.st i hi]; exact x3
                · rw [g2, hG.bd i hi]; exact x4
              · obtain ⟨c', v1, v2⟩ := CoverV.val y3 x3
                refine (hnew c' v1).mono (by omega) ?_
                rw [Sense.betterEQ_iff, Sense.k_add] at *
                omega
        · rw [if_neg hbk] at hs'
          have hoi : ∀ i key, Opn s' i key ↔ Opn s2 i key := by intro i key; rw [hs']; exact Iff.rfl
          have g1 : s'.pst = s2.pst := by rw [hs']
          have g2 : s'.pbound = s2.pbound := by rw [hs']
          have g3 : s'.primal = s.primal := by rw [hs']
          have hnew : ∀ c, Vl (g.st n) c → Cov Vl m rank s' (rank (g.st n)) (g.bound n + c) := by
            intro c hv
            left
            rw [g3, Sense.betterEQ_iff]
            apply Classical.byContradiction
            intro hh
            have := hkey c hv (by rw [Sense.better_iff]; omega)
            rw [Sense.betterEQ_iff] at this
            rw [Sense.better_iff] at hbk
            omega
          refine ⟨?_, ?_, hnew⟩
          · intro i key ho c hv hbet
            rw [g1] at hv
            rw [g2] at hbet ⊢
            rw [g3] at hbet
            have hx := (k4 i key).1 ((hoi i key).1 ho)
            have hi := hP1.idx i key hx
            rw [hG.st i hi] at hv
            rw [hG.bd i hi] at hbet ⊢
            exact hK i key (hsub i key hx) c hv hbet
          · rintro ρ v (x | ⟨i, key, c, x1, x2, x3, x4⟩)
            · left; rw [g3]; exact x
            · rcases hrem i key x1 with y | ⟨y1, y2, y3⟩
              · right
                have hi := hP1.idx i key y
                refine ⟨i, key, c, (hoi _ _).2 ((k4 i key).2 y), ?_, ?_, ?_⟩
                · rw [g1, hG.st i hi]; exact x2
                · rw [g1, hG.st i hi]; exact x3
                · rw [g2, hG.bd i hi]; exact x4
              · obtain ⟨c', v1, v2⟩ := CoverV.val y3 x3
                refine (hnew c' v1).mono (by omega) ?_
                rw [Sense.betterEQ_iff, Sense.k_add] at *
                omega
  · rw [if_neg hb] at hs'
    subst hs'
    refine ⟨fun i key ho => hK i key ho, ?_, ?_⟩
    · rintro ρ v (x | ⟨i, key, c, x1, x2, x3, x4⟩)
      · exact Or.inl x
      · exact Or.inr ⟨i, key, c, x1, x2, x3, x4⟩
    · intro c hv
      left
      show m.sense.betterEQ s.primal _ = true
      rw [Sense.betterEQ_iff]
      apply Classical.byContradiction
      intro hh
      have := hbb c hv (by rw [Sense.better_iff]; omega)
      rw [Sense.betterEQ_iff] at this
      rw [Sense.better_iff, Sense.k_add] at hb
      rw [Sense.k_add] at hh
      omega

/-- `okCut` along the loop over the cut set. -/
def okFold (m : Mdl σ) (lc : Option (σ → Ctx → Int)) (g : G σ) (cur : Nat) : BS σ → List Nat → Bool
  | _, [] => true
  | s, n :: cs => okCut m g s n && okFold m lc g cur (cutStep m lc g cur s n) cs

theorem cutFold_cov (H : LayeredV Vl m rank m.sti 0) (hD : DomRank m rank) {lc : Option (σ → Ctx → Int)} {g : G σ} {cur : Nat} {ρ0 : Nat} : ∀ (cs : List Nat) {s0 : BS σ},
    PInv m s0 → KeyOK Vl m s0 → okFold m lc g cur s0 cs = true →
    (∀ n, n ∈ cs → Path m m.sti (g.lab n) (g.bound n) (g.st n) ∧ m.eqs (g.st n) = false ∧ (n ≠ g.root → ρ0 < rank (g.st n)) ∧
      ∀ c, Vl (g.st n) c → m.sense.better (g.bound n + c) s0.primal = true → m.sense.betterEQ (g.bb n) c = true) →
    (∀ n, n ∈ cs → ∀ f, lc = some f → ∀ c, Vl (g.st n) c → m.sense.better (g.bound n + c) s0.primal = true → m.sense.betterEQ (f (g.st n) .bb) c = true) →
    (∀ o, o < s0.pn → ρ0 < rank (s0.pst o) → ∀ c, Vl (s0.pst o) c → Cov Vl m rank s0 (rank (s0.pst o)) (s0.pbound o + c)) →
    KeyOK Vl m (cs.foldl (cutStep m lc g cur) s0) ∧
    (∀ ρ v, Cov Vl m rank s0 ρ v → Cov Vl m rank (cs.foldl (cutStep m lc g cur) s0) ρ v) ∧
    (∀ n, n ∈ cs → ∀ c, Vl (g.st n) c → Cov Vl m rank (cs.foldl (cutStep m lc g cur) s0) (rank (g.st n)) (g.bound n + c)) ∧
    (∀ i, i < (cs.foldl (cutStep m lc g cur) s0).pn → i < s0.pn ∨ ∃ n, n ∈ cs ∧
      (cs.foldl (cutStep m lc g cur) s0).pst i = g.st n ∧ (cs.foldl (cutStep m lc g cur) s0).pbound i = g.bound n) := by
  intro cs
  induction cs with
  | nil =>
    intro s0 _ hK _ _ _ _
    exact ⟨hK, fun _ _ x => x, by simp, fun i hi => Or.inl hi⟩
  | cons n cs ih =>
    intro s0 hP hK hok hc hlc hA
    simp only [okFold, Bool.and_eq_true] at hok
    obtain ⟨p1, p2, p3, p4⟩ := hc n (by simp)
    obtain ⟨a1, a2, a3, _, a5⟩ := cutStep_inv (cur := cur) hP p1 p2
    obtain ⟨b1, b2, b3⟩ := cutStep_cov (cur := cur) H hD hP hK p1 p2 p4 (hlc n (by simp)) hok.1 (by
      intro hnr o ho hst c hv
      have := hA o ho (by rw [hst]; exact p3 hnr) c (by rw [hst]; exact hv)
      rw [hst] at this
      exact this)
    rw [List.foldl_cons]
    have hmono : ∀ k, k ∈ cs → Path m m.sti (g.lab k) (g.bound k) (g.st k) ∧ m.eqs (g.st k) = false ∧ (k ≠ g.root → ρ0 < rank (g.st k)) ∧
      ∀ c, Vl (g.st k) c → m.sense.better (g.bound k + c) (cutStep m lc g cur s0 n).primal = true → m.sense.betterEQ (g.bb k) c = true := by
      rw [a3.primal]
      exact fun k hk => hc k (by simp [hk])
    have hA' : ∀ o, o < (cutStep m lc g cur s0 n).pn → ρ0 < rank ((cutStep m lc g cur s0 n).pst o) → ∀ c, Vl ((cutStep m lc g cur s0 n).pst o) c →
        Cov Vl m rank (cutStep m lc g cur s0 n) (rank ((cutStep m lc g cur s0 n).pst o)) ((cutStep m lc g cur s0 n).pbound o + c) := by
      intro o ho hr c hv
      rcases a5 o ho with x | ⟨x1, x2⟩
      · rw [a2.st o x] at hr hv ⊢
        rw [a2.bd o x]
        exact b2 _ _ (hA o x hr c hv)
      · rw [x1] at hv ⊢
        rw [x2]
        exact b3 c hv
    obtain ⟨i1, i2, i3, i4⟩ := ih a1 b1 hok.2 hmono (by rw [a3.primal]; exact fun k hk => hlc k (by simp [hk])) hA'
    obtain ⟨_, g2, _, _⟩ := cutFold_inv (cur := cur) cs a1 (fun k hk => ⟨(hmono k hk).1, (hmono k hk).2.1⟩)
    refine ⟨i1, fun ρ v x => i2 ρ v (b2 ρ v x), ?_, ?_⟩
    · intro k hk c hv
      simp only [List.mem_cons] at hk
      rcases hk with x | x
      · rw [x] at hv ⊢; exact i2 _ _ (b3 c hv)
      · exact i3 k x c hv
    · intro i hi
      rcases i4 i hi with x | ⟨k, k1, k2⟩
      · rcases a5 i x with y | ⟨y1, y2⟩
        · exact Or.inl y
        · right
          exact ⟨n, by simp, by rw [g2.st i x]; exact y1, by rw [g2.bd i x]; exact y2⟩
      · exact Or.inr ⟨k, by simp [k1], k2⟩

/-- No arc into the sink from an exact node outside the cut set still improves on `p`: such
solutions are on no cut-set node (src/dd.cpp:760). -/
def noShortcut (m : Mdl σ) (g : G σ) (cs : List Nat) (p : Int) : Bool :=
  (g.par g.trg).all (fun e => !(g.ex (g.es e) && !(cs.contains (g.es e)) && m.sense.better (g.bound (g.es e) + g.eo e) p))

/-- The local bound used for the queue keys is at least as good as every improving completion. -/
def LcOK (Vl : σ → Int → Prop) (m : Mdl σ) (lc : Int → Option (σ → Ctx → Int)) : Prop :=
  ∀ p f, lc p = some f → ∀ s ls v c, Path m m.sti ls v s → m.eqs s = false → Vl s c → m.sense.better (v + c) p = true →
    m.sense.betterEQ (f s .bb) c = true

theorem LcOK.of_fam (F : FamV Vl Wl m rank M) : LcOK Vl m (fun p => (M p).loc) := by
  intro p f hf s ls v c hp hq hv hb
  have := (F.lay p _ _ _ hp hq).local_ f hf _ _ .bb c Relx.root (F.keep _ _ _ _ _ hp hv hb)
  rwa [F.sense] at this

/-- `expand` drops nothing for a bad reason. -/
def okExpandP (m : Mdl σ) (M : Int → Mdl σ) (lc : Int → Option (σ → Ctx → Int)) (wres fuel : Nat) (s : BS σ) (cur : Nat) : Bool :=
  ((relaxed (M s.primal) s.primal s.wrel fuel (s.src cur)).map fun g =>
    if m.sense.better (g.bound g.trg) s.primal then
      let s1 := if g.exact then setPrimal m s (g.bound g.trg) (g.lab g.trg) else s
      ((restricted (M s1.primal) s1.primal wres fuel (s1.src cur)).map fun r =>
        let s2 := if m.sense.better (r.bound r.trg) s1.primal then
          setPrimal m s1 (r.bound r.trg) (r.lab r.trg) else s1
        if !r.exact && !g.exact then
          ((cutSet g).map (fun cs => noShortcut m g cs s2.primal && okFold m (lc s2.primal) g cur s2 cs)).getD true
        else true).getD true
    else true).getD true

/-- `search` drops nothing for a bad reason; mirrors `loopP`. -/
def okLoopT (m : Mdl σ) (M : Nat → Int → Mdl σ) (lc : Nat → Int → Option (σ → Ctx → Int)) (wres dfuel : Nat) (lim : Nat → Bool) : Nat → Nat → BS σ → Bool
  | 0, _, _ => true
  | f + 1, k, s =>
    if Heap.empty s.pq then true
    else
      let x := Heap.extractMax (qord m) s.pq
      let s1 := { s with pq := x.1 }
      if lim k then true
      else if m.sense.better x.2.2 s1.primal then
        okExpandP m (M k) (lc k) wres dfuel s1 x.2.1 && ((expandP m (M k) (lc k) wres dfuel s1 x.2.1).map (okLoopT m M lc wres dfuel lim f (k + 1))).getD true
      else okLoopT m M lc wres dfuel lim f (k + 1) s1

/-- The same when nothing but the primal bound changes the model. -/
def okLoopP (m : Mdl σ) (M : Int → Mdl σ) (wres dfuel : Nat) (lim : Nat → Bool) (f k : Nat) (s : BS σ) : Bool :=
  okLoopT m (fun _ => M) (fun _ p => (M p).loc) wres dfuel lim f k s

/-- The same for a model that does not depend on the primal bound. -/
def okLoop (m : Mdl σ) (wres dfuel : Nat) (lim : Nat → Bool) (f k : Nat) (s : BS σ) : Bool :=
  okLoopP m (fun _ => m) wres dfuel lim f k s

/-- Every pool node is covered. -/
def HInv (Vl : σ → Int → Prop) (m : Mdl σ) (rank : σ → Nat) (s : BS σ) : Prop :=
  ∀ i, i < s.pn → ∀ c, Vl (s.pst i) c → Cov Vl m rank s (rank (s.pst i)) (s.pbound i + c)

/-- Raising the primal bound keeps coverage and keys. -/
theorem Cov.set {s : BS σ} {v : Int} {lb : List Int} (hb : m.sense.better v s.primal = true) {ρ : Nat} {x : Int} (h : Cov Vl m rank s ρ x) :
    Cov Vl m rank (setPrimal m s v lb) ρ x := by
  rcases h with y | y
  · left
    unfold setPrimal
    rw [Sense.betterEQ_iff] at y ⊢
    rw [Sense.better_iff] at hb
    have : m.sense.pick v s.primal = v := by unfold Sense.pick; rw [if_pos (by rw [Sense.better_iff]; exact hb)]
    dsimp only
    rw [this]; omega
  · exact Or.inr y

theorem KeyOK.set {s : BS σ} {v : Int} {lb : List Int} (hb : m.sense.better v s.primal = true) (h : KeyOK Vl m s) :
    KeyOK Vl m (setPrimal m s v lb) := by
  intro i key ho c hv hbet
  refine h i key ho c hv ?_
  have : m.sense.pick v s.primal = v := by unfold Sense.pick; rw [if_pos hb]
  unfold setPrimal at hbet
  dsimp only at hbet
  rw [this] at hbet
  rw [Sense.better_iff] at hb hbet ⊢
  omega

theorem setPrimal_primal {s : BS σ} {v : Int} {lb : List Int} (hb : m.sense.better v s.primal = true) :
    (setPrimal m s v lb).primal = v := by
  unfold setPrimal Sense.pick
  dsimp only
  rw [if_pos hb]

/-- One expansion keeps every pool node covered, given that `cur`, just taken from the queue, is the
only hole. -/
theorem expand_cov {lc : Int → Option (σ → Ctx → Int)} (F : FamV Vl Wl m rank M) (V : LcOK Vl m lc) (H : LayeredV Vl m rank m.sti 0) (hD : DomRank m rank) {wres fuel : Nat}
    {s s' : BS σ} {cur : Nat} (hP : PInv m s) (hc : cur < s.pn) (hK : KeyOK Vl m s)
    (hA : ∀ i, i < s.pn → ∀ c, Vl (s.pst i) c → Cov Vl m rank s (rank (s.pst i)) (s.pbound i + c) ∨
      (rank (s.pst i) ≤ rank (s.pst cur) ∧ ∃ c', Vl (s.pst cur) c' ∧ m.sense.betterEQ (s.pbound cur + c') (s.pbound i + c) = true))
    (hok : okExpandP m M lc wres fuel s cur = true) (h : expandP m M lc wres fuel s cur = some s') : KeyOK Vl m s' ∧ HInv Vl m rank s' := by
  obtain ⟨hgen, hopen⟩ := hP.gen cur hc
  have ext : ∀ {ls : List Int} {c : Int} {t : σ}, Path m (s.pst cur) ls c t → Path m m.sti (s.plab cur ++ ls) (s.pbound cur + c) t :=
    fun hp => hgen.trans hp
  -- closing the hole is enough, when pool and queue are unchanged
  have close : ∀ t : BS σ, (∀ ρ v, Cov Vl m rank s ρ v → Cov Vl m rank t ρ v) → Grow s t →
      (∀ i, i < t.pn → i < s.pn ∨ ∀ c, Vl (t.pst i) c → Cov Vl m rank t (rank (t.pst i)) (t.pbound i + c)) →
      (∀ c, Vl (s.pst cur) c → Cov Vl m rank t (rank (s.pst cur)) (s.pbound cur + c)) → HInv Vl m rank t := by
    intro t hcov hG hnew hcur i hi c hv
    rcases hnew i hi with x | x
    · rw [hG.st i x] at hv ⊢
      rw [hG.bd i x]
      rcases hA i x c hv with y | ⟨y1, c', y2, y3⟩
      · exact hcov _ _ y
      · exact (hcur c' y2).mono y1 y3
    · exact x c hv
  unfold okExpandP at hok
  unfold expandP at h
  simp only [Option.bind_eq_some_iff] at h
  obtain ⟨g, hg, h⟩ := h
  rw [hg] at hok
  simp only [Option.map_some, Option.getD_some] at hok
  split at h
  · rename_i hbet
    rw [if_pos hbet] at hok
    obtain ⟨s1, hs1⟩ : ∃ s1, s1 = if g.exact = true then setPrimal m s (g.bound g.trg) (g.lab g.trg) else s := ⟨_, rfl⟩
    rw [← hs1] at h hok
    have h1 : PInv m s1 ∧ KeyOK Vl m s1 ∧ (∀ ρ v, Cov Vl m rank s ρ v → Cov Vl m rank s1 ρ v) ∧ Grow s s1 ∧ s1.pn = s.pn ∧
        m.sense.betterEQ s1.primal s.primal = true ∧ s1.src cur = s.src cur ∧
        (g.exact = true → ∀ c, Vl (s.pst cur) c → m.sense.betterEQ s1.primal (s.pbound cur + c) = true) := by
      rw [hs1]
      split
      · rename_i hx
        refine ⟨hP.set _ _, hK.set hbet, fun ρ v x => x.set hbet, ⟨Nat.le_refl _, fun _ _ => rfl, fun _ _ => rfl, fun _ _ => rfl⟩, rfl, ?_, rfl, ?_⟩
        · rw [setPrimal_primal hbet]
          rw [Sense.better_iff] at hbet
          rw [Sense.betterEQ_iff]; omega
        · intro _ c hv
          rw [setPrimal_primal hbet]
          by_cases hi : m.sense.better (s.pbound cur + c) s.primal = true
          · exact (F.relaxed_exact hgen hopen hg hx).2 c hv hi
          · rw [Sense.better_iff] at hi hbet
            rw [Sense.betterEQ_iff]; omega
      · rename_i hx
        exact ⟨hP, hK, fun _ _ x => x, Grow.refl _, rfl, by rw [Sense.betterEQ_iff]; omega, rfl, fun hh => absurd hh hx⟩
    obtain ⟨hP1, hK1, hC1, hG1, e5, hp1, hsrc, hx1⟩ := h1
    simp only [Option.bind_eq_some_iff] at h
    obtain ⟨r, hr, h⟩ := h
    rw [hr] at hok
    simp only [Option.map_some, Option.getD_some] at hok
    rw [hsrc] at hr
    obtain ⟨s2, hs2⟩ : ∃ s2, s2 = if m.sense.better (r.bound r.trg) s1.primal = true then setPrimal m s1 (r.bound r.trg) (r.lab r.trg) else s1 := ⟨_, rfl⟩
    rw [← hs2] at h hok
    have h2 : PInv m s2 ∧ KeyOK Vl m s2 ∧ (∀ ρ v, Cov Vl m rank s1 ρ v → Cov Vl m rank s2 ρ v) ∧ Grow s1 s2 ∧ s2.pn = s1.pn ∧
        m.sense.betterEQ s2.primal s1.primal = true ∧
        (r.exact = true → ∀ c, Vl (s.pst cur) c → m.sense.betterEQ s2.primal (s.pbound cur + c) = true) := by
      have hrx : r.exact = true → ∀ c, Vl (s.pst cur) c → m.sense.better (s.pbound cur + c) s1.primal = true →
          m.sense.betterEQ (r.bound r.trg) (s.pbound cur + c) = true := by
        intro hx c hv hi
        exact F.restricted_exact hgen hopen hr hx hv hi
      rw [hs2]
      split
      · rename_i hb2
        refine ⟨hP1.set _ _, hK1.set hb2, fun ρ v x => x.set hb2, ⟨Nat.le_refl _, fun _ _ => rfl, fun _ _ => rfl, fun _ _ => rfl⟩, rfl, ?_, ?_⟩
        · rw [setPrimal_primal hb2]
          rw [Sense.better_iff] at hb2
          rw [Sense.betterEQ_iff]; omega
        · intro hx c hv
          rw [setPrimal_primal hb2]
          by_cases hi : m.sense.better (s.pbound cur + c) s1.primal = true
          · exact hrx hx c hv hi
          · rw [Sense.better_iff] at hi hb2
            rw [Sense.betterEQ_iff]; omega
      · rename_i hb2
        refine ⟨hP1, hK1, fun _ _ x => x, Grow.refl _, rfl, by rw [Sense.betterEQ_iff]; omega, ?_⟩
        intro hx c hv
        by_cases hi : m.sense.better (s.pbound cur + c) s1.primal = true
        · have := hrx hx c hv hi
          rw [Sense.betterEQ_iff] at this ⊢
          rw [Sense.better_iff] at hb2
          omega
        · rw [Sense.better_iff] at hi
          rw [Sense.betterEQ_iff]; omega
    obtain ⟨hP2, hK2, hC2, hG2, i5, hp2, hx2⟩ := h2
    have hC : ∀ ρ v, Cov Vl m rank s ρ v → Cov Vl m rank s2 ρ v := fun ρ v x => hC2 ρ v (hC1 ρ v x)
    have hG := hG1.trans hG2
    have hpp : m.sense.k s.primal ≤ m.sense.k s2.primal := by
      rw [Sense.betterEQ_iff] at hp1 hp2; omega
    split at h
    · rename_i hcond
      rw [if_pos hcond] at hok
      simp only [Option.map_eq_some_iff] at h
      obtain ⟨cs, hcs, rfl⟩ := h
      rw [hcs] at hok
      simp only [Option.map_some, Option.getD_some, Bool.and_eq_true] at hok
      obtain ⟨hroot, cs', hcs', _, hk, hcov⟩ := cut_factsP F hgen hopen hg
      rw [hcs] at hcs'
      simp at hcs'
      subst hcs'
      have hfacts : ∀ n, n ∈ cs → Path m m.sti (g.lab n) (g.bound n) (g.st n) ∧ m.eqs (g.st n) = false ∧ (n ≠ g.root → rank (s.pst cur) < rank (g.st n)) ∧
          ∀ c, Vl (g.st n) c → m.sense.better (g.bound n + c) s2.primal = true → m.sense.betterEQ (g.bb n) c = true := by
        intro n hn
        obtain ⟨b1, ⟨ls, c, b2, b3, b4⟩, b5, b6⟩ := hk n hn
        refine ⟨?_, b1, b5, ?_⟩
        · rw [b2, b3]; exact ext b4
        · intro c hv hb
          refine b6 c hv ?_
          rw [Sense.better_iff] at hb ⊢
          omega
      have hlcs : ∀ n, n ∈ cs → ∀ f, lc s2.primal = some f → ∀ c, Vl (g.st n) c → m.sense.better (g.bound n + c) s2.primal = true →
          m.sense.betterEQ (f (g.st n) .bb) c = true := by
        intro n hn f hf c hv hb
        obtain ⟨q1, q2, _⟩ := hfacts n hn
        exact V _ f hf _ _ _ c q1 q2 hv hb
      have hpool : ∀ o, o < s2.pn → rank (s.pst cur) < rank (s2.pst o) → ∀ c, Vl (s2.pst o) c → Cov Vl m rank s2 (rank (s2.pst o)) (s2.pbound o + c) := by
        intro o ho hr c hv
        have ho' : o < s.pn := by omega
        rw [hG.st o ho'] at hr hv ⊢
        rw [hG.bd o ho']
        rcases hA o ho' c hv with y | ⟨y1, _⟩
        · exact hC _ _ y
        · omega
      obtain ⟨a1, a2, a3, a4⟩ := cutFold_cov (ρ0 := rank (s.pst cur)) H hD cs hP2 hK2 hok.2 hfacts hlcs hpool
      obtain ⟨_, g2, r2, _⟩ := cutFold_inv (cur := cur) cs hP2 (fun k hk => ⟨(hfacts k hk).1, (hfacts k hk).2.1⟩)
      refine ⟨a1, close _ (fun ρ v x => a2 ρ v (hC ρ v x)) (hG.trans g2) ?_ ?_⟩
      · intro i hi
        rcases a4 i hi with x | ⟨k, k1, k2, k3⟩
        · exact Or.inl (by omega)
        · right
          intro c hv
          rw [k2] at hv ⊢
          rw [k3]
          exact a3 k k1 c hv
      · intro c hv
        by_cases hi : m.sense.better (s.pbound cur + c) s.primal = true
        · rcases hcov c hv hi with ⟨k, c', k1, k2, k3⟩ | ⟨e, e1, e2, e3, e4⟩
          · refine (a3 k k1 c' k2).mono ?_ k3
            by_cases hkr : k = g.root
            · rw [hkr, hroot]; exact Nat.le_refl _
            · exact Nat.le_of_lt ((hfacts k k1).2.2.1 hkr)
          · left
            rw [r2.primal]
            have := hok.1
            unfold noShortcut at this
            rw [List.all_eq_true] at this
            have := this e e1
            rw [e2] at this
            simp only [Bool.true_and, Bool.not_eq_true', Bool.and_eq_false_iff, Bool.not_eq_false', List.contains_iff_mem] at this
            rcases this with x | x
            · exact absurd x e3
            · rw [Sense.better_false] at x
              rw [Sense.betterEQ_iff] at e4 ⊢
              have e4' : m.sense.k (s.pbound cur + c) ≤ m.sense.k (g.bound (g.es e) + g.eo e) := e4
              omega
        · left
          rw [r2.primal]
          rw [Sense.better_iff] at hi
          rw [Sense.betterEQ_iff]; omega
    · rename_i hcond
      simp at h
      subst h
      refine ⟨hK2, close _ hC hG (fun i hi => Or.inl (by omega)) ?_⟩
      intro c hv
      left
      by_cases hrx : r.exact = true
      · exact hx2 hrx c hv
      · have hgx : g.exact = true := by
          cases hge : g.exact with
          | true => rfl
          | false =>
            exfalso; apply hcond
            simp at hrx
            rw [hrx, hge]; rfl
        have := hx1 hgx c hv
        rw [Sense.betterEQ_iff] at this hp2 ⊢
        omega
  · rename_i hbet
    simp at h
    subst h
    refine ⟨hK, close s (fun _ _ x => x) (Grow.refl _) (fun i hi => Or.inl hi) ?_⟩
    intro c hv
    left
    by_cases hi : m.sense.better (s.pbound cur + c) s.primal = true
    · exfalso
      have := F.relaxed_dual hgen hopen hg hv hi
      rw [Sense.better_iff] at hbet hi
      rw [Sense.betterEQ_iff] at this
      have this' : m.sense.k (s.pbound cur + c) ≤ m.sense.k (g.bound g.trg) := this
      omega
    · rw [Sense.better_iff] at hi
      rw [Sense.betterEQ_iff]; omega

theorem loop_cov {Wl : Nat → Int → σ → Int → Prop} {M : Nat → Int → Mdl σ} {lc : Nat → Int → Option (σ → Ctx → Int)} (F : ∀ k, FamV Vl (Wl k) m rank (M k)) (V : ∀ k, LcOK Vl m (lc k)) (H : LayeredV Vl m rank m.sti 0) (hD : DomRank m rank) {p0 : Int} (hp0 : m.sense.betterEQ p0 m.sense.best0 = true)
    {wres dfuel : Nat} {lim : Nat → Bool} :
    ∀ (f k : Nat) (s s' : BS σ), PInv m s → TInv m p0 s → KeyOK Vl m s → HInv Vl m rank s →
      okLoopT m M lc wres dfuel lim f k s = true → loopP m M lc wres dfuel lim f k s = some s' → s'.stopped = true ∨
      ∀ c, Vl m.sti c → m.sense.betterEQ s'.primal c = true := by
  intro f
  induction f with
  | zero => intro k s s' _ _ _ _ _ h; simp [loopP] at h
  | succ f ih =>
    intro k s s' hP hT hK hH hok h
    unfold loopP at h
    unfold okLoopT at hok
    dsimp only at h hok
    by_cases he : Heap.empty s.pq = true
    · rw [if_pos he] at h
      simp at h; subst h
      right
      intro c hs
      have hv : Vl (s.pst 0) c := by rw [hP.root.1]; exact hs
      rcases hH 0 hP.pos c hv with x | ⟨i, key, c', ⟨l, ⟨j, j1, j2, _⟩, _⟩, _⟩
      · rw [hP.root.2, Int.zero_add] at x; exact x
      · exfalso
        simp [Heap.empty] at he
        omega
    · rw [if_neg he] at h hok
      obtain ⟨a1, a2, a3, _, a5, a6⟩ := hP.extract (by simpa using he)
      have hT1 : TInv m p0 { s with pq := (Heap.extractMax (qord m) s.pq).1 } := hT.congr ⟨rfl, rfl, rfl, rfl⟩
      have hK1 : KeyOK Vl m { s with pq := (Heap.extractMax (qord m) s.pq).1 } := fun i key ho => hK i key (a6 i key ho)
      have hA : ∀ i, i < s.pn → ∀ c, Vl (s.pst i) c →
          Cov Vl m rank { s with pq := (Heap.extractMax (qord m) s.pq).1 } (rank (s.pst i)) (s.pbound i + c) ∨
          (rank (s.pst i) ≤ rank (s.pst (Heap.extractMax (qord m) s.pq).2.1) ∧
            ∃ c', Vl (s.pst (Heap.extractMax (qord m) s.pq).2.1) c' ∧
              m.sense.betterEQ (s.pbound (Heap.extractMax (qord m) s.pq).2.1 + c') (s.pbound i + c) = true) := by
        intro i hi c hv
        rcases hH i hi c hv with x | ⟨j, key, c', x1, x2, x3, x4⟩
        · exact Or.inl (Or.inl x)
        · rcases a5 j key x1 with y | y
          · exact Or.inl (Or.inr ⟨j, key, c', y, x2, x3, x4⟩)
          · right
            rw [← y]
            exact ⟨x2, c', x3, x4⟩
      split at h
      · simp at h; subst h
        exact Or.inl rfl
      · rename_i hl
        rw [if_neg hl] at hok
        split at h
        · rename_i hb
          rw [if_pos hb] at hok
          simp only [Option.bind_eq_some_iff] at h
          obtain ⟨s2, h2, h3⟩ := h
          simp only [Bool.and_eq_true] at hok
          rw [h2] at hok
          simp only [Option.map_some, Option.getD_some] at hok
          obtain ⟨b1, b2, _⟩ := expand_inv (F k) hp0 a1 hT1 a2 h2
          obtain ⟨c1, c2⟩ := expand_cov (F k) (V k) H hD a1 a2 hK1 hA hok.1 h2
          exact ih _ _ _ b1 b2 c1 c2 hok.2 h3
        · rename_i hb
          rw [if_neg hb] at hok
          refine ih _ _ _ a1 hT1 hK1 ?_ hok h
          intro i hi c hv
          rcases hA i hi c hv with x | ⟨x1, c', x2, x3⟩
          · exact x
          · left
            have hb' : ¬ m.sense.better (Heap.extractMax (qord m) s.pq).2.2 s.primal = true := hb
            show m.sense.betterEQ s.primal _ = true
            rw [Sense.better_iff] at hb'
            rw [Sense.betterEQ_iff] at x3 ⊢
            show m.sense.k (s.pbound i + c) ≤ _
            apply Classical.byContradiction
            intro hh
            have := hK _ _ a3 c' x2 (by rw [Sense.better_iff]; omega)
            rw [Sense.betterEQ_iff] at this
            omega

end Verif.BB
