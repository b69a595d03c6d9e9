import Verif.Fam
/-!
# Invariants of the branch-and-bound search
-/
namespace Verif.BB
open Verif.DD
set_option linter.unusedSectionVars false
variable {σ : Type} {m : Mdl σ} {rank : σ → Nat} {M : Int → Mdl σ} {Vl : σ → Int → Prop} {Wl : Int → σ → Int → Prop} [Same σ]

theorem qord_swo (m : Mdl σ) : Heap.SWO (qord m) where
  asymm := by
    intro a b h
    simp only [qord, Sense.better_iff] at h ⊢
    omega
  ntrans := by
    intro a b c h1 h2
    simp only [qord, Sense.better_iff] at h1 h2 ⊢
    omega

theorem path_rank {s0 : σ} {v0 : Int} (H : LayeredV Vl m rank s0 v0) {s t : σ} {ls : List Int} {c : Int}
    (hp : Path m s ls c t) : ∀ v, Relx m rank s0 v0 s v → m.eqs t = false → rank t = rank s + ls.length := by
  induction hp with
  | nil => intros; simp
  | @cons s s' t l ls c hs hp' ih =>
    intro v hr hq
    have h1 := ih _ (hr.step hs) hq
    have h2 : m.eqs s' = false := by
      cases hp' with
      | nil => exact hq
      | cons hs' _ => exact hs'.1
    rcases H.step _ _ _ _ hr hs with x | x
    · rw [h2] at x; simp at x
    · simp only [List.length_cons]; omega

theorem path_nil {s t : σ} {c : Int} (h : Path m s [] c t) : s = t := by
  cases h; rfl

/-- What the cut set of a relaxed diagram gives the search. -/
theorem cut_facts {r : Src σ} {prim : Int} (H : LayeredV Vl m rank r.st r.bound) {w f : Nat} {g : G σ}
    (h : relaxed m prim w f r = some g) : g.st g.root = r.st ∧ ∃ cs, cutSet g = some cs ∧ cs.Nodup ∧
    (∀ k, k ∈ cs → m.eqs (g.st k) = false ∧
      (∃ ls c, g.lab k = r.lab ++ ls ∧ g.bound k = r.bound + c ∧ Path m r.st ls c (g.st k)) ∧
      (k ≠ g.root → rank r.st < rank (g.st k)) ∧
      ∀ c, Vl (g.st k) c → m.sense.better (g.bound k + c) prim = true → m.sense.betterEQ (g.bb k) c = true) ∧
    ∀ c, Vl r.st c → m.sense.better (r.bound + c) prim = true →
      (∃ k c', k ∈ cs ∧ Vl (g.st k) c' ∧ m.sense.betterEQ (g.bound k + c') (r.bound + c) = true) ∨
      (∃ e, e ∈ g.par g.trg ∧ g.ex (g.es e) = true ∧ g.es e ∉ cs ∧ m.sense.betterEQ (g.bound (g.es e) + g.eo e) (r.bound + c) = true) := by
  obtain ⟨cs, h1, h2, h3, h4⟩ := cutset_coversV H h
  obtain ⟨g0, F⟩ := relaxed_facts H h
  obtain ⟨V, cs', h1', C⟩ := relaxed_cut F
  rw [h1] at h1'
  simp at h1'
  subst h1'
  obtain ⟨f1, f2, f3, f4, f5, f6, f7, f8, f9, f10, f11, f12, f13, f14⟩ := F.fields
  obtain ⟨d, p, hinv⟩ := F.fin
  refine ⟨by rw [f1, f10]; exact hinv.st0, cs, h1, h3, ?_, ?_⟩
  · intro k hk
    obtain ⟨a, b, c⟩ := h2 k hk
    have hq : m.eqs (g.st k) = false := by
      have := ((C.csm k).1 hk).2
      unfold allKidsExact at this
      cases hkk : g.kids k with
      | nil => rw [hkk] at this; simp at this
      | cons e l =>
        have : e ∈ g0.kids k := by rw [← f3, hkk]; simp
        obtain ⟨e1, e2⟩ := (hinv.kids k e).1 this
        rw [f1, ← e2]
        exact (hinv.esrc e e1).2.1
    have hgen := relaxed_exact_nodes H h a b c
    refine ⟨hq, hgen, ?_, ?_⟩
    · intro hkr
      obtain ⟨ls, c', _, _, hp⟩ := hgen
      have := path_rank H hp _ Relx.root hq
      cases ls with
      | nil =>
        exfalso
        apply hkr
        rw [f10]
        have hlt : k < g0.nn := by
          have := C.lt k ((C.csm k).1 hk).1
          rwa [f12] at this
        exact hinv.inj k 0 hlt (by have := hinv.two; omega) (by rw [hinv.st0, ← f1, path_nil hp]; exact H.fair.refl _)
      | cons l ls => simp only [List.length_cons] at this; omega
    · intro v hp hi
      exact backward_validV H h a b hq hp hi
  · exact h4

/-- `cut_facts` for a model that reads the primal bound, in terms of the problem. -/
theorem cut_factsP (F : FamV Vl Wl m rank M) {r : Src σ} {prim : Int} (hp : Path m m.sti r.lab r.bound r.st) (hq : m.eqs r.st = false)
    {w f : Nat} {g : G σ} (h : relaxed (M prim) prim w f r = some g) : g.st g.root = r.st ∧ ∃ cs, cutSet g = some cs ∧ cs.Nodup ∧
    (∀ k, k ∈ cs → m.eqs (g.st k) = false ∧
      (∃ ls c, g.lab k = r.lab ++ ls ∧ g.bound k = r.bound + c ∧ Path m r.st ls c (g.st k)) ∧
      (k ≠ g.root → rank r.st < rank (g.st k)) ∧
      ∀ c, Vl (g.st k) c → m.sense.better (g.bound k + c) prim = true → m.sense.betterEQ (g.bb k) c = true) ∧
    ∀ c, Vl r.st c → m.sense.better (r.bound + c) prim = true →
      (∃ k c', k ∈ cs ∧ Vl (g.st k) c' ∧ m.sense.betterEQ (g.bound k + c') (r.bound + c) = true) ∨
      (∃ e, e ∈ g.par g.trg ∧ g.ex (g.es e) = true ∧ g.es e ∉ cs ∧ m.sense.betterEQ (g.bound (g.es e) + g.eo e) (r.bound + c) = true) := by
  obtain ⟨h1, cs, h2, h3, h4, h5⟩ := cut_facts (F.lay prim _ _ _ hp hq) h
  refine ⟨h1, cs, h2, h3, ?_, ?_⟩
  · intro k hk
    obtain ⟨a, ⟨ls, c, b1, b2, b3⟩, d, e⟩ := h4 k hk
    rw [F.eqs] at a
    have b3 := F.path b3
    refine ⟨a, ⟨ls, c, b1, b2, b3⟩, d, fun c' hv hi => ?_⟩
    have hg := hp.trans b3
    rw [← b1, ← b2] at hg
    have := e c' (F.keep prim _ _ _ _ hg hv hi) (by rw [F.sense]; exact hi)
    rwa [F.sense] at this
  · intro c hv hi
    rcases h5 c (F.keep prim _ _ _ _ hp hv hi) (by rw [F.sense]; exact hi) with ⟨k, c', a, b, d⟩ | ⟨e, a, b, d, i⟩
    · rw [F.sense] at d
      exact Or.inl ⟨k, c', a, F.back _ _ _ b, d⟩
    · rw [F.sense] at i
      exact Or.inr ⟨e, a, b, d, i⟩

/-! ### Pool and queue -/

/-- `(i, key)` waits in the queue. -/
def Opn (s : BS σ) (i : Nat) (key : Int) : Prop := ∃ l, Heap.Live s.pq l ∧ s.pq.val l = (i, key)

/-- Pool nodes are genuine and have pairwise different states; the queue refers to them. -/
structure PInv (m : Mdl σ) (s : BS σ) : Prop where
  wf : Heap.WF s.pq
  ord : Heap.Ordered (qord m) s.pq
  pos : 0 < s.pn
  root : s.pst 0 = m.sti ∧ s.pbound 0 = 0
  idx : ∀ i key, Opn s i key → i < s.pn
  gen : ∀ i, i < s.pn → Path m m.sti (s.plab i) (s.pbound i) (s.pst i) ∧ m.eqs (s.pst i) = false
  inj : ∀ i j, i < s.pn → j < s.pn → s.pst i = s.pst j → i = j
  uq : Uniq m m.sti

theorem PInv.layered (H : LayeredV Vl m rank m.sti 0) {s : BS σ} (h : PInv m s) {i : Nat} (hi : i < s.pn) :
    Relx m rank m.sti 0 (s.pst i) (s.pbound i) ∧ LayeredV Vl m rank (s.src i).st (s.src i).bound := by
  obtain ⟨a, b⟩ := h.gen i hi
  have hr : Relx m rank m.sti 0 (s.pst i) (s.pbound i) := by
    have := a.relx (rank := rank) (v0 := 0) Relx.root
    rwa [Int.zero_add] at this
  refine ⟨hr, ?_⟩
  have := H.of_path a b
  rwa [Int.zero_add] at this

theorem findPool_some {s : BS σ} {x : σ} {o : Nat} (h : findPool s x = some o) : o < s.pn ∧ Same.same (s.pst o) x = true := by
  unfold findPool at h
  have h1 := List.find?_some h
  have h2 := List.mem_of_find?_eq_some h
  simp at h1 h2
  exact ⟨h2, h1⟩

theorem findPool_none (hU : Uniq m m.sti) {s : BS σ} {x : σ} (h : findPool s x = none) : ∀ i, i < s.pn → s.pst i ≠ x := by
  unfold findPool at h
  rw [List.find?_eq_none] at h
  intro i hi he
  exact h i (by simp [hi]) (by rw [he]; exact hU.refl x)

/-- Removing a set of live handles. -/
theorem removes (m : Mdl σ) : ∀ (ls : List Nat) (h : Heap.H (Nat × Int)), Heap.WF h → Heap.Ordered (qord m) h → ls.Nodup →
    (∀ l, l ∈ ls → Heap.Live h l) →
    ∃ h', ls.foldl (fun h l => (Heap.remove (qord m) h l).1) h = h' ∧ Heap.WF h' ∧ Heap.Ordered (qord m) h' ∧ h'.val = h.val ∧
      (∀ k, Heap.Live h' k ↔ Heap.Live h k ∧ k ∉ ls) ∧ h'.at_ = h.at_ - ls.length := by
  intro ls
  induction ls with
  | nil => intro h w o _ _; exact ⟨h, rfl, w, o, rfl, by simp, by simp⟩
  | cons l ls ih =>
    intro h w o hn hl
    rw [List.nodup_cons] at hn
    obtain ⟨a1, a2, _, a4, a5, a6⟩ := Heap.remove_spec (qord_swo m) w o (hl l (by simp))
    obtain ⟨h', b1, b2, b3, b4, b5, b6⟩ := ih _ a1 a2 hn.2 (fun k hk => (a4 k).2 ⟨hl k (by simp [hk]), by intro hh; exact hn.1 (hh ▸ hk)⟩)
    refine ⟨h', b1, b2, b3, b4.trans a5, ?_, by rw [b6, a6]; simp only [List.length_cons]; omega⟩
    intro k
    rw [b5, a4]
    simp only [List.mem_cons, not_or]
    constructor
    · rintro ⟨⟨x, y⟩, z⟩; exact ⟨x, y, z⟩
    · rintro ⟨x, y, z⟩; exact ⟨⟨x, y⟩, z⟩

/-- The handles a scan returns are dominated by the new node; a positive answer names a queue node
that dominates it and is not one of them. -/
theorem domScan_spec (m : Mdl σ) (sd : σ → σ → Bool) (s : BS σ) (st : σ) (bd : Int) : ∀ (ls acc : List Nat), (acc ++ ls).Nodup →
    (∀ l, l ∈ acc → m.sense.betterEQ bd (s.pbound (s.pq.val l).1) = true ∧ sd st (s.pst (s.pq.val l).1) = true) →
    ((domScan m sd s st bd ls acc).2.Nodup ∧ (∀ l, l ∈ (domScan m sd s st bd ls acc).2 → l ∈ acc ++ ls) ∧
    (∀ l, l ∈ (domScan m sd s st bd ls acc).2 → m.sense.betterEQ bd (s.pbound (s.pq.val l).1) = true ∧ sd st (s.pst (s.pq.val l).1) = true) ∧
    ((domScan m sd s st bd ls acc).1 = true → ∃ l, l ∈ ls ∧ l ∉ (domScan m sd s st bd ls acc).2 ∧
      m.sense.betterEQ (s.pbound (s.pq.val l).1) bd = true ∧ sd (s.pst (s.pq.val l).1) st = true)) := by
  intro ls
  induction ls with
  | nil =>
    intro acc hn ha
    simp only [domScan]
    exact ⟨by simpa using hn, by simp, ha, by simp⟩
  | cons l ls ih =>
    intro acc hn ha
    have hla : l ∉ acc := by
      rw [List.nodup_append] at hn
      intro hh
      exact hn.2.2 l hh l (by simp) rfl
    have hn1 : (acc ++ ls).Nodup := by
      refine hn.sublist ?_
      exact List.Sublist.append (List.Sublist.refl _) (List.sublist_cons_self _ _)
    unfold domScan
    dsimp only
    split
    · rename_i hc
      simp only [Bool.and_eq_true] at hc
      refine ⟨?_, ?_, ha, ?_⟩
      · rw [List.nodup_append] at hn; exact hn.1
      · intro x hx; simp [hx]
      · intro _
        exact ⟨l, by simp, hla, hc.1, hc.2⟩
    · split
      · rename_i hc
        simp only [Bool.and_eq_true] at hc
        obtain ⟨i1, i2, i3, i4⟩ := ih (acc ++ [l]) (by rw [List.append_assoc]; exact hn) (by
          intro x hx
          simp only [List.mem_append, List.mem_singleton] at hx
          rcases hx with x1 | x1
          · exact ha x x1
          · rw [x1]; exact hc)
        refine ⟨i1, ?_, i3, ?_⟩
        · intro x hx
          have := i2 x hx
          rw [List.append_assoc] at this
          exact this
        · intro hh
          obtain ⟨k, k1, k2⟩ := i4 hh
          exact ⟨k, by simp [k1], k2⟩
      · obtain ⟨i1, i2, i3, i4⟩ := ih acc hn1 ha
        refine ⟨i1, ?_, i3, ?_⟩
        · intro x hx
          have := i2 x hx
          simp only [List.mem_append, List.mem_cons] at this ⊢
          rcases this with y | y
          · exact Or.inl y
          · exact Or.inr (Or.inr y)
        · intro hh
          obtain ⟨k, k1, k2⟩ := i4 hh
          exact ⟨k, by simp [k1], k2⟩

/-- Outcome of the dominance part. -/
theorem domStep_spec {s : BS σ} (h : PInv m s) (st : σ) (bd : Int) :
    ∃ q', (domStep m s st bd).2 = { s with pq := q' } ∧ Heap.WF q' ∧ Heap.Ordered (qord m) q' ∧ q'.val = s.pq.val ∧
      q'.at_ ≤ s.pq.at_ ∧ (∀ l, Heap.Live q' l → Heap.Live s.pq l) ∧ (q'.at_ = s.pq.at_ → q' = s.pq) ∧
      (∀ l, Heap.Live s.pq l → ¬ Heap.Live q' l → ∃ sd, m.sdom = some sd ∧
        m.sense.betterEQ bd (s.pbound (s.pq.val l).1) = true ∧ sd st (s.pst (s.pq.val l).1) = true) ∧
      ((domStep m s st bd).1 = true → ∃ sd l, m.sdom = some sd ∧ Heap.Live q' l ∧
        m.sense.betterEQ (s.pbound (s.pq.val l).1) bd = true ∧ sd (s.pst (s.pq.val l).1) st = true) := by
  unfold domStep
  cases hs : m.sdom with
  | none =>
    exact ⟨s.pq, rfl, h.wf, h.ord, rfl, Nat.le_refl _, fun _ x => x, fun _ => rfl, fun l a b => absurd a b, by simp⟩
  | some sd =>
    dsimp only
    obtain ⟨a1, a2, a3, a4⟩ := domScan_spec m sd s st bd (Heap.locs s.pq) [] (by simpa using Heap.nodup_locs h.wf) (by simp)
    obtain ⟨h', b1, b2, b3, b4, b5, b6⟩ := removes m _ s.pq h.wf h.ord a1 (fun l hl => (Heap.mem_locs l).1 (by simpa using a2 l hl))
    refine ⟨h', by rw [b1], b2, b3, b4, by rw [b6]; omega, fun l hl => ((b5 l).1 hl).1, ?_, ?_, ?_⟩
    · intro hh
      have := h.wf.one_le
      have hz : (domScan m sd s st bd (Heap.locs s.pq) []).2 = [] := by
        apply List.eq_nil_of_length_eq_zero
        omega
      rw [← b1, hz]
      rfl
    · intro l hl hn
      have : l ∈ (domScan m sd s st bd (Heap.locs s.pq) []).2 := by
        apply Classical.byContradiction
        intro hh; exact hn ((b5 l).2 ⟨hl, hh⟩)
      exact ⟨sd, rfl, a3 l this⟩
    · intro hh
      obtain ⟨l, l1, l2, l3, l4⟩ := a4 hh
      exact ⟨sd, l, rfl, (b5 l).2 ⟨(Heap.mem_locs l).1 l1, l2⟩, l3, l4⟩

/-! ### One cut-set node -/

/-- `s'` has the pool nodes of `s`, and maybe more. -/
structure Grow (s s' : BS σ) : Prop where
  le : s.pn ≤ s'.pn
  st : ∀ i, i < s.pn → s'.pst i = s.pst i
  bd : ∀ i, i < s.pn → s'.pbound i = s.pbound i
  lab : ∀ i, i < s.pn → s'.plab i = s.plab i

theorem Grow.refl (s : BS σ) : Grow s s := ⟨Nat.le_refl _, fun _ _ => rfl, fun _ _ => rfl, fun _ _ => rfl⟩

theorem Grow.trans {a b c : BS σ} (h1 : Grow a b) (h2 : Grow b c) : Grow a c :=
  ⟨Nat.le_trans h1.le h2.le, fun i hi => (h2.st i (Nat.lt_of_lt_of_le hi h1.le)).trans (h1.st i hi),
   fun i hi => (h2.bd i (Nat.lt_of_lt_of_le hi h1.le)).trans (h1.bd i hi),
   fun i hi => (h2.lab i (Nat.lt_of_lt_of_le hi h1.le)).trans (h1.lab i hi)⟩

theorem PInv.sub {s : BS σ} (h : PInv m s) {q' : Heap.H (Nat × Int)} (h1 : Heap.WF q') (h2 : Heap.Ordered (qord m) q')
    (h3 : q'.val = s.pq.val) (h4 : ∀ l, Heap.Live q' l → Heap.Live s.pq l) : PInv m { s with pq := q' } where
  wf := h1
  ord := h2
  pos := h.pos
  root := h.root
  idx := by
    rintro i key ⟨l, l1, l2⟩
    dsimp only at l1 l2
    rw [h3] at l2
    exact h.idx i key ⟨l, h4 l l1, l2⟩
  gen := h.gen
  inj := h.inj
  uq := h.uq

theorem clone_grow (s : BS σ) (st : σ) (lb : List Int) (bd bb : Int) : Grow s (clone s st lb bd bb) where
  le := by simp [clone]
  st := fun i hi => by simp only [clone]; rw [upd_ne _ _ (by omega)]
  bd := fun i hi => by simp only [clone]; rw [upd_ne _ _ (by omega)]
  lab := fun i hi => by simp only [clone]; rw [upd_ne _ _ (by omega)]

theorem PInv.clone {s : BS σ} (h : PInv m s) {st : σ} {lb : List Int} {bd : Int} (bb : Int)
    (hp : Path m m.sti lb bd st) (hq : m.eqs st = false) (hn : ∀ i, i < s.pn → s.pst i ≠ st) :
    PInv m (clone s st lb bd bb) where
  uq := h.uq
  wf := h.wf
  ord := h.ord
  pos := by simp [BB.clone]
  root := by
    have := h.pos
    have G := clone_grow s st lb bd bb
    exact ⟨(G.st 0 this).trans h.root.1, (G.bd 0 this).trans h.root.2⟩
  idx := fun i key ho => Nat.lt_succ_of_lt (h.idx i key ho)
  gen := by
    intro i hi
    by_cases hin : i < s.pn
    · have G := clone_grow s st lb bd bb
      rw [G.st i hin, G.bd i hin, G.lab i hin]; exact h.gen i hin
    · have : i = s.pn := by simp [BB.clone] at hi; omega
      subst this
      simp only [BB.clone, upd_same]
      exact ⟨hp, hq⟩
  inj := by
    intro i j hi hj hij
    simp only [BB.clone] at hi hj hij
    by_cases hin : i = s.pn
    · by_cases hjn : j = s.pn
      · omega
      · rw [hin, upd_same, upd_ne _ _ hjn] at hij
        exact absurd hij.symm (hn j (by omega))
    · by_cases hjn : j = s.pn
      · rw [hjn, upd_same, upd_ne _ _ hin] at hij
        exact absurd hij (hn i (by omega))
      · rw [upd_ne _ _ hin, upd_ne _ _ hjn] at hij
        exact h.inj i j (by omega) (by omega) hij

theorem opn_ins {s : BS σ} (h : PInv m s) (x : Nat × Int) (i : Nat) (key : Int) :
    Opn { s with pq := (Heap.insertHeap (qord m) s.pq x).1 } i key ↔ Opn s i key ∨ (i, key) = x := by
  obtain ⟨a1, a2, a3, a4, a5, a6, a7⟩ := Heap.insertHeap_spec (qord_swo m) h.wf h.ord x
  constructor
  · rintro ⟨l, l1, l2⟩
    dsimp only at l1 l2
    rcases (a4 l).1 l1 with y | y
    · left; rw [a6 l y] at l2; exact ⟨l, y, l2⟩
    · right; rw [y, a5] at l2; exact l2.symm
  · rintro (⟨l, l1, l2⟩ | rfl)
    · exact ⟨l, (a4 l).2 (Or.inl l1), by dsimp only; rw [a6 l l1]; exact l2⟩
    · exact ⟨_, (a4 _).2 (Or.inr rfl), a5⟩

theorem PInv.ins {s : BS σ} (h : PInv m s) {i : Nat} (hi : i < s.pn) (key : Int) :
    PInv m { s with pq := (Heap.insertHeap (qord m) s.pq (i, key)).1 } where
  wf := (Heap.insertHeap_spec (qord_swo m) h.wf h.ord _).1
  ord := (Heap.insertHeap_spec (qord_swo m) h.wf h.ord _).2.1
  pos := h.pos
  root := h.root
  idx := by
    intro j k ho
    rcases (opn_ins h _ j k).1 ho with x | x
    · exact h.idx j k x
    · simp at x; rw [x.1]; exact hi
  gen := h.gen
  inj := h.inj
  uq := h.uq

/-- Everything but pool, queue, width and log is left alone. -/
structure Rest (s s' : BS σ) : Prop where
  primal : s'.primal = s.primal
  inc : s'.inc = s.inc
  sols : s'.sols = s.sols
  stopped : s'.stopped = s.stopped

/-- A cut-set node keeps the pool sound; a queue entry is only added together with a pool node. -/
theorem cutStep_inv {lc : Option (σ → Ctx → Int)} {g : G σ} {cur : Nat} {s0 : BS σ} {n : Nat} (h : PInv m s0)
    (hp : Path m m.sti (g.lab n) (g.bound n) (g.st n)) (hq : m.eqs (g.st n) = false) :
    PInv m (cutStep m lc g cur s0 n) ∧ Grow s0 (cutStep m lc g cur s0 n) ∧ Rest s0 (cutStep m lc g cur s0 n) ∧
    (cutStep m lc g cur s0 n).pq.at_ + s0.pn ≤ s0.pq.at_ + (cutStep m lc g cur s0 n).pn ∧
    ∀ i, i < (cutStep m lc g cur s0 n).pn → i < s0.pn ∨ ((cutStep m lc g cur s0 n).pst i = g.st n ∧ (cutStep m lc g cur s0 n).pbound i = g.bound n) := by
  unfold cutStep
  dsimp only
  generalize hs : (if n = g.root then { s0 with wrel := s0.wrel + 1 } else s0) = s
  have hP : PInv m s := by
    rw [← hs]; split
    · exact ⟨h.wf, h.ord, h.pos, h.root, h.idx, h.gen, h.inj, h.uq⟩
    · exact h
  have hG : Grow s0 s := by
    rw [← hs]; split
    · exact ⟨Nat.le_refl _, fun _ _ => rfl, fun _ _ => rfl, fun _ _ => rfl⟩
    · exact Grow.refl _
  have hR : Rest s0 s := by
    rw [← hs]; split <;> exact ⟨rfl, rfl, rfl, rfl⟩
  have hn : s.pn = s0.pn := by rw [← hs]; split <;> rfl
  have hpq : s.pq = s0.pq := by rw [← hs]; split <;> rfl
  split
  · obtain ⟨q', d1, d2, d3, d4, d5, d6, _, _, _⟩ := domStep_spec hP (g.st n) (g.bound n)
    have hP1 := hP.sub d2 d3 d4 d6
    generalize hdd : domStep m s (g.st n) (g.bound n) = D at *
    obtain ⟨b, s1⟩ := D
    dsimp only at d1
    subst d1
    cases b with
    | true =>
      dsimp only
      refine ⟨⟨hP1.wf, hP1.ord, hP1.pos, hP1.root, hP1.idx, hP1.gen, hP1.inj, hP1.uq⟩, ⟨hG.le, hG.st, hG.bd, hG.lab⟩, ⟨hR.primal, hR.inc, hR.sols, hR.stopped⟩, ?_, fun i hi => Or.inl (by rw [← hn]; exact hi)⟩
      rw [hn, ← hpq]; omega
    | false =>
      dsimp only
      cases hf : findPool { s with pq := q' } (g.st n) with
      | some o =>
        dsimp only
        refine ⟨⟨hP1.wf, hP1.ord, hP1.pos, hP1.root, hP1.idx, hP1.gen, hP1.inj, hP1.uq⟩, ⟨hG.le, hG.st, hG.bd, hG.lab⟩, ⟨hR.primal, hR.inc, hR.sols, hR.stopped⟩, ?_, fun i hi => Or.inl (by rw [← hn]; exact hi)⟩
        rw [hn, ← hpq]; omega
      | none =>
        dsimp only
        have hP2 := hP1.clone (g.bb n) hp hq (findPool_none hP.uq hf)
        have hG2 := hG.trans (clone_grow s (g.st n) (g.lab n) (g.bound n) (g.bb n))
        split
        · have hP3 := hP2.ins (i := s.pn) (by simp [clone])
            (insKey lc g n)
          refine ⟨⟨hP3.wf, hP3.ord, hP3.pos, hP3.root, hP3.idx, hP3.gen, hP3.inj, hP3.uq⟩, ⟨hG2.le, hG2.st, hG2.bd, hG2.lab⟩, ⟨hR.primal, hR.inc, hR.sols, hR.stopped⟩, ?_,  fun i hi => by
            have hi : i < s.pn + 1 := hi
            by_cases hx : i = s.pn
            · right; subst hx; simp [clone]
            · left; omega⟩
          dsimp only
          rw [(Heap.insertHeap_spec (qord_swo m) hP2.wf hP2.ord _).2.2.2.2.2.2]
          show q'.at_ + 1 + _ ≤ _ + (s.pn + 1)
          rw [← hpq]; omega
        · refine ⟨⟨hP2.wf, hP2.ord, hP2.pos, hP2.root, hP2.idx, hP2.gen, hP2.inj, hP2.uq⟩, ⟨hG2.le, hG2.st, hG2.bd, hG2.lab⟩, ⟨hR.primal, hR.inc, hR.sols, hR.stopped⟩, ?_,  fun i hi => by
            have hi : i < s.pn + 1 := hi
            by_cases hx : i = s.pn
            · right; subst hx; simp [clone]
            · left; omega⟩
          show q'.at_ + _ ≤ _ + (s.pn + 1)
          rw [← hpq]; omega
  · refine ⟨⟨hP.wf, hP.ord, hP.pos, hP.root, hP.idx, hP.gen, hP.inj, hP.uq⟩, ⟨hG.le, hG.st, hG.bd, hG.lab⟩, ⟨hR.primal, hR.inc, hR.sols, hR.stopped⟩, ?_, fun i hi => Or.inl (by rw [← hn]; exact hi)⟩
    dsimp only; rw [hn, ← hpq]; omega

/-- Folding over cut-set nodes. -/
theorem cutFold_inv {lc : Option (σ → Ctx → Int)} {g : G σ} {cur : Nat} : ∀ (cs : List Nat) {s0 : BS σ}, PInv m s0 →
    (∀ n, n ∈ cs → Path m m.sti (g.lab n) (g.bound n) (g.st n) ∧ m.eqs (g.st n) = false) →
    PInv m (cs.foldl (cutStep m lc g cur) s0) ∧ Grow s0 (cs.foldl (cutStep m lc g cur) s0) ∧ Rest s0 (cs.foldl (cutStep m lc g cur) s0) ∧
    (cs.foldl (cutStep m lc g cur) s0).pq.at_ + s0.pn ≤ s0.pq.at_ + (cs.foldl (cutStep m lc g cur) s0).pn := by
  intro cs
  induction cs with
  | nil => intro s0 h _; exact ⟨h, Grow.refl _, ⟨rfl, rfl, rfl, rfl⟩, Nat.le_refl _⟩
  | cons n cs ih =>
    intro s0 h hc
    obtain ⟨a1, a2, a3, a4, _⟩ := cutStep_inv (cur := cur) h (hc n (by simp)).1 (hc n (by simp)).2
    obtain ⟨b1, b2, b3, b4⟩ := ih a1 (fun k hk => hc k (by simp [hk]))
    rw [List.foldl_cons]
    exact ⟨b1, a2.trans b2, ⟨b3.primal.trans a3.primal, b3.inc.trans a3.inc, b3.sols.trans a3.sols, b3.stopped.trans a3.stopped⟩, by omega⟩

/-! ### Reported solutions -/

structure TInv (m : Mdl σ) (p0 : Int) (s : BS σ) : Prop where
  sol : ∀ x, x ∈ s.sols → Sol m x.2 x.1
  dec : s.sols.Pairwise (fun a b => m.sense.better b.1 a.1 = true)
  beat : ∀ x, x ∈ s.sols → m.sense.better x.1 p0 = true
  pr : m.sense.betterEQ s.primal p0 = true
  le : ∀ x, x ∈ s.sols → m.sense.betterEQ s.primal x.1 = true
  last : (s.sols = [] ∧ s.primal = p0 ∧ s.inc = []) ∨ ∃ ys, s.sols = ys ++ [(s.primal, s.inc)]

theorem TInv.set {p0 : Int} {s : BS σ} (h : TInv m p0 s) {v : Int} {lb : List Int} (hb : m.sense.better v s.primal = true)
    (hs : Sol m lb v) : TInv m p0 (setPrimal m s v lb) := by
  have hpk : m.sense.pick v s.primal = v := by simp [Sense.pick, hb]
  unfold setPrimal
  rw [hpk]
  have hpr := h.pr
  rw [Sense.betterEQ_iff] at hpr
  rw [Sense.better_iff] at hb
  constructor
  · intro x hx
    simp only [List.mem_append, List.mem_singleton] at hx
    rcases hx with y | y
    · exact h.sol x y
    · rw [y]; exact hs
  · dsimp only
    rw [List.pairwise_append]
    refine ⟨h.dec, by simp, ?_⟩
    intro a ha b hb'
    simp at hb'; subst hb'
    have := h.le a ha
    rw [Sense.betterEQ_iff] at this
    rw [Sense.better_iff]
    dsimp only; omega
  · intro x hx
    simp only [List.mem_append, List.mem_singleton] at hx
    rcases hx with y | y
    · exact h.beat x y
    · rw [y, Sense.better_iff]; dsimp only; omega
  · rw [Sense.betterEQ_iff]; dsimp only; omega
  · intro x hx
    simp only [List.mem_append, List.mem_singleton] at hx
    rcases hx with y | y
    · have := h.le x y
      rw [Sense.betterEQ_iff] at this ⊢; dsimp only; omega
    · rw [y, Sense.betterEQ_iff]; dsimp only; omega
  · exact Or.inr ⟨s.sols, rfl⟩

theorem TInv.congr {p0 : Int} {s s' : BS σ} (h : TInv m p0 s) (hr : Rest s s') : TInv m p0 s' := by
  constructor
  · rw [hr.sols]; exact h.sol
  · rw [hr.sols]; exact h.dec
  · rw [hr.sols]; exact h.beat
  · rw [hr.primal]; exact h.pr
  · rw [hr.sols, hr.primal]; exact h.le
  · rw [hr.sols, hr.primal, hr.inc]; exact h.last

theorem PInv.set {s : BS σ} (h : PInv m s) (v : Int) (lb : List Int) : PInv m (setPrimal m s v lb) :=
  ⟨h.wf, h.ord, h.pos, h.root, h.idx, h.gen, h.inj, h.uq⟩

/-- A better-than-primal value cannot be the sentinel. -/
theorem not_best0 {p0 : Int} (hp0 : m.sense.betterEQ p0 m.sense.best0 = true) {s : BS σ} (h : TInv m p0 s) :
    m.sense.better m.sense.best0 s.primal = false := by
  have := h.pr
  rw [Sense.betterEQ_iff] at this hp0
  rw [Sense.better_false]; omega

/-- One expansion keeps the pool sound and reports only solutions. -/
theorem expand_inv {lc : Int → Option (σ → Ctx → Int)} (F : FamV Vl Wl m rank M) {p0 : Int} (hp0 : m.sense.betterEQ p0 m.sense.best0 = true) {wres fuel : Nat}
    {s s' : BS σ} {cur : Nat} (hP : PInv m s) (hT : TInv m p0 s) (hc : cur < s.pn) (h : expandP m M lc wres fuel s cur = some s') :
    PInv m s' ∧ TInv m p0 s' ∧ s'.stopped = s.stopped ∧ Grow s s' ∧ s'.pq.at_ + s.pn ≤ s.pq.at_ + s'.pn := by
  obtain ⟨hgen, hopen⟩ := hP.gen cur hc
  have ext : ∀ {ls : List Int} {c : Int} {t : σ}, Path m (s.pst cur) ls c t → Path m m.sti (s.plab cur ++ ls) (s.pbound cur + c) t :=
    fun hp => hgen.trans hp
  unfold expandP at h
  simp only [Option.bind_eq_some_iff] at h
  obtain ⟨g, hg, h⟩ := h
  split at h
  · rename_i hbet
    obtain ⟨s1, hs1⟩ : ∃ s1, s1 = if g.exact = true then setPrimal m s (g.bound g.trg) (g.lab g.trg) else s := ⟨_, rfl⟩
    rw [← hs1] at h
    have h1 : PInv m s1 ∧ TInv m p0 s1 ∧ s1.stopped = s.stopped ∧ s1.pst = s.pst ∧ s1.plab = s.plab ∧ s1.pbound = s.pbound ∧ s1.pbb = s.pbb ∧ s1.pn = s.pn ∧ s1.pq = s.pq ∧ s1.wrel = s.wrel := by
      rw [hs1]
      split
      · rename_i hx
        refine ⟨hP.set _ _, hT.set hbet ?_, rfl, rfl, rfl, rfl, rfl, rfl, rfl, rfl⟩
        rcases (F.relaxed_exact hgen hopen hg hx).1 with x | ⟨ls, c, x1, x2, x3⟩
        · rw [x, not_best0 hp0 hT] at hbet; simp at hbet
        · rw [x1, x2]; exact ext x3
      · exact ⟨hP, hT, rfl, rfl, rfl, rfl, rfl, rfl, rfl, rfl⟩
    obtain ⟨hP1, hT1, hst1, e1, e2, e3, e4, e5, e6, e7⟩ := h1
    have hsrc : s1.src cur = s.src cur := by simp only [BS.src, e1, e2, e3, e4]
    simp only [Option.bind_eq_some_iff] at h
    obtain ⟨r, hr, h⟩ := h
    rw [hsrc] at hr
    obtain ⟨s2, hs2⟩ : ∃ s2, s2 = if m.sense.better (r.bound r.trg) s1.primal = true then setPrimal m s1 (r.bound r.trg) (r.lab r.trg) else s1 := ⟨_, rfl⟩
    rw [← hs2] at h
    have h2 : PInv m s2 ∧ TInv m p0 s2 ∧ s2.stopped = s.stopped ∧ s2.pst = s.pst ∧ s2.plab = s.plab ∧ s2.pbound = s.pbound ∧ s2.pn = s.pn ∧ s2.pq = s.pq := by
      rw [hs2]
      split
      · rename_i hx
        refine ⟨hP1.set _ _, hT1.set hx ?_, hst1, e1, e2, e3, e5, e6⟩
        rcases F.restricted_primal hgen hopen hr with x | ⟨ls, c, x1, x2, x3⟩
        · rw [x, not_best0 hp0 hT1] at hx; simp at hx
        · rw [x1, x2]; exact ext x3
      · exact ⟨hP1, hT1, hst1, e1, e2, e3, e5, e6⟩
    obtain ⟨hP2, hT2, hst2, i1, i2, i3, i5, i6⟩ := h2
    have hG : Grow s s2 := ⟨by rw [i5]; exact Nat.le_refl _, fun i _ => by rw [i1], fun i _ => by rw [i3], fun i _ => by rw [i2]⟩
    split at h
    · simp only [Option.map_eq_some_iff] at h
      obtain ⟨cs, hcs, rfl⟩ := h
      obtain ⟨_, cs', hcs', _, hk, _⟩ := cut_factsP F hgen hopen hg
      rw [hcs] at hcs'
      simp at hcs'
      subst hcs'
      obtain ⟨a1, a2, a3, a4⟩ := cutFold_inv (cur := cur) cs hP2 (by
        intro n hn
        obtain ⟨b1, ⟨ls, c, b2, b3, b4⟩, _⟩ := hk n hn
        refine ⟨?_, b1⟩
        rw [b2, b3]
        exact ext b4)
      refine ⟨a1, hT2.congr a3, a3.stopped.trans hst2, hG.trans a2, ?_⟩
      rw [i5, i6] at a4; exact a4
    · simp at h
      subst h
      exact ⟨hP2, hT2, hst2, hG, by rw [i5, i6]; exact Nat.le_refl _⟩
  · simp at h
    subst h
    exact ⟨hP, hT, rfl, Grow.refl _, Nat.le_refl _⟩

/-- Taking the next node off the queue. -/
theorem PInv.extract {s : BS σ} (h : PInv m s) (hne : Heap.empty s.pq = false) :
    PInv m { s with pq := (Heap.extractMax (qord m) s.pq).1 } ∧ (Heap.extractMax (qord m) s.pq).2.1 < s.pn ∧
    Opn s (Heap.extractMax (qord m) s.pq).2.1 (Heap.extractMax (qord m) s.pq).2.2 ∧
    (Heap.extractMax (qord m) s.pq).1.at_ + 1 = s.pq.at_ ∧
    (∀ i key, Opn s i key → Opn { s with pq := (Heap.extractMax (qord m) s.pq).1 } i key ∨ (i, key) = (Heap.extractMax (qord m) s.pq).2) ∧
    (∀ i key, Opn { s with pq := (Heap.extractMax (qord m) s.pq).1 } i key → Opn s i key) := by
  have h2 : 2 ≤ s.pq.at_ := by
    have := h.wf.one_le
    simp [Heap.empty] at hne
    omega
  obtain ⟨a1, a2, l, a3, a4, a5, a6, a7, a8⟩ := Heap.extractMax_spec (qord_swo m) h.wf h.ord h2
  have ho : Opn s (Heap.extractMax (qord m) s.pq).2.1 (Heap.extractMax (qord m) s.pq).2.2 := ⟨l, a3, a4.symm⟩
  refine ⟨h.sub a1 a2 a7 (fun k hk => ((a6 k).1 hk).1), h.idx _ _ ho, ho, by omega, ?_, ?_⟩
  · rintro i key ⟨k, k1, k2⟩
    by_cases hkl : k = l
    · right; rw [a4, ← k2, hkl]
    · left; exact ⟨k, (a6 k).2 ⟨k1, hkl⟩, by dsimp only; rw [a7]; exact k2⟩
  · rintro i key ⟨k, k1, k2⟩
    dsimp only at k1 k2
    rw [a7] at k2
    exact ⟨k, ((a6 k).1 k1).1, k2⟩

theorem loop_inv {Wl : Nat → Int → σ → Int → Prop} {M : Nat → Int → Mdl σ} {lc : Nat → Int → Option (σ → Ctx → Int)} (F : ∀ k, FamV Vl (Wl k) m rank (M k)) {p0 : Int} (hp0 : m.sense.betterEQ p0 m.sense.best0 = true) {wres dfuel : Nat} {lim : Nat → Bool} :
    ∀ (f k : Nat) (s s' : BS σ), PInv m s → TInv m p0 s → s.stopped = false → loopP m M lc wres dfuel lim f k s = some s' →
      PInv m s' ∧ TInv m p0 s' ∧ (s'.stopped = true ∨ Heap.empty s'.pq = true) := by
  intro f
  induction f with
  | zero => intro k s s' _ _ _ h; simp [loopP] at h
  | succ f ih =>
    intro k s s' hP hT hst h
    unfold loopP at h
    dsimp only at h
    by_cases he : Heap.empty s.pq = true
    · rw [if_pos he] at h
      simp at h; subst h
      exact ⟨hP, hT, Or.inr he⟩
    · rw [if_neg he] at h
      obtain ⟨a1, a2, _⟩ := hP.extract (by simpa using he)
      have hT1 : TInv m p0 { s with pq := (Heap.extractMax (qord m) s.pq).1 } := hT.congr ⟨rfl, rfl, rfl, rfl⟩
      split at h
      · simp at h; subst h
        exact ⟨⟨a1.wf, a1.ord, a1.pos, a1.root, a1.idx, a1.gen, a1.inj, a1.uq⟩, hT.congr ⟨rfl, rfl, rfl, rfl⟩ |> (fun (t : TInv m p0 { s with pq := (Heap.extractMax (qord m) s.pq).1 }) => ⟨t.sol, t.dec, t.beat, t.pr, t.le, t.last⟩), Or.inl rfl⟩
      · split at h
        · simp only [Option.bind_eq_some_iff] at h
          obtain ⟨s2, h2, h3⟩ := h
          obtain ⟨b1, b2, b3, _, _⟩ := expand_inv (F k) hp0 a1 hT1 a2 h2
          exact ih _ _ _ b1 b2 (b3.trans hst) h3
        · exact ih _ _ _ a1 hT1 hst h

theorem init_inv (hq : m.eqs m.sti = false) (hU : Uniq m m.sti) (w : Nat) (p0 : Int) : PInv m (init m w p0) ∧ TInv m p0 (init m w p0) ∧
    (init m w p0).pq.at_ = 2 ∧ (init m w p0).pn = 1 ∧ (∀ i key, Opn (init m w p0) i key → i = 0 ∧
      key = (match m.loc with
        | some f => f m.sti .bb
        | none => m.sense.worst0)) ∧ ∃ key, Opn (init m w p0) 0 key := by
  have hk := Heap.WF_mk ((0, 0) : Nat × Int) 64000 (by omega)
  have ho : Heap.Ordered (qord m) (Heap.mk' ((0, 0) : Nat × Int) 64000) := by
    intro i hi hi'; simp [Heap.mk'] at hi'; omega
  have hnl : ∀ l, ¬ Heap.Live (Heap.mk' ((0, 0) : Nat × Int) 64000) l := by
    rintro l ⟨i, i1, i2, _⟩; simp [Heap.mk'] at i2; omega
  obtain ⟨a1, a2, a3, a4, a5, a6, a7⟩ := Heap.insertHeap_spec (qord_swo m) hk ho (0, match m.loc with
        | some f => f m.sti .bb
        | none => m.sense.worst0)
  have hop : ∀ i key, Opn (init m w p0) i key → i = 0 ∧ key = (match m.loc with
        | some f => f m.sti .bb
        | none => m.sense.worst0) := by
    rintro i key ⟨l, l1, l2⟩
    have := (a4 l).1 l1
    rcases this with x | x
    · exact absurd x (hnl l)
    · have l2' := a5
      rw [← x] at l2'
      have := l2.symm.trans l2'
      simpa using this
  refine ⟨?_, ?_, ?_, rfl, hop, _, _, (a4 _).2 (Or.inr rfl), a5⟩
  · constructor
    · exact a1
    · exact a2
    · exact Nat.one_pos
    · exact ⟨rfl, rfl⟩
    · intro i key h
      rw [(hop i key h).1]; exact Nat.one_pos
    · intro i hi
      exact ⟨Path.nil _, hq⟩
    · intro i j hi hj _
      have hi : i < 1 := hi
      have hj : j < 1 := hj
      omega
    · exact hU
  · constructor
    · simp [init]
    · simp [init]
    · simp [init]
    · simp [init, Sense.betterEQ_iff]
    · simp [init]
    · left; exact ⟨rfl, rfl, rfl⟩
  · exact a7.trans (by simp [Heap.mk'])

end Verif.BB
