import Verif.RoundEq
/-!
# When rounding changes nothing: the search
-/
namespace Verif.DD
set_option linter.unusedSectionVars false
variable {σ : Type} {Vl : σ → Int → Prop} [Same σ] {m : Mdl σ} {rank : σ → Nat}

/-- A value is the initial one and at most one cost per layer. -/
theorem relx_mag {s0 : σ} {v0 : Int} (H : LayeredV Vl m rank s0 v0) {C N : Nat} (hN : RankBound m rank s0 v0 N)
    (hC : ∀ s v l, Relx m rank s0 v0 s v → m.eqs s = false → l ∈ m.lgf s → (m.stc s l).natAbs ≤ C) {s : σ} {v : Int}
    (h : Relx m rank s0 v0 s v) : v.natAbs ≤ v0.natAbs + C * (N + 1) := by
  have key : (m.eqs s = false → v.natAbs ≤ v0.natAbs + C * rank s) ∧ (m.eqs s = true → v.natAbs ≤ v0.natAbs + C * (N + 1)) := by
    induction h with
    | root => exact ⟨fun _ => by omega, fun hh => by rw [H.src] at hh; simp at hh⟩
    | @step s s' l v hr hs ih =>
      have h1 := ih.1 hs.1
      have h2 := hC _ _ _ hr hs.1 hs.2.1
      have h3 := Nat.mul_le_mul_left C (hN _ _ hr hs.1)
      constructor
      · intro hq
        rcases H.step _ _ _ _ hr hs with a | a
        · rw [hq] at a; simp at a
        · rw [a, Nat.mul_add, Nat.mul_one]; omega
      · intro _
        rw [Nat.mul_add, Nat.mul_one]; omega
    | mergeL ha hb a b c d ih1 ih2 =>
      obtain ⟨q1, q2, _⟩ := H.merge _ _ _ _ _ ha hb a b c d
      exact ⟨fun _ => by rw [q2]; exact ih1.1 a, fun hh => by rw [q1] at hh; simp at hh⟩
    | mergeR ha hb a b c d ih1 ih2 =>
      obtain ⟨q1, q2, _⟩ := H.merge _ _ _ _ _ ha hb a b c d
      exact ⟨fun _ => by rw [q2, c]; exact ih2.1 b, fun hh => by rw [q1] at hh; simp at hh⟩
    | swap ha hb hs ih1 ih2 =>
      obtain ⟨q1, q2, _⟩ := H.fair.like _ _ _ _ ha hb hs
      exact ⟨fun hh => by rw [q2]; exact ih2.1 (q1 ▸ hh), fun hh => ih2.2 (q1 ▸ hh)⟩
  cases hq : m.eqs s with
  | true => exact key.2 hq
  | false =>
    have h1 := key.1 hq
    have h2 := Nat.mul_le_mul_left C (hN _ _ h hq)
    rw [Nat.mul_add, Nat.mul_one]; omega

end Verif.DD

namespace Verif.BB
open Verif.DD
set_option linter.unusedSectionVars false
variable {σ : Type} {m : Mdl σ} {rank : σ → Nat} {Vl : σ → Int → Prop} [Same σ] {fl : Int → Int} {C L N : Nat}

/-- The numbers of a program: among the states relaxation can reach, labels cost at most `C`, local bounds are at most
`L`, in magnitude, and ranks at most `N`. -/
structure Small (m : Mdl σ) (rank : σ → Nat) (M : Nat → Int → Mdl σ) (lc : Nat → Int → Option (σ → Ctx → Int)) (C L N : Nat) : Prop where
  cost : ∀ s v l, Relx m rank m.sti 0 s v → m.eqs s = false → l ∈ m.lgf s → (m.stc s l).natAbs ≤ C
  loc : ∀ k p f, (M k p).loc = some f → ∀ s v c, Relx m rank m.sti 0 s v → (f s c).natAbs ≤ L
  key : ∀ k p f, lc k p = some f → ∀ s v, Relx m rank m.sti 0 s v → (f s .bb).natAbs ≤ L
  rk : RankBound m rank m.sti 0 N

/-- The magnitude up to which `fl` has to be exact. -/
def reach (C L N : Nat) : Nat := C * (2 * N + 3) + L + 2147483647

theorem reach_eq (C L N : Nat) : reach C L N = C * (N + 1) + L + C + C * (N + 1) + 2147483647 := by
  have : C * (2 * N + 3) = C * (N + 1) + C + C * (N + 1) := by
    rw [show 2 * N + 3 = (N + 1) + 1 + (N + 1) by omega, Nat.mul_add, Nat.mul_add, Nat.mul_one]
  unfold reach
  omega

theorem Small.fits {Wl : Nat → Int → σ → Int → Prop} {M : Nat → Int → Mdl σ} {lc : Nat → Int → Option (σ → Ctx → Int)}
    (F : ∀ k, FamV Vl (Wl k) m rank (M k)) (H : LayeredV Vl m rank m.sti 0) (S : Small m rank M lc C L N)
    (hfl : ∀ x : Int, x.natAbs ≤ reach C L N → fl x = x) {k : Nat} {p : Int} {r : Src σ}
    (hp : Path m m.sti r.lab r.bound r.st) (hq : m.eqs r.st = false) :
    Fits fl (M k p) rank r.st r.bound C (C * (N + 1)) L N := by
  have h0 : Relx m rank m.sti 0 r.st r.bound := by
    have := hp.relx (rank := rank) (v0 := 0) Relx.root
    rwa [Int.zero_add] at this
  have up : ∀ {s v}, Relx (M k p) rank r.st r.bound s v → Relx m rank m.sti 0 s v := fun h => h0.trans ((F k).relx h)
  refine ⟨?_, ?_, ?_, (F k).rankBound hp hq S.rk, ?_⟩
  · intro s v l h hs hl
    rw [(F k).eqs] at hs
    rw [(F k).stc]
    exact S.cost s v l (up h) hs ((F k).sub p s l hl)
  · intro s v h
    have := relx_mag H S.rk S.cost (up h)
    simpa using this
  · intro f hf s v c h
    exact S.loc k p f hf s v c (up h)
  · intro x hx
    exact hfl x (by rw [reach_eq]; omega)

theorem cutStep_round {lc : Option (σ → Ctx → Int)} {g : G σ} {cur : Nat} {s0 : BS σ} {n : Nat}
    (h1 : fl (g.bound n + g.bb n) = g.bound n + g.bb n)
    (h2 : ∀ f, lc = some f → fl (g.bound n + f (g.st n) .bb) = g.bound n + f (g.st n) .bb) :
    cutStepR fl m lc g cur s0 n = cutStep m lc g cur s0 n := by
  have hk : insKeyR fl lc g n = insKey lc g n := by
    unfold insKeyR insKey
    cases lc with
    | none => exact h1
    | some f => exact h2 f rfl
  unfold cutStepR cutStep
  rw [h1, hk]
  rfl

theorem cutFold_round {lc : Option (σ → Ctx → Int)} {g : G σ} {cur : Nat} : ∀ (cs : List Nat) (s0 : BS σ),
    (∀ n, n ∈ cs → fl (g.bound n + g.bb n) = g.bound n + g.bb n ∧
      ∀ f, lc = some f → fl (g.bound n + f (g.st n) .bb) = g.bound n + f (g.st n) .bb) →
    cs.foldl (cutStepR fl m lc g cur) s0 = cs.foldl (cutStep m lc g cur) s0 := by
  intro cs
  induction cs with
  | nil => intros; rfl
  | cons n cs ih =>
    intro s0 h
    obtain ⟨h1, h2⟩ := h n (by simp)
    rw [List.foldl_cons, List.foldl_cons, cutStep_round h1 h2]
    exact ih _ (fun k hk => h k (by simp [hk]))

/-- Nodes of the cut set are in the node list. -/
theorem cut_listed {r : Src σ} {prim : Int} (H : LayeredV Vl m rank r.st r.bound) {w f : Nat} {g : G σ}
    (h : relaxed m prim w f r = some g) {cs : List Nat} (hc : cutSet g = some cs) : ∀ k, k ∈ cs → k ∈ g.an := by
  obtain ⟨g0, F⟩ := relaxed_facts H h
  obtain ⟨V, cs', h1', C⟩ := relaxed_cut F
  rw [hc] at h1'
  simp at h1'
  subst h1'
  obtain ⟨f1, f2, f3, f4, f5, f6, f7, f8, f9, f10, f11, f12, f13, f14⟩ := F.fields
  obtain ⟨d, p, hinv⟩ := F.fin
  intro k hk
  have := ((C.csm k).1 hk).2
  unfold allKidsExact at this
  cases hkk : g.kids k with
  | nil => rw [hkk] at this; simp at this
  | cons e l =>
    have : e ∈ g0.kids k := by rw [← f3, hkk]; simp
    obtain ⟨e1, e2⟩ := (hinv.kids k e).1 this
    have hl := (hinv.esrc e e1).1
    rw [e2] at hl
    rw [f14]
    exact (F.an.2 k).2 ⟨hl.1, Or.inl hl⟩

theorem expand_round {Wl : Nat → Int → σ → Int → Prop} {M : Nat → Int → Mdl σ} {lc : Nat → Int → Option (σ → Ctx → Int)}
    (F : ∀ k, FamV Vl (Wl k) m rank (M k)) (H : LayeredV Vl m rank m.sti 0) (S : Small m rank M lc C L N)
    (hfl : ∀ x : Int, x.natAbs ≤ reach C L N → fl x = x) {k wres fuel : Nat} {s : BS σ} {cur : Nat} (hP : PInv m s) (hc : cur < s.pn) :
    expandPR fl m (M k) (lc k) wres fuel s cur = expandP m (M k) (lc k) wres fuel s cur := by
  obtain ⟨hgen, hopen⟩ := hP.gen cur hc
  have ext : ∀ {ls : List Int} {c : Int} {t : σ}, Path m (s.pst cur) ls c t → Path m m.sti (s.plab cur ++ ls) (s.pbound cur + c) t :=
    fun hp => hgen.trans hp
  have fit : ∀ p, Fits fl (M k p) rank (s.src cur).st (s.src cur).bound C (C * (N + 1)) L N :=
    fun p => S.fits F H hfl (r := s.src cur) hgen hopen
  obtain ⟨q1, q2⟩ := relaxed_round (prim := s.primal) (r := s.src cur) ((F k).lay s.primal _ _ _ hgen hopen) (fit _) s.wrel fuel
  unfold expandPR expandP
  rw [q1]
  cases hg : relaxed (M k s.primal) s.primal s.wrel fuel (s.src cur) with
  | none => rfl
  | some g =>
    simp only [Option.bind_some]
    split
    · obtain ⟨s1, hs1⟩ : ∃ s1, s1 = if g.exact = true then setPrimal m s (g.bound g.trg) (g.lab g.trg) else s := ⟨_, rfl⟩
      rw [← hs1]
      have hsrc : s1.src cur = s.src cur := by rw [hs1]; split <;> rfl
      rw [hsrc, restricted_round (r := s.src cur) ((F k).lay s1.primal _ _ _ hgen hopen) (fit _) wres fuel]
      cases hr : restricted (M k s1.primal) s1.primal wres fuel (s.src cur) with
      | none => rfl
      | some r =>
        simp only [Option.bind_some]
        split
        · cases hcs : cutSet g with
          | none => rfl
          | some cs =>
            simp only [Option.map_some]
            rw [cutFold_round]
            intro n hn
            obtain ⟨_, cs', hcs', _, hk, _⟩ := cut_factsP (F k) hgen hopen hg
            rw [hcs] at hcs'
            simp at hcs'
            subst hcs'
            obtain ⟨b1, ⟨ls, c, b2, b3, b4⟩, _⟩ := hk n hn
            have hx : Relx m rank m.sti 0 (g.st n) (g.bound n) := by
              have := (ext b4).relx (rank := rank) (v0 := 0) Relx.root
              rw [Int.zero_add] at this
              rw [b3]; exact this
            have m1 : (g.bound n).natAbs ≤ C * (N + 1) := by simpa using relx_mag H S.rk S.cost hx
            have m2 := q2 g hg n (cut_listed ((F k).lay s.primal _ _ _ hgen hopen) hg hcs n hn)
            constructor
            · exact hfl _ (by rw [reach_eq]; omega)
            · intro f hf
              have m3 := S.key k _ f hf _ _ hx
              exact hfl _ (by rw [reach_eq]; omega)
        · rfl
    · rfl

theorem loop_round {Wl : Nat → Int → σ → Int → Prop} {M : Nat → Int → Mdl σ} {lc : Nat → Int → Option (σ → Ctx → Int)}
    (F : ∀ k, FamV Vl (Wl k) m rank (M k)) (H : LayeredV Vl m rank m.sti 0) (S : Small m rank M lc C L N)
    (hfl : ∀ x : Int, x.natAbs ≤ reach C L N → fl x = x) {p0 : Int} (hp0 : m.sense.betterEQ p0 m.sense.best0 = true)
    {wres dfuel : Nat} {lim : Nat → Bool} :
    ∀ (f k : Nat) (s : BS σ), PInv m s → TInv m p0 s →
      loopPR fl m M lc wres dfuel lim f k s = loopP m M lc wres dfuel lim f k s := by
  intro f
  induction f with
  | zero => intros; rfl
  | succ f ih =>
    intro k s hP hT
    unfold loopPR loopP
    dsimp only
    by_cases he : Heap.empty s.pq = true
    · rw [if_pos he, if_pos he]
    · rw [if_neg he, if_neg he]
      obtain ⟨a1, a2, _⟩ := hP.extract (by simpa using he)
      have hT1 : TInv m p0 { s with pq := (Heap.extractMax (qord m) s.pq).1 } := hT.congr ⟨rfl, rfl, rfl, rfl⟩
      rw [expand_round F H S hfl a1 a2]
      cases hx : expandP m (M k) (lc k) wres dfuel { s with pq := (Heap.extractMax (qord m) s.pq).1 } (Heap.extractMax (qord m) s.pq).2.1 with
      | none => rw [ih _ _ a1 hT1]; rfl
      | some s2 =>
        obtain ⟨b1, b2, _⟩ := expand_inv (F k) hp0 a1 hT1 a2 hx
        simp only [Option.bind_some]
        rw [ih _ _ b1 b2, ih _ _ a1 hT1]

/-- The search with rounding is the search with integers. -/
theorem searchT_round {Wl : Nat → Int → σ → Int → Prop} {M : Nat → Int → Mdl σ} {lc : Nat → Int → Option (σ → Ctx → Int)}
    (F : ∀ k, FamV Vl (Wl k) m rank (M k)) (H : LayeredV Vl m rank m.sti 0) (S : Small m rank M lc C L N)
    (hfl : ∀ x : Int, x.natAbs ≤ reach C L N → fl x = x) {p0 : Int} (hp0 : m.sense.betterEQ p0 m.sense.best0 = true)
    (w dfuel : Nat) (lim : Nat → Bool) (fuel : Nat) :
    searchTR fl m M lc w dfuel lim fuel p0 = searchT m M lc w dfuel lim fuel p0 := by
  obtain ⟨h1, h2, _⟩ := init_inv H.src H.fair.toUniq w p0
  exact loop_round F H S hfl hp0 fuel 0 _ h1 h2

end Verif.BB
