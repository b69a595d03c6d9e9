import Verif.BBOpt
import Verif.First
/-!
# Searches in which only shortcuts can lose solutions

When the value of a partial solution is determined by its state, siblings never merge and there is no
dominance test, a solution can only be lost on an arc from an exact node straight to the sink.
-/
namespace Verif.BB
open Verif.DD
set_option linter.unusedSectionVars false
variable {σ : Type} {Vl : σ → Int → Prop} {m : Mdl σ} {rank : σ → Nat} [Same σ]

/-- All ways to an open state cost the same. -/
def Det (m : Mdl σ) : Prop := ∀ s ls ls' v v', Path m m.sti ls v s → Path m m.sti ls' v' s → m.eqs s = false → v = v'

/-- No two children of an open state merge. -/
def Sib (m : Mdl σ) (rank : σ → Nat) : Prop := ∀ s ls v, Path m m.sti ls v s → m.eqs s = false → NoMix m rank s v (rank s + 1)

/-- `expand` loses nothing on an arc from an exact node straight to the sink. -/
def scExpandP (m : Mdl σ) (M : Int → Mdl σ) (wres fuel : Nat) (s : BS σ) (cur : Nat) : Bool :=
  ((relaxed (M s.primal) s.primal s.wrel fuel (s.src cur)).map fun g =>
    if m.sense.better (g.bound g.trg) s.primal then
      let s1 := if g.exact then setPrimal m s (g.bound g.trg) (g.lab g.trg) else s
      ((restricted (M s1.primal) s1.primal wres fuel (s1.src cur)).map fun r =>
        let s2 := if m.sense.better (r.bound r.trg) s1.primal then
          setPrimal m s1 (r.bound r.trg) (r.lab r.trg) else s1
        if !r.exact && !g.exact then ((cutSet g).map (fun cs => noShortcut m g cs s2.primal)).getD true
        else true).getD true
    else true).getD true

/-- No step of `search` loses anything on such an arc; mirrors `loopP`. -/
def scLoopT (m : Mdl σ) (M : Nat → Int → Mdl σ) (lc : Nat → Int → Option (σ → Ctx → Int)) (wres dfuel : Nat) (lim : Nat → Bool) : Nat → Nat → BS σ → Bool
  | 0, _, _ => true
  | f + 1, k, s =>
    if Heap.empty s.pq then true
    else
      let x := Heap.extractMax (qord m) s.pq
      let s1 := { s with pq := x.1 }
      if lim k then true
      else if m.sense.better x.2.2 s1.primal then
        scExpandP m (M k) wres dfuel s1 x.2.1 && ((expandP m (M k) (lc k) wres dfuel s1 x.2.1).map (scLoopT m M lc wres dfuel lim f (k + 1))).getD true
      else scLoopT m M lc wres dfuel lim f (k + 1) s1

/-- The same when nothing but the primal bound changes the model. -/
def scLoopP (m : Mdl σ) (M : Int → Mdl σ) (wres dfuel : Nat) (lim : Nat → Bool) (f k : Nat) (s : BS σ) : Bool :=
  scLoopT m (fun _ => M) (fun _ p => (M p).loc) wres dfuel lim f k s

/-- Then no subproblem is its own subproblem: the cut set of the diagram of a node does not hold its root. -/
theorem cut_root {M : Int → Mdl σ} {Wl : Int → σ → Int → Prop} (F : FamV Vl Wl m rank M) (hS : Sib m rank)
    (hE : OneEnd m rank m.sti 0) {p : Int} {w fuel : Nat} {r : Src σ} {g : G σ} (hgen : Path m m.sti r.lab r.bound r.st) (hopen : m.eqs r.st = false)
    (hg : relaxed (M p) p w fuel r = some g) {cs : List Nat} (hcs : cutSet g = some cs) : ∀ n, n ∈ cs → rank r.st < rank (g.st n) := by
  intro n hn
  have hrx : Relx m rank m.sti 0 r.st r.bound := by
    have := hgen.relx (rank := rank) (v0 := 0) Relx.root
    rwa [Int.zero_add] at this
  have hsm := F.same p
  have hsub := F.sub p
  have e1 : (M p).eqs = m.eqs := by rw [hsm]
  have e2 : (M p).smf = m.smf := by rw [hsm]
  have e3 : (M p).stt = m.stt := by rw [hsm]
  exact cut_deep (r := r) (k := rank r.st + 1) (F.lay p _ _ _ hgen hopen) (by
    intro a v ha hq
    rw [e1] at hq
    rw [e3]
    exact hE a v (hrx.trans (relx_sub hsm hsub ha)) hq) (by
    intro j hj1 hj2
    have : j = rank r.st + 1 := by omega
    subst this
    intro a b c va vb ha hb qa qb ra rb hc
    rw [e1] at qa qb
    rw [e2] at hc
    exact hS _ _ _ hgen hopen a b c va vb (relx_sub hsm hsub ha) (relx_sub hsm hsub hb) qa qb ra rb hc) hg hcs n hn

/-! ### The width -/

theorem cutStep_widens {lc : Option (σ → Ctx → Int)} {g : G σ} {cur : Nat} {s : BS σ} {n : Nat} (h : PInv m s) :
    (cutStep m lc g cur s n).wrel = if n = g.root then s.wrel + 1 else s.wrel := by
  unfold cutStep
  dsimp only
  generalize hs : (if n = g.root then { s with wrel := s.wrel + 1 } else s) = t
  have hP : PInv m t := by
    rw [← hs]; split
    · exact ⟨h.wf, h.ord, h.pos, h.root, h.idx, h.gen, h.inj, h.uq⟩
    · exact h
  have ht : t.wrel = if n = g.root then s.wrel + 1 else s.wrel := by rw [← hs]; split <;> rfl
  rw [← ht]
  split
  · obtain ⟨q', d1, _⟩ := domStep_spec hP (g.st n) (g.bound n)
    generalize domStep m t (g.st n) (g.bound n) = D at d1
    obtain ⟨b, s1⟩ := D
    dsimp only at d1
    subst d1
    cases b
    · dsimp only
      split
      · rfl
      · exact (apply_ite BS.wrel _ _ _).trans (ite_self _)
    · rfl
  · rfl

theorem cutFold_widens {lc : Option (σ → Ctx → Int)} {g : G σ} {cur : Nat} : ∀ (cs : List Nat) {s : BS σ}, PInv m s →
    (∀ n, n ∈ cs → Path m m.sti (g.lab n) (g.bound n) (g.st n) ∧ m.eqs (g.st n) = false) →
    s.wrel ≤ (cs.foldl (cutStep m lc g cur) s).wrel ∧ ((∀ n, n ∈ cs → n ≠ g.root) → (cs.foldl (cutStep m lc g cur) s).wrel = s.wrel) := by
  intro cs
  induction cs with
  | nil => intro s _ _; exact ⟨Nat.le_refl _, fun _ => rfl⟩
  | cons n cs ih =>
    intro s hP hc
    obtain ⟨p1, p2⟩ := hc n (by simp)
    have hw := cutStep_widens (lc := lc) (g := g) (cur := cur) (n := n) hP
    obtain ⟨a1, a2⟩ := ih (cutStep_inv (lc := lc) (cur := cur) hP p1 p2).1 (fun k hk => hc k (by simp [hk]))
    rw [List.foldl_cons]
    refine ⟨?_, fun hr => ?_⟩
    · refine Nat.le_trans ?_ a1
      rw [hw]; split <;> omega
    · rw [a2 (fun k hk => hr k (by simp [hk])), hw, if_neg (hr n (by simp))]

theorem expand_wrel {M : Int → Mdl σ} {Wl : Int → σ → Int → Prop} {lc : Int → Option (σ → Ctx → Int)} (F : FamV Vl Wl m rank M) {wres fuel : Nat} {s s' : BS σ} {cur : Nat}
    (hP : PInv m s) (hc : cur < s.pn) (h : expandP m M lc wres fuel s cur = some s') :
    s.wrel ≤ s'.wrel ∧ (Sib m rank → OneEnd m rank m.sti 0 → s'.wrel = s.wrel) := by
  obtain ⟨hgen, hopen⟩ := hP.gen cur hc
  unfold expandP at h
  simp only [Option.bind_eq_some_iff] at h
  obtain ⟨g, hg, h⟩ := h
  split at h
  · obtain ⟨s1, hs1⟩ : ∃ s1, s1 = if g.exact = true then setPrimal m s (g.bound g.trg) (g.lab g.trg) else s := ⟨_, rfl⟩
    rw [← hs1] at h
    have h1 : PInv m s1 ∧ s1.wrel = s.wrel := by
      rw [hs1]; split
      · exact ⟨hP.set _ _, rfl⟩
      · exact ⟨hP, rfl⟩
    simp only [Option.bind_eq_some_iff] at h
    obtain ⟨r, hr, h⟩ := h
    obtain ⟨s2, hs2⟩ : ∃ s2, s2 = if m.sense.better (r.bound r.trg) s1.primal = true then setPrimal m s1 (r.bound r.trg) (r.lab r.trg) else s1 := ⟨_, rfl⟩
    rw [← hs2] at h
    have h2 : PInv m s2 ∧ s2.wrel = s.wrel := by
      rw [hs2]; split
      · exact ⟨h1.1.set _ _, h1.2⟩
      · exact h1
    split at h
    · simp only [Option.map_eq_some_iff] at h
      obtain ⟨cs, hcs, rfl⟩ := h
      obtain ⟨hroot, cs', hcs', _, hk, _⟩ := cut_factsP F hgen hopen hg
      rw [hcs] at hcs'
      simp at hcs'
      subst hcs'
      obtain ⟨a1, a2⟩ := cutFold_widens (lc := lc s2.primal) (g := g) (cur := cur) cs h2.1 (by
        intro n hn
        obtain ⟨b1, ⟨ls, c, b2, b3, b4⟩, _⟩ := hk n hn
        exact ⟨by rw [b2, b3]; exact hgen.trans b4, b1⟩)
      rw [h2.2] at a1 a2
      refine ⟨a1, fun hS hE => a2 fun n hn => ?_⟩
      rintro rfl
      have := cut_root (r := s.src cur) F hS hE hgen hopen hg hcs _ hn
      rw [hroot] at this
      exact Nat.lt_irrefl _ this
    · simp at h
      subst h
      exact ⟨by rw [h2.2]; exact Nat.le_refl _, fun _ _ => h2.2⟩
  · simp at h
    subst h
    exact ⟨Nat.le_refl _, fun _ _ => rfl⟩

theorem loop_wrel {Wl : Nat → Int → σ → Int → Prop} {M : Nat → Int → Mdl σ} {lc : Nat → Int → Option (σ → Ctx → Int)} (F : ∀ k, FamV Vl (Wl k) m rank (M k))
    {p0 : Int} (hp0 : m.sense.betterEQ p0 m.sense.best0 = true) {wres dfuel : Nat} {lim : Nat → Bool} :
    ∀ (f k : Nat) (s s' : BS σ), PInv m s → TInv m p0 s → loopP m M lc wres dfuel lim f k s = some s' →
      s.wrel ≤ s'.wrel ∧ (Sib m rank → OneEnd m rank m.sti 0 → s'.wrel = s.wrel) := by
  intro f
  induction f with
  | zero => intro k s s' _ _ h; simp [loopP] at h
  | succ f ih =>
    intro k s s' hP hT h
    unfold loopP at h
    dsimp only at h
    by_cases he : Heap.empty s.pq = true
    · rw [if_pos he] at h
      simp at h; subst h
      exact ⟨Nat.le_refl _, fun _ _ => rfl⟩
    · rw [if_neg he] at h
      obtain ⟨a1, a2, _⟩ := hP.extract (by simpa using he)
      have hT1 : TInv m p0 { s with pq := (Heap.extractMax (qord m) s.pq).1 } := hT.congr ⟨rfl, rfl, rfl, rfl⟩
      split at h
      · simp at h; subst h
        exact ⟨Nat.le_refl _, fun _ _ => rfl⟩
      · split at h
        · simp only [Option.bind_eq_some_iff] at h
          obtain ⟨s2, h2, h3⟩ := h
          obtain ⟨b1, b2, _⟩ := expand_inv (F k) hp0 a1 hT1 a2 h2
          obtain ⟨c1, c2⟩ := expand_wrel (F k) a1 a2 h2
          obtain ⟨d1, d2⟩ := ih _ _ _ b1 b2 h3
          exact ⟨Nat.le_trans c1 d1, fun hS hE => (d2 hS hE).trans (c2 hS hE)⟩
        · exact ih _ { s with pq := (Heap.extractMax (qord m) s.pq).1 } _ a1 hT1 h

/-! ### What is lost -/

theorem okFold_det (hd : m.sdom = none) (hdet : Det m) {lc : Option (σ → Ctx → Int)} {g : G σ} {cur : Nat} : ∀ (cs : List Nat) {s0 : BS σ}, PInv m s0 →
    (∀ n, n ∈ cs → Path m m.sti (g.lab n) (g.bound n) (g.st n) ∧ m.eqs (g.st n) = false ∧ n ≠ g.root) →
    okFold m lc g cur s0 cs = true := by
  intro cs
  induction cs with
  | nil => intro s0 _ _; rfl
  | cons n cs ih =>
    intro s0 hP hc
    obtain ⟨p1, p2, p3⟩ := hc n (by simp)
    unfold okFold
    rw [Bool.and_eq_true]
    refine ⟨?_, ih (cutStep_inv (cur := cur) hP p1 p2).1 (fun k hk => hc k (by simp [hk]))⟩
    unfold okCut
    rw [Bool.or_eq_true]
    right
    cases hf : findPool s0 (g.st n) with
    | none => rfl
    | some o =>
      obtain ⟨q1, q2⟩ := findPool_some hf
      have q2 := hP.uq.uniq _ _ _ _ _ _ (hP.gen o q1).1 p1 q2
      have q3 : s0.pbound o = g.bound n := by
        have := (hP.gen o q1).1
        rw [q2] at this
        exact hdet _ _ _ _ _ this p1 p2
      have hds : domStep m s0 (g.st n) (g.bound n) = (false, s0) := by unfold domStep; rw [hd]
      rw [hds]
      dsimp only
      rw [q3]
      simp only [Bool.and_eq_true, decide_eq_true_eq, beq_self_eq_true, and_true, Bool.not_eq_true']
      exact ⟨p3, by rw [Sense.better_false]; omega⟩

theorem okExpand_det {M : Int → Mdl σ} {Wl : Int → σ → Int → Prop} {lc : Int → Option (σ → Ctx → Int)} (F : FamV Vl Wl m rank M) (hd : m.sdom = none) (hdet : Det m) (hS : Sib m rank)
    (hE : OneEnd m rank m.sti 0) {wres fuel : Nat} {s : BS σ} {cur : Nat} (hP : PInv m s) (hc : cur < s.pn)
    (hok : scExpandP m M wres fuel s cur = true) : okExpandP m M lc wres fuel s cur = true := by
  obtain ⟨hgen, hopen⟩ := hP.gen cur hc
  unfold scExpandP at hok
  unfold okExpandP
  cases hg : relaxed (M s.primal) s.primal s.wrel fuel (s.src cur) with
  | none => rfl
  | some g =>
    rw [hg] at hok
    simp only [Option.map_some, Option.getD_some] at hok ⊢
    split
    · rename_i hb
      rw [if_pos hb] at hok
      obtain ⟨s1, hs1⟩ : ∃ s1, s1 = if g.exact = true then setPrimal m s (g.bound g.trg) (g.lab g.trg) else s := ⟨_, rfl⟩
      rw [← hs1] at hok ⊢
      have hP1 : PInv m s1 := by
        rw [hs1]; split
        · exact hP.set _ _
        · exact hP
      cases hr : restricted (M s1.primal) s1.primal wres fuel (s1.src cur) with
      | none => rfl
      | some r =>
        rw [hr] at hok
        simp only [Option.map_some, Option.getD_some] at hok ⊢
        obtain ⟨s2, hs2⟩ : ∃ s2, s2 = if m.sense.better (r.bound r.trg) s1.primal = true then setPrimal m s1 (r.bound r.trg) (r.lab r.trg) else s1 := ⟨_, rfl⟩
        rw [← hs2] at hok ⊢
        have hP2 : PInv m s2 := by
          rw [hs2]; split
          · exact hP1.set _ _
          · exact hP1
        split
        · rename_i hx
          rw [if_pos hx] at hok
          obtain ⟨hroot, cs, hcs, _, hk, _⟩ := cut_factsP F hgen hopen hg
          rw [hcs] at hok ⊢
          simp only [Option.map_some, Option.getD_some, Bool.and_eq_true] at hok ⊢
          refine ⟨hok, okFold_det hd hdet cs hP2 fun n hn => ?_⟩
          obtain ⟨b1, ⟨ls, c, b2, b3, b4⟩, b5, b6⟩ := hk n hn
          refine ⟨by rw [b2, b3]; exact hgen.trans b4, b1, ?_⟩
          rintro rfl
          have := cut_root (r := s.src cur) F hS hE hgen hopen hg hcs _ hn
          rw [hroot] at this
          exact Nat.lt_irrefl _ this
        · rfl
    · rfl

/-- With these, losing nothing on shortcuts is losing nothing. -/
theorem okLoop_det {Wl : Nat → Int → σ → Int → Prop} {M : Nat → Int → Mdl σ} {lc : Nat → Int → Option (σ → Ctx → Int)} (F : ∀ k, FamV Vl (Wl k) m rank (M k)) (hd : m.sdom = none)
    (hdet : Det m) (hS : Sib m rank) (hE : OneEnd m rank m.sti 0) {p0 : Int} (hp0 : m.sense.betterEQ p0 m.sense.best0 = true) {wres dfuel : Nat} {lim : Nat → Bool} :
    ∀ (f k : Nat) (s : BS σ), PInv m s → TInv m p0 s → scLoopT m M lc wres dfuel lim f k s = true → okLoopT m M lc wres dfuel lim f k s = true := by
  intro f
  induction f with
  | zero => intro k s _ _ _; rfl
  | succ f ih =>
    intro k s hP hT hok
    unfold scLoopT at hok
    unfold okLoopT
    dsimp only at hok ⊢
    by_cases he : Heap.empty s.pq = true
    · rw [if_pos he]
    · rw [if_neg he] at hok ⊢
      obtain ⟨a1, a2, _⟩ := hP.extract (by simpa using he)
      have hT1 : TInv m p0 { s with pq := (Heap.extractMax (qord m) s.pq).1 } := hT.congr ⟨rfl, rfl, rfl, rfl⟩
      split
      · rfl
      · rename_i hl
        rw [if_neg hl] at hok
        split
        · rename_i hb
          rw [if_pos hb] at hok
          simp only [Bool.and_eq_true] at hok ⊢
          refine ⟨okExpand_det (F k) hd hdet hS hE a1 a2 hok.1, ?_⟩
          cases h2 : expandP m (M k) (lc k) wres dfuel { s with pq := (Heap.extractMax (qord m) s.pq).1 } (Heap.extractMax (qord m) s.pq).2.1 with
          | none => rfl
          | some s2 =>
            have hok2 := hok.2
            rw [h2] at hok2
            simp only [Option.map_some, Option.getD_some] at hok2 ⊢
            obtain ⟨b1, b2, _⟩ := expand_inv (F k) hp0 a1 hT1 a2 h2
            exact ih _ _ b1 b2 hok2
        · rename_i hb
          rw [if_neg hb] at hok
          exact ih _ _ a1 hT1 hok

end Verif.BB
