import Verif.ColoringV
import Verif.Props.Coloring
/-!
# C96, C97: the graph-colouring examples that read a file
-/
namespace Verif.Ex
open Verif.DD

/-- The three programs, as what their generators show of the problem at a primal bound.  The colours of
coloring2 and coloring3 are 16-bit numbers. -/
inductive Col.Progs (t : Col) (U : Nat) : (Option Int → Mdl ColS) → Prop
  | coloring : t.K < 2147483647 → Col.Progs t U (t.mdlU U)
  | coloring2 : t.K < 65536 → Col.Progs t U (t.mdlA U false)
  | coloring3 : t.K < 65536 → Col.Progs t U (t.mdlA U true)

/-! ### Completions of an availability relation -/

/-- `cs` completes at vertex `v`, when the largest colour so far is `k` and `Av j c` says colour `c` is still
open to vertex `j`. -/
def CompV (t : Col) (ub : Option Int) (Av : Nat → Nat → Prop) : Nat → Nat → List Nat → Prop
  | v, _, [] => v = t.K
  | v, k, c :: cs => v < t.K ∧ 1 ≤ c ∧ c ≤ k + 1 ∧ Under ub c ∧ Av v c ∧
    (∀ i, i < cs.length → t.adj v (v + 1 + i) = true → cs.getD i 0 ≠ c) ∧ CompV t ub Av (v + 1) (max c k) cs

theorem CompV.mono {t : Col} {ub : Option Int} {A B : Nat → Nat → Prop} : ∀ {cs : List Nat} {v k : Nat},
    (∀ j c, v ≤ j → j < t.K → A j c → B j c) → CompV t ub A v k cs → CompV t ub B v k cs := by
  intro cs
  induction cs with
  | nil => intro v k _ h; exact h
  | cons c cs ih =>
    intro v k hs h
    obtain ⟨h1, h2, h3, h4, h5, h6, h7⟩ := h
    exact ⟨h1, h2, h3, h4, hs v c (Nat.le_refl _) h1 h5, h6, ih (fun j c hj => hs j c (by omega)) h7⟩

theorem CompV.length {t : Col} {ub : Option Int} {A : Nat → Nat → Prop} : ∀ {cs : List Nat} {v k : Nat},
    CompV t ub A v k cs → v + cs.length = t.K := by
  intro cs
  induction cs with
  | nil => intro v k h; exact h
  | cons c cs ih => intro v k h; have := ih h.2.2.2.2.2.2; simp only [List.length_cons]; omega

/-- Forbidding a colour to the neighbours of `u`. -/
theorem CompV.forbid {t : Col} {ub : Option Int} {A B : Nat → Nat → Prop} {u l : Nat}
    (hB : ∀ j d, u < j → j < t.K → (B j d ↔ A j d ∧ (t.adj u j = true → d ≠ l))) : ∀ {cs : List Nat} {v k : Nat}, u < v →
    (CompV t ub B v k cs ↔ CompV t ub A v k cs ∧ ∀ i, i < cs.length → t.adj u (v + i) = true → cs.getD i 0 ≠ l) := by
  intro cs
  induction cs with
  | nil => intro v k _; simp [CompV]
  | cons c cs ih =>
    intro v k hv
    simp only [CompV]
    rw [ih (by omega : u < v + 1)]
    constructor
    · rintro ⟨h1, h2, h3, h4, h5, h6, h7, h8⟩
      obtain ⟨b1, b2⟩ := (hB v c hv h1).1 h5
      refine ⟨⟨h1, h2, h3, h4, b1, h6, h7⟩, ?_⟩
      intro i hi ha
      cases i with
      | zero => exact b2 ha
      | succ i =>
        rw [List.getD_cons_succ]
        exact h8 i (by simpa using hi) (by rw [show v + 1 + i = v + (i + 1) by omega]; exact ha)
    · rintro ⟨⟨h1, h2, h3, h4, h5, h6, h7⟩, h8⟩
      refine ⟨h1, h2, h3, h4, (hB v c hv h1).2 ⟨h5, fun ha => ?_⟩, h6, h7, ?_⟩
      · exact h8 0 (by simp) ha
      · intro i hi ha
        have := h8 (i + 1) (by simpa using hi) (by rw [show v + (i + 1) = v + 1 + i by omega]; exact ha)
        rwa [List.getD_cons_succ] at this

theorem CompV.iff {t : Col} {ub : Option Int} {A : Nat → Nat → Prop} : ∀ (cs : List Nat) (v k : Nat), v ≤ t.K →
    (CompV t ub A v k cs ↔ v + cs.length = t.K ∧ Grow k cs ∧ (∀ c, c ∈ cs → 1 ≤ c ∧ Under ub c) ∧
      (∀ i, i < cs.length → A (v + i) (cs.getD i 0)) ∧
      ∀ i j, i < j → j < cs.length → t.adj (v + i) (v + j) = true → cs.getD j 0 ≠ cs.getD i 0) := by
  intro cs
  induction cs with
  | nil => intro v k hv; simp [CompV, Ex.Grow]
  | cons c cs ih =>
    intro v k hv
    simp only [CompV, Ex.Grow, List.length_cons]
    constructor
    · rintro ⟨h1, h2, h3, h4, h5, h6, h7⟩
      obtain ⟨a1, a2, a3, a4, a5⟩ := (ih (v + 1) _ (by omega)).1 h7
      refine ⟨by omega, ⟨h3, a2⟩, ?_, ?_, ?_⟩
      · intro x hx
        rcases List.mem_cons.1 hx with e | e
        · rw [e]; exact ⟨h2, h4⟩
        · exact a3 x e
      · intro i hi
        cases i with
        | zero => exact h5
        | succ i =>
          rw [List.getD_cons_succ, show v + (i + 1) = v + 1 + i by omega]
          exact a4 i (by omega)
      · intro i j hij hj ha
        cases j with
        | zero => omega
        | succ j =>
          rw [List.getD_cons_succ]
          rw [show v + (j + 1) = v + 1 + j by omega] at ha
          cases i with
          | zero => exact h6 j (by omega) ha
          | succ i =>
            rw [List.getD_cons_succ]
            rw [show v + (i + 1) = v + 1 + i by omega] at ha
            exact a5 i j (by omega) (by omega) ha
    · rintro ⟨h1, ⟨h2, h3⟩, h4, h5, h6⟩
      refine ⟨by omega, (h4 c (by simp)).1, h2, (h4 c (by simp)).2, h5 0 (by omega), ?_, ?_⟩
      · intro i hi ha
        have := h6 0 (i + 1) (by omega) (by omega) (by rw [show v + (i + 1) = v + 1 + i by omega]; exact ha)
        rwa [List.getD_cons_succ] at this
      · refine (ih (v + 1) _ (by omega)).2 ⟨by omega, h3, fun x hx => h4 x (by simp [hx]), ?_, ?_⟩
        · intro i hi
          have := h5 (i + 1) (by omega)
          rwa [List.getD_cons_succ, show v + (i + 1) = v + 1 + i by omega] at this
        · intro i j hij hj ha
          have := h6 (i + 1) (j + 1) (by omega) (by omega) (by
            rw [show v + (i + 1) = v + 1 + i by omega, show v + (j + 1) = v + 1 + j by omega]; exact ha)
          rwa [List.getD_cons_succ, List.getD_cons_succ] at this

/-! ### What the three programs share -/

/-- States read as an availability relation.  `Good` is the shape of the states that come up. -/
structure ColView (t : Col) (U : Nat) (M : Option Int → Mdl ColS) where
  Av : ColS → Nat → Nat → Prop
  Good : ColS → Prop
  nxt : ColS → Nat → ColS
  small : t.K < 2147483647
  sense : ∀ ub, (M ub).sense = .min
  loc : ∀ ub, (M ub).loc = none
  sdom : ∀ ub, (M ub).sdom = none
  stt : ∀ ub, (M ub).stt = t.target
  eqs : ∀ ub x, (M ub).eqs x = decide (x.vtx = t.K)
  stc : ∀ ub x l, (M ub).stc x l = max 0 (l - x.last)
  same : ∀ ub, M ub = { M none with lgf := (M ub).lgf, loc := (M ub).loc }
  sub : ∀ ub s l, l ∈ (M ub).lgf s → l ∈ (M none).lgf s
  root : (M none).sti.vtx = 0 ∧ (M none).sti.last = 0 ∧ Good (M none).sti
  rootAv : ∀ j c, j < t.K → (Av (M none).sti j c ↔ 1 ≤ c ∧ c ≤ U)
  step : ∀ ub x l x', Good x → x.vtx < t.K → x.last ≤ x.vtx → (Step (M ub) x l x' ↔
    ∃ c : Nat, l = c ∧ 1 ≤ c ∧ c ≤ x.last + 1 ∧ Under ub c ∧ Av x x.vtx c ∧
      ((x.vtx + 1 = t.K ∧ x' = t.target) ∨ (x.vtx + 1 < t.K ∧ x' = nxt x c)))
  nxt_good : ∀ x c, Good x → x.vtx < t.K → x.last ≤ x.vtx → 1 ≤ c → c ≤ x.last + 1 →
    Good (nxt x c) ∧ (nxt x c).vtx = x.vtx + 1 ∧ (nxt x c).last = max c x.last ∧
    ∀ j d, x.vtx < j → j < t.K → (Av (nxt x c) j d ↔ Av x j d ∧ (t.adj x.vtx j = true → d ≠ c))
  merge : ∀ ub a b z, (M ub).smf a b = some z → Good a → Good b → a.vtx < t.K → a.last ≤ a.vtx → b.last ≤ b.vtx →
    a.last = b.last ∧ a.vtx = b.vtx ∧ Good z ∧ z.last = a.last ∧ z.vtx = a.vtx ∧
    ∀ j c, a.vtx ≤ j → j < t.K → Av a j c ∨ Av b j c → Av z j c

namespace ColView
variable {t : Col} {U : Nat} {M : Option Int → Mdl ColS} (V : ColView t U M)
include V

theorem sti (ub : Option Int) : (M ub).sti = (M none).sti := by rw [V.same ub]

theorem src0 (ub : Option Int) : (M ub).src0 = (M none).src0 := by
  unfold Mdl.src0; rw [V.sti ub]

/-- Paths to the sink are exactly the completions, and cost the colours they add. -/
theorem path_iff {ub : Option Int} : ∀ (cs : List Nat) {x : ColS} {c : Int}, V.Good x → x.vtx < t.K → x.last ≤ x.vtx →
    (Path (M ub) x (cs.map (fun i : Nat => (i : Int))) c t.target ↔
      CompV t ub (V.Av x) x.vtx x.last cs ∧ c = (top x.last cs : Int) - x.last) := by
  intro cs
  induction cs with
  | nil =>
    intro x c hg hx hl
    constructor
    · intro h
      cases h
      simp [Col.target] at hx
    · rintro ⟨h, _⟩
      simp only [CompV] at h; omega
  | cons b cs ih =>
    intro x c hg hx hl
    rw [List.map_cons]
    constructor
    · intro h
      cases h with
      | @cons _ x' _ _ _ c' hst hp =>
        obtain ⟨b', e, h2, h3, h4, h5, h6⟩ := (V.step ub _ _ _ hg hx hl).1 hst
        have e : b = b' := by omega
        subst e
        have hc := V.stc ub x (b : Int)
        rcases h6 with ⟨a1, a2⟩ | ⟨a1, a2⟩
        · subst a2
          obtain ⟨e1, e2, _⟩ := hp.of_terminal (by rw [V.eqs]; simp [Col.target])
          have e1 : cs = [] := by simpa using e1
          subst e1
          refine ⟨⟨hx, h2, h3, h4, h5, by simp, a1⟩, ?_⟩
          rw [hc, e2]; simp only [top]; omega
        · subst a2
          obtain ⟨n1, n2, n3, n4⟩ := V.nxt_good x b hg hx hl h2 h3
          obtain ⟨i1, i2⟩ := (ih n1 (by omega) (by omega)).1 hp
          rw [n2, n3] at i1
          rw [n3] at i2
          obtain ⟨j1, j2⟩ := (CompV.forbid n4 (by omega : x.vtx < x.vtx + 1)).1 i1
          refine ⟨⟨hx, h2, h3, h4, h5, j2, j1⟩, ?_⟩
          rw [hc, i2]; simp only [top]; omega
    · rintro ⟨⟨h1, h2, h3, h4, h5, h6, h7⟩, hc⟩
      by_cases hk : x.vtx + 1 = t.K
      · have e1 : cs = [] := by
          have := h7.length
          exact List.eq_nil_of_length_eq_zero (by omega)
        subst e1
        have := Path.cons (m := M ub) (ls := []) ((V.step ub x b _ hg hx hl).2 ⟨b, rfl, h2, h3, h4, h5, .inl ⟨hk, rfl⟩⟩) (Path.nil _)
        have e : (M ub).stc x (b : Int) + 0 = c := by
          rw [hc, V.stc ub x (b : Int)]; simp only [top]; omega
        rwa [e] at this
      · have hst := (V.step ub x b _ hg hx hl).2 ⟨b, rfl, h2, h3, h4, h5, .inr ⟨by omega, rfl⟩⟩
        obtain ⟨n1, n2, n3, n4⟩ := V.nxt_good x b hg hx hl h2 h3
        have hp := (ih (x := V.nxt x b) (c := (top (max b x.last) cs : Int) - (max b x.last : Nat)) n1 (by omega) (by omega)).2
          ⟨by rw [n2, n3]; exact (CompV.forbid n4 (by omega : x.vtx < x.vtx + 1)).2 ⟨h7, h6⟩, by rw [n3]⟩
        have := Path.cons hst hp
        have e : (M ub).stc x (b : Int) + ((top (max b x.last) cs : Int) - (max b x.last : Nat)) = c := by
          rw [hc, V.stc ub x (b : Int)]; simp only [top]; omega
        rwa [e] at this

/-- Reachable states with their values. -/
def Ok (x : ColS) (v : Int) : Prop :=
  (x = t.target ∧ 0 ≤ v ∧ v ≤ t.K) ∨ (V.Good x ∧ x.vtx < t.K ∧ v = x.last ∧ x.last ≤ x.vtx)

theorem ok_open {ub : Option Int} {x : ColS} {v : Int} (h : V.Ok x v) (hq : (M ub).eqs x = false) :
    V.Good x ∧ x.vtx < t.K ∧ v = x.last ∧ x.last ≤ x.vtx := by
  rcases h with ⟨h, _⟩ | h
  · rw [h, V.eqs] at hq; simp [Col.target] at hq
  · exact h

theorem ok_step {ub : Option Int} {x x' : ColS} {v l : Int} (h : V.Ok x v) (hs : Step (M ub) x l x') :
    V.Ok x' (v + (M ub).stc x l) := by
  obtain ⟨h1, h2, h3, h4⟩ := V.ok_open h hs.1
  obtain ⟨b, rfl, a1, a2, _, _, a6⟩ := (V.step ub _ _ _ h1 h2 h4).1 hs
  rw [V.stc]
  rcases a6 with ⟨c1, c2⟩ | ⟨c1, c2⟩
  · exact .inl ⟨c2, by omega, by omega⟩
  · subst c2
    obtain ⟨n1, n2, n3, _⟩ := V.nxt_good x b h1 h2 h4 a1 a2
    exact .inr ⟨n1, by omega, by rw [n3]; omega, by omega⟩

/-- Labels on a path are colours. -/
theorem path_nat {ub : Option Int} {x y : ColS} {ls : List Int} {c v : Int} (h : Path (M ub) x ls c y) (hx : V.Ok x v) :
    ∃ cs : List Nat, ls = cs.map (fun i : Nat => (i : Int)) := by
  induction h generalizing v with
  | nil s => exact ⟨[], rfl⟩
  | @cons x x' z l ls c hst hp ih =>
    obtain ⟨cs, e⟩ := ih (V.ok_step hx hst)
    obtain ⟨h1, h2, h3, h4⟩ := V.ok_open hx hst.1
    obtain ⟨b, rfl, _⟩ := (V.step ub _ _ _ h1 h2 h4).1 hst
    exact ⟨b :: cs, by rw [e]; rfl⟩

theorem relx {ub : Option Int} {x : ColS} {v : Int} {s0 : ColS} {v0 : Int} (h0 : V.Ok s0 v0) (h : Relx (M ub) t.rank s0 v0 x v) :
    V.Ok x v := by
  induction h with
  | swap _ _ hsw _ ihsw => obtain rfl := (same_iff _ _).1 hsw; exact ihsw
  | root => exact h0
  | step _ hs ih => exact V.ok_step ih hs
  | mergeL _ _ q1 q2 _ hm ih1 ih2 =>
    obtain ⟨a1, a2, a3, a4⟩ := V.ok_open ih1 q1
    obtain ⟨b1, b2, b3, b4⟩ := V.ok_open ih2 q2
    obtain ⟨e1, e2, e3, e4, e5, _⟩ := V.merge _ _ _ _ hm a1 b1 a2 a4 b4
    exact .inr ⟨e3, by omega, by omega, by omega⟩
  | mergeR _ _ q1 q2 _ hm ih1 ih2 =>
    obtain ⟨a1, a2, a3, a4⟩ := V.ok_open ih1 q1
    obtain ⟨b1, b2, b3, b4⟩ := V.ok_open ih2 q2
    obtain ⟨e1, e2, e3, e4, e5, _⟩ := V.merge _ _ _ _ hm a1 b1 a2 a4 b4
    exact .inr ⟨e3, by omega, by omega, by omega⟩

theorem merge_valid {ub : Option Int} {a b z : ColS} {va vb : Int} (ha : V.Ok a va) (hb : V.Ok b vb) (qa : (M ub).eqs a = false)
    (qb : (M ub).eqs b = false) (h : (M ub).smf a b = some z) {v : Int} (hv : Val (M ub) a v ∨ Val (M ub) b v) : Val (M ub) z v := by
  obtain ⟨a1, a2, a3, a4⟩ := V.ok_open ha qa
  obtain ⟨b1, b2, b3, b4⟩ := V.ok_open hb qb
  obtain ⟨e1, e2, e3, e4, e5, e6⟩ := V.merge _ _ _ _ h a1 b1 a2 a4 b4
  have key : ∀ x vx, V.Ok x vx → V.Good x → x.vtx < t.K → x.last ≤ x.vtx → x.last = z.last → x.vtx = z.vtx →
      (∀ j c, z.vtx ≤ j → j < t.K → V.Av x j c → V.Av z j c) → Val (M ub) x v → Val (M ub) z v := by
    rintro x vx hx x0 x1 x2 x3 x4 x5 ⟨ls, hp⟩
    obtain ⟨cs, rfl⟩ := V.path_nat hp hx
    rw [V.stt] at hp
    obtain ⟨p1, p2⟩ := (V.path_iff cs x0 x1 x2).1 hp
    refine ⟨cs.map (fun i : Nat => (i : Int)), ?_⟩
    rw [V.stt]
    refine (V.path_iff cs e3 (by omega) (by omega)).2 ⟨?_, by rw [← x3]; exact p2⟩
    rw [x3, x4] at p1
    exact p1.mono x5
  rcases hv with hv | hv
  · exact key a va ha a1 a2 a4 e4.symm e5.symm (fun j c h1 h2 h3 => e6 j c (by omega) h2 (.inl h3)) hv
  · exact key b vb hb b1 b2 b4 (by omega) (by omega) (fun j c h1 h2 h3 => e6 j c (by omega) h2 (.inr h3)) hv

theorem layered {ub : Option Int} {s0 : ColS} {v0 : Int} (h0 : V.Ok s0 v0) (hq : (M ub).eqs s0 = false) :
    Layered (M ub) t.rank s0 v0 where
  sink := by rw [V.stt, V.eqs]; simp [Col.target]
  src := hq
  range := by
    intro s v h
    have hs := V.small
    have : v < 2147483647 := by
      rcases V.relx h0 h with ⟨_, _, h2⟩ | ⟨_, h2, h3, h4⟩ <;> omega
    rw [V.sense]
    exact decide_eq_true this
  step := by
    intro s v l s' h hs
    obtain ⟨h1, h2, _, h4⟩ := V.ok_open (V.relx h0 h) hs.1
    obtain ⟨b, rfl, c1, c2, _, _, ⟨_, a⟩ | ⟨_, a⟩⟩ := (V.step ub _ _ _ h1 h2 h4).1 hs
    · left; rw [a, V.eqs]; simp [Col.target]
    · right; rw [a]; exact (V.nxt_good s b h1 h2 h4 c1 c2).2.1
  merge := by
    intro a b c va vb h1 h2 q1 q2 hr hm
    have o1 := V.relx h0 h1
    have o2 := V.relx h0 h2
    have hv := fun v => V.merge_valid o1 o2 q1 q2 hm (v := v)
    obtain ⟨a1, a2, a3, a4⟩ := V.ok_open o1 q1
    obtain ⟨b1, b2, b3, b4⟩ := V.ok_open o2 q2
    obtain ⟨e1, e2, e3, e4, e5, _⟩ := V.merge _ _ _ _ hm a1 b1 a2 a4 b4
    exact ⟨by rw [V.eqs]; simp; omega, e5, fun v h => ⟨v, hv v (.inl h), by rw [Sense.betterEQ_iff]; omega⟩,
      fun v h => ⟨v, hv v (.inr h), by rw [Sense.betterEQ_iff]; omega⟩⟩
  local_ := by intro f hf; rw [V.loc] at hf; simp at hf
  dom := by intro f hf; rw [V.sdom] at hf; simp at hf

theorem ok_root (hn : 1 ≤ t.K) : V.Ok (M none).sti 0 := by
  obtain ⟨h1, h2, h3⟩ := V.root
  exact .inr ⟨h3, by omega, by omega, by omega⟩

theorem layered_root (hn : 1 ≤ t.K) : Layered (M none) t.rank (M none).sti 0 :=
  V.layered (V.ok_root hn) (by rw [V.eqs, V.root.1]; simp; omega)

theorem reach {s : ColS} {ls : List Int} {v : Int} (hn : 1 ≤ t.K) (h : Path (M none) (M none).sti ls v s) : V.Ok s v := by
  have := V.relx (ub := none) (V.ok_root hn) (h.relx (rank := t.rank) (v0 := 0) Relx.root)
  rwa [Int.zero_add] at this

/-- The generators only drop colours that cannot improve on the primal bound. -/
theorem fam_ok (hn : 1 ≤ t.K) : Fam (M none) t.rank (fun p => M (some p)) where
  same := fun p => V.same (some p)
  sub := fun p s l h => V.sub (some p) s l h
  back := fun p _ _ h => val_sub (V.same (some p)) (V.sub (some p)) h
  keep := by
    rintro p s ls v c hp ⟨ls', hv⟩ hb
    rw [V.sense] at hb
    have hb : v + c < p := by simpa [Sense.better] using hb
    have ho := V.reach hn hp
    rw [V.stt] at hv
    by_cases hq : (M none).eqs s = true
    · obtain ⟨e1, e2, e3⟩ := hv.of_terminal hq
      subst e1; subst e2
      refine ⟨[], ?_⟩
      rw [V.stt, e3]; exact Path.nil _
    · obtain ⟨a1, a2, a3, a4⟩ := V.ok_open (ub := none) ho (Bool.eq_false_iff.2 hq)
      obtain ⟨cs, rfl⟩ := V.path_nat hv ho
      obtain ⟨b1, b2⟩ := (V.path_iff cs a1 a2 a4).1 hv
      refine ⟨cs.map (fun i : Nat => (i : Int)), ?_⟩
      rw [V.stt]
      refine (V.path_iff (ub := some p) cs a1 a2 a4).2 ⟨?_, b2⟩
      have hlim : ∀ c, c ∈ cs → (c : Int) ≤ p := by
        intro c hc
        have := mem_le_top cs s.last c hc
        omega
      clear hv b2
      have : ∀ (cs : List Nat) (v k : Nat), (∀ c, c ∈ cs → (c : Int) ≤ p) → CompV t none (V.Av s) v k cs → CompV t (some p) (V.Av s) v k cs := by
        intro cs
        induction cs with
        | nil => intro v k _ h; exact h
        | cons c cs ih =>
          intro v k hl h
          obtain ⟨h1, h2, h3, h4, h5, h6, h7⟩ := h
          exact ⟨h1, h2, h3, fun q hq => by injection hq with hq; rw [← hq]; exact hl c (by simp), h5, h6, ih _ _ (fun c h => hl c (by simp [h])) h7⟩
      exact this cs _ _ hlim b1
  lay := by
    intro p s ls v hp hq
    exact V.layered (V.reach hn hp) (by rw [V.eqs] at hq ⊢; exact hq)

theorem sol_iff (hn : 1 ≤ t.K) (ls : List Int) (c : Int) : Sol (M none) ls c ↔
    ∃ cs : List Nat, ls = cs.map (fun i : Nat => (i : Int)) ∧ t.Proper cs ∧ Grow 0 cs ∧ (∀ x, x ∈ cs → x ≤ U) ∧ c = top 0 cs := by
  have hadj : ∀ a b, t.adj a b = true ↔ (a, b) ∈ t.es ∨ (b, a) ∈ t.es := by intro a b; simp [Col.adj]
  obtain ⟨r1, r2, r3⟩ := V.root
  have hC : ∀ cs : List Nat, CompV t none (V.Av (M none).sti) 0 0 cs ↔ t.Proper cs ∧ Grow 0 cs ∧ ∀ x, x ∈ cs → x ≤ U := by
    intro cs
    rw [CompV.iff cs 0 0 (by omega)]
    constructor
    · rintro ⟨h1, h2, h3, h4, h5⟩
      refine ⟨⟨by omega, fun c hc => (h3 c hc).1, ?_⟩, h2, fun c hc => ?_⟩
      · intro a b hab ha hb hne
        by_cases hlt : a < b
        · have := h5 a b hlt (by omega) (by rw [Nat.zero_add, Nat.zero_add]; exact (hadj a b).2 (.inl hab))
          exact fun e => this e.symm
        · exact h5 b a (by omega) (by omega) (by rw [Nat.zero_add, Nat.zero_add]; exact (hadj b a).2 (.inr hab))
      · obtain ⟨i, hi, rfl⟩ := List.getElem_of_mem hc
        have := h4 i hi
        rw [Nat.zero_add, V.rootAv _ _ (by omega), List.getD_eq_getElem?_getD, List.getElem?_eq_getElem hi] at this
        exact this.2
    · rintro ⟨⟨h1, h2, h3⟩, h4, h5⟩
      refine ⟨by omega, h4, fun c hc => ⟨h2 c hc, fun p hp => by simp at hp⟩, ?_, ?_⟩
      · intro i hi
        rw [Nat.zero_add, V.rootAv _ _ (by omega), List.getD_eq_getElem?_getD, List.getElem?_eq_getElem hi]
        exact ⟨h2 _ (List.getElem_mem hi), h5 _ (List.getElem_mem hi)⟩
      · intro i j hij hj ha
        rw [Nat.zero_add, Nat.zero_add] at ha
        rcases (hadj i j).1 ha with e | e
        · exact fun h => h3 i j e (by omega) (by omega) (by omega) h.symm
        · exact h3 j i e (by omega) (by omega) (by omega)
  constructor
  · intro h
    obtain ⟨cs, rfl⟩ := V.path_nat h (V.ok_root hn)
    have h : Path (M none) (M none).sti (cs.map (fun i : Nat => (i : Int))) c t.target := by rw [← V.stt none]; exact h
    obtain ⟨h1, h2⟩ := (V.path_iff cs r3 (by omega) (by omega)).1 h
    rw [r1, r2] at h1
    obtain ⟨a, b, d⟩ := (hC cs).1 h1
    exact ⟨cs, rfl, a, b, d, by rw [h2, r2]; simp⟩
  · rintro ⟨cs, rfl, a, b, d, e⟩
    show Path (M none) (M none).sti _ c (M none).stt
    rw [V.stt]
    exact (V.path_iff cs r3 (by omega) (by omega)).2 ⟨by rw [r1, r2]; exact (hC cs).2 ⟨a, b, d⟩, by rw [e, r2]; simp⟩

theorem chromatic (hn : 1 ≤ t.K) (q : Nat) : (∃ ls c, Sol (M none) ls c ∧ c ≤ q) ↔ t.Colourable (min q U) := by
  rw [← coloring_chromatic t hn]
  constructor
  · rintro ⟨ls, c, hs, hc⟩
    obtain ⟨cs, a1, a2, a3, a4, a5⟩ := (V.sol_iff hn ls c).1 hs
    refine ⟨ls, c, (t.sol_iff (ub := none) hn ls c).2 ⟨cs, a1, a2, a3, fun _ _ p hp => by simp at hp, a5⟩, ?_⟩
    have := top_le cs 0 U (by omega) a4
    omega
  · rintro ⟨ls, c, hs, hc⟩
    obtain ⟨cs, a1, a2, a3, a4, a5⟩ := (t.sol_iff (ub := none) hn ls c).1 hs
    exact ⟨ls, c, (V.sol_iff hn ls c).2 ⟨cs, a1, a2, a3, fun x hx => by have := mem_le_top cs 0 x hx; omega, a5⟩, by omega⟩

theorem rankBound (hn : 1 ≤ t.K) : RankBound (M none) t.rank (M none).sti 0 t.K := by
  intro s v h _
  rcases V.relx (ub := none) (V.ok_root hn) h with ⟨h, _⟩ | ⟨_, h, _⟩
  · rw [h]; exact Nat.le_refl _
  · exact Nat.le_of_lt h

theorem worst (hn : 1 ≤ t.K) (ls : List Int) (c : Int) (hs : Sol (M none) ls c) : (M none).sense.betterEQ (M none).sense.worst0 c = true := by
  obtain ⟨cs, _, _, _, _, h5⟩ := (V.sol_iff hn _ _).1 hs
  rw [V.sense, h5]
  have h : (-2147483647 : Int) ≤ (top 0 cs : Nat) := by omega
  exact decide_eq_true h

/-- From the engine's conclusions to colourings. -/
theorem answer (hn : 1 ≤ t.K) (hU : t.Colourable U) {p : Int} {inc : List Int} (h1 : ∀ ls c, Sol (M none) ls c → (M none).sense.betterEQ p c = true)
    (h2 : Sol (M none) inc p ∨ (p = 2147483647 ∧ ∀ ls c, Sol (M none) ls c → (M none).sense.better c 2147483647 = false)) :
    ∃ q : Nat, p = q ∧ t.Colourable q ∧ (∀ k, t.Colourable k → q ≤ k) ∧
      ∃ cs : List Nat, inc = cs.map (fun i : Nat => (i : Int)) ∧ t.Proper cs ∧ ∀ c, c ∈ cs → c ≤ q := by
  have hle : ∀ k, t.Colourable k → p ≤ min k U := by
    intro k hk
    have hk : t.Colourable (min k U) := by
      by_cases h : k ≤ U
      · rwa [Nat.min_eq_left h]
      · rwa [Nat.min_eq_right (by omega)]
    obtain ⟨ls, c, a, b⟩ := (V.chromatic hn (min k U)).2 (by rw [show min (min k U) U = min k U by omega]; exact hk)
    have := h1 ls c a
    rw [V.sense] at this
    have : p ≤ c := by simpa [Sense.betterEQ] using this
    omega
  rcases h2 with h2 | ⟨h2, h3⟩
  · obtain ⟨cs, a1, a2, a3, a4, a5⟩ := (V.sol_iff hn _ _).1 h2
    refine ⟨top 0 cs, a5, ?_, fun k hk => by have := hle k hk; omega, cs, a1, a2, fun c hc => mem_le_top cs 0 c hc⟩
    have := (V.chromatic hn (top 0 cs)).1 ⟨inc, p, h2, by omega⟩
    have h4 := top_le cs 0 U (by omega) a4
    rwa [Nat.min_eq_left h4] at this
  · exfalso
    have := hle t.K t.trivial_colourable
    have := V.small
    omega

end ColView

/-! ### The programs -/

theorem mem_colours {last : Nat} {ub : Option Int} {l : Int} : l ∈ colours last ub ↔ ∃ c : Nat, l = c ∧ 1 ≤ c ∧ c ≤ last + 1 ∧ Under ub c := by
  unfold colours
  rw [List.mem_filter, List.mem_map]
  constructor
  · rintro ⟨⟨i, hi, rfl⟩, h⟩
    simp only [List.mem_range] at hi
    refine ⟨i + 1, by omega, by omega, by omega, ?_⟩
    intro p hp
    subst hp
    simpa using h
  · rintro ⟨c, rfl, h1, h2, h3⟩
    refine ⟨⟨c - 1, by simp only [List.mem_range]; omega, by omega⟩, ?_⟩
    cases ub with
    | none => rfl
    | some p => simpa using h3 p rfl

theorem labelsU_bit (U c : Nat) : (labelsU U).testBit c = true ↔ 1 ≤ c ∧ c ≤ U := by
  unfold labelsU
  have h2 : 1 < 2 ^ (U + 1) := by
    have : 2 ^ 0 < 2 ^ (U + 1) := Nat.pow_lt_pow_right (by omega) (by omega)
    exact this
  have := Nat.testBit_two_pow_sub_succ h2 c
  rw [show 2 ^ (U + 1) - 2 = 2 ^ (U + 1) - (1 + 1) from rfl, this, show Nat.testBit 1 c = decide (0 = c) from Nat.testBit_two_pow (n := 0)]
  simp; omega

theorem getD_map_range {n j : Nat} (f : Nat → Nat) (hj : j < n) : ((List.range n).map f).getD j 0 = f j := by
  rw [List.getD_eq_getElem?_getD, List.getElem?_map, List.getElem?_range hj]
  rfl

theorem Col.nextAll_bit (t : Col) {s : List Nat} {v l j c : Nat} (hj : v < j) (hl : j < s.length) :
    ((t.nextAll s v l).getD j 0).testBit c = true ↔ (s.getD j 0).testBit c = true ∧ (t.adj v j = true → c ≠ l) := by
  have e : (t.nextAll s v l).getD j 0 = if t.adj v j = true ∧ (s.getD j 0).testBit l = true then s.getD j 0 ^^^ 2 ^ l
      else s.getD j 0 := by
    unfold Col.nextAll
    rw [getD_map_range _ hl, if_neg (by omega)]
  rw [e]
  by_cases ha : t.adj v j = true
  · by_cases hb : (s.getD j 0).testBit l = true
    · rw [if_pos ⟨ha, hb⟩, Nat.testBit_xor, Nat.testBit_two_pow]
      by_cases hc : l = c
      · subst hc; rw [hb]; simp [ha]
      · simp [hc, ha]
        intro _ h; exact hc h.symm
    · rw [if_neg (by intro h; exact hb h.2)]
      constructor
      · intro h; exact ⟨h, fun _ hc => hb (hc ▸ h)⟩
      · exact fun h => h.1
  · rw [if_neg (by intro h; exact ha h.1)]
    simp [ha]

/-- coloring.cpp: a colour is open to a vertex when it is in its set. -/
def Col.viewU (t : Col) (U : Nat) (hK : t.K < 2147483647) : ColView t U (t.mdlU U) where
  Av := fun x j c => (x.s.getD j 0).testBit c = true
  Good := fun x => x.s.length = t.K
  nxt := fun x c => ⟨t.nextAll x.s x.vtx c, max c x.last, x.vtx + 1⟩
  small := hK
  sense := fun _ => rfl
  loc := fun _ => rfl
  sdom := fun _ => rfl
  stt := fun _ => rfl
  eqs := fun _ _ => rfl
  stc := fun _ _ _ => rfl
  same := fun _ => rfl
  sub := by
    intro ub s l h
    simp only [Col.mdlU] at h ⊢
    by_cases hc : s.vtx ≥ t.K
    · rw [if_pos hc] at h; simp at h
    · rw [if_neg hc] at h ⊢
      rw [mem_colours] at h ⊢
      obtain ⟨c, h1, h2, h3, _⟩ := h
      exact ⟨c, h1, h2, h3, fun p hp => by simp at hp⟩
  root := ⟨rfl, rfl, by simp [Col.mdlU]⟩
  rootAv := by
    intro j c hj
    simp only [Col.mdlU]
    rw [List.getD_eq_getElem?_getD, List.getElem?_replicate, if_pos hj]
    exact labelsU_bit U c
  step := by
    intro ub x l x' hg hx _
    have h1 : (t.mdlU U ub).eqs x = false := by simp [Col.mdlU]; omega
    have hl : l ∈ (t.mdlU U ub).lgf x ↔ ∃ c : Nat, l = c ∧ 1 ≤ c ∧ c ≤ x.last + 1 ∧ Under ub c := by
      simp only [Col.mdlU]
      rw [if_neg (by omega), mem_colours]
    unfold Step
    rw [h1, hl]
    constructor
    · rintro ⟨_, ⟨c, rfl, h2, h3, h4⟩, h⟩
      simp only [Col.mdlU, Int.toNat_natCast] at h
      by_cases hb : (x.s.getD x.vtx 0).testBit c = true
      · rw [if_pos hb] at h
        refine ⟨c, rfl, h2, h3, h4, hb, ?_⟩
        by_cases hk : x.vtx + 1 = t.K
        · rw [if_pos hk] at h
          exact .inl ⟨hk, by simpa using h.symm⟩
        · rw [if_neg hk] at h
          exact .inr ⟨by omega, by simpa using h.symm⟩
      · rw [if_neg hb] at h; simp at h
    · rintro ⟨c, rfl, h2, h3, h4, h5, h6⟩
      refine ⟨rfl, ⟨c, rfl, h2, h3, h4⟩, ?_⟩
      simp only [Col.mdlU, Int.toNat_natCast]
      rw [if_pos h5]
      rcases h6 with ⟨a, b⟩ | ⟨a, b⟩
      · rw [if_pos a, b]
      · rw [if_neg (by omega), b]
  nxt_good := by
    intro x c hg hx _ _ _
    have hg : x.s.length = t.K := hg
    exact ⟨by simp [Col.nextAll]; exact hg, rfl, rfl, fun j d h1 h2 => t.nextAll_bit h1 (by omega)⟩
  merge := by
    intro ub a b z h ha hb _ _ _
    simp only [Col.mdlU] at h
    by_cases hc : a.last = b.last ∧ a.vtx = b.vtx
    · rw [if_pos hc] at h
      have h := (Option.some.inj h).symm
      subst h
      have ha : a.s.length = t.K := ha
      refine ⟨hc.1, hc.2, by simpa using ha, rfl, rfl, ?_⟩
      intro j c _ h2 h3
      show ((List.map _ (List.range a.s.length)).getD j 0).testBit c = true
      rw [getD_map_range _ (by omega), if_pos h2, Nat.testBit_or, Bool.or_eq_true]
      exact h3
    · rw [if_neg hc] at h; simp at h

/-- coloring2 and coloring3: a colour is open to a vertex when no coloured neighbour has it. -/
def Col.viewA (t : Col) (U : Nat) (below : Bool) (hK : t.K < 65536) : ColView t U (t.mdlA U below) where
  Av := fun x j c => (1 ≤ c ∧ c ≤ U) ∧ ∀ a, a < x.vtx → t.adj a j = true → x.s.getD a 0 = 0 ∨ x.s.getD a 0 ≠ c
  Good := fun x => x.s.length = t.K ∧ ∀ j, x.vtx ≤ j → x.s.getD j 0 = 0
  nxt := fun x c => ⟨x.s.set x.vtx c, max c x.last, x.vtx + 1⟩
  small := by omega
  sense := fun _ => rfl
  loc := fun _ => rfl
  sdom := fun _ => rfl
  stt := fun _ => rfl
  eqs := fun _ _ => rfl
  stc := fun _ _ _ => rfl
  same := fun _ => rfl
  sub := by
    intro ub s l h
    simp only [Col.mdlA] at h ⊢
    by_cases hc : s.vtx ≥ t.K
    · rw [if_pos hc] at h; simp at h
    · rw [if_neg hc] at h ⊢
      rw [List.mem_filter] at h ⊢
      refine ⟨?_, h.2⟩
      obtain ⟨c, h1, h2, h3, _⟩ := mem_colours.1 h.1
      exact mem_colours.2 ⟨c, h1, h2, h3, fun p hp => by simp at hp⟩
  root := ⟨rfl, rfl, by
    refine ⟨by simp [Col.mdlA], fun j _ => ?_⟩
    simp only [Col.mdlA]
    rw [List.getD_eq_getElem?_getD, List.getElem?_replicate]
    split <;> rfl⟩
  rootAv := by
    intro j c _
    exact ⟨fun h => h.1, fun h => ⟨h, fun a ha => by simp [Col.mdlA] at ha⟩⟩
  step := by
    intro ub x l x' hg hx hlv
    obtain ⟨g1, g2⟩ := hg
    have hsym : ∀ a b, t.adj a b = t.adj b a := by intro a b; simp [Col.adj, Bool.or_comm]
    have h1 : (t.mdlA U below ub).eqs x = false := by simp [Col.mdlA]; omega
    have hl : l ∈ (t.mdlA U below ub).lgf x ↔ ∃ c : Nat, l = c ∧ 1 ≤ c ∧ c ≤ x.last + 1 ∧ Under ub c ∧
        (1 ≤ c ∧ c ≤ U) ∧ ∀ a, a < x.vtx → t.adj a x.vtx = true → x.s.getD a 0 = 0 ∨ x.s.getD a 0 ≠ c := by
      simp only [Col.mdlA]
      rw [if_neg (by omega), List.mem_filter, mem_colours]
      constructor
      · rintro ⟨⟨c, rfl, h2, h3, h4⟩, h⟩
        rw [Bool.and_eq_true, List.all_eq_true] at h
        obtain ⟨h5, h6⟩ := h
        have h5 : (c : Int) ≤ U := by simpa using h5
        refine ⟨c, rfl, h2, h3, h4, ⟨h2, by omega⟩, ?_⟩
        intro a ha hadj
        have := h6 a (by simp only [List.mem_range]; omega)
        rw [show t.nbr below x.vtx a = true by unfold Col.nbr; rw [hsym, hadj]; simp; right; omega] at this
        simp only [Bool.not_true, Bool.false_or, Bool.or_eq_true, beq_iff_eq, decide_eq_true_iff] at this
        rcases this with e | e
        · exact .inl e
        · exact .inr (by omega)
      · rintro ⟨c, rfl, h2, h3, h4, h5, h6⟩
        refine ⟨⟨c, rfl, h2, h3, h4⟩, ?_⟩
        rw [Bool.and_eq_true, List.all_eq_true]
        refine ⟨by simp; omega, fun a ha => ?_⟩
        by_cases hv : a < x.vtx
        · by_cases hn : t.nbr below x.vtx a = true
          · have hadj : t.adj a x.vtx = true := by
              unfold Col.nbr at hn
              rw [Bool.and_eq_true] at hn
              rw [hsym]; exact hn.1
            rcases h6 a hv hadj with e | e
            · rw [e]; simp
            · rw [Bool.or_eq_true]; right
              exact decide_eq_true (by omega)
          · rw [Bool.eq_false_iff.2 hn]; rfl
        · rw [g2 a (by omega)]; simp
    unfold Step
    rw [h1, hl]
    have hstf : ∀ c : Nat, c ≤ x.last + 1 → (t.mdlA U below ub).stf x (c : Int) = if x.vtx + 1 = t.K then some t.target
        else some ⟨x.s.set x.vtx c, max c x.last, x.vtx + 1⟩ := by
      intro c hc
      simp only [Col.mdlA, Int.toNat_natCast]
      rw [Nat.mod_eq_of_lt (by omega)]
    constructor
    · rintro ⟨_, ⟨c, rfl, h2, h3, h4, h5, h6⟩, h⟩
      rw [hstf c h3] at h
      refine ⟨c, rfl, h2, h3, h4, ⟨h5, h6⟩, ?_⟩
      by_cases hk : x.vtx + 1 = t.K
      · rw [if_pos hk] at h
        exact .inl ⟨hk, by simpa using h.symm⟩
      · rw [if_neg hk] at h
        exact .inr ⟨by omega, by simpa using h.symm⟩
    · rintro ⟨c, rfl, h2, h3, h4, h5, h6⟩
      refine ⟨rfl, ⟨c, rfl, h2, h3, h4, h5⟩, ?_⟩
      rw [hstf c h3]
      rcases h6 with ⟨a, b⟩ | ⟨a, b⟩
      · rw [if_pos a, b]
      · rw [if_neg (by omega), b]
  nxt_good := by
    intro x c hg hx hlv hc1 hc2
    obtain ⟨g1, g2⟩ := hg
    have hget : ∀ a, (x.s.set x.vtx c).getD a 0 = if a = x.vtx then c else x.s.getD a 0 := by
      intro a
      rw [List.getD_eq_getElem?_getD, List.getElem?_set, List.getD_eq_getElem?_getD]
      by_cases h : x.vtx = a
      · rw [if_pos h, if_pos h.symm, if_pos (by omega)]; rfl
      · rw [if_neg h, if_neg (fun e => h e.symm)]
    refine ⟨⟨by simpa using g1, fun j hj => ?_⟩, rfl, rfl, fun j d h1 h2 => ?_⟩
    · have hj : x.vtx + 1 ≤ j := hj
      show (x.s.set x.vtx c).getD j 0 = 0
      rw [hget, if_neg (by omega)]; exact g2 j (by omega)
    · constructor
      · rintro ⟨e1, e2⟩
        have e2 : ∀ a, a < x.vtx + 1 → t.adj a j = true → (x.s.set x.vtx c).getD a 0 = 0 ∨ (x.s.set x.vtx c).getD a 0 ≠ d := e2
        refine ⟨⟨e1, fun a ha hadj => ?_⟩, fun hadj => ?_⟩
        · have := e2 a (by omega) hadj
          rwa [hget, if_neg (by omega)] at this
        · have := e2 x.vtx (by omega) hadj
          rw [hget, if_pos rfl] at this
          omega
      · rintro ⟨⟨e1, e2⟩, e3⟩
        refine ⟨e1, fun a ha hadj => ?_⟩
        have ha : a < x.vtx + 1 := ha
        show (x.s.set x.vtx c).getD a 0 = 0 ∨ (x.s.set x.vtx c).getD a 0 ≠ d
        rw [hget]
        by_cases h : a = x.vtx
        · rw [if_pos h]
          right
          have := e3 (h ▸ hadj)
          omega
        · rw [if_neg h]; exact e2 a (by omega) hadj
  merge := by
    intro ub a b z h ha hb hv _ _
    obtain ⟨a1, a2⟩ := ha
    obtain ⟨b1, b2⟩ := hb
    simp only [Col.mdlA] at h
    by_cases hc : a.last = b.last ∧ a.vtx = b.vtx
    · rw [if_pos hc] at h
      have h := (Option.some.inj h).symm
      subst h
      refine ⟨hc.1, hc.2, ⟨by simpa using a1, fun j hj => ?_⟩, rfl, rfl, ?_⟩
      · have hj : a.vtx ≤ j := hj
        show (List.map _ (List.range a.s.length)).getD j 0 = 0
        by_cases hjl : j < a.s.length
        · rw [getD_map_range _ hjl, a2 j hj, b2 j (by omega)]
          simp
        · rw [List.getD_eq_getElem?_getD, List.getElem?_eq_none (by simp; omega)]; rfl
      · intro j c _ _ h3
        refine ⟨by rcases h3 with h3 | h3 <;> exact h3.1, fun u hu hadj => ?_⟩
        have hu : u < a.vtx := hu
        show (List.map _ (List.range a.s.length)).getD u 0 = 0 ∨ (List.map _ (List.range a.s.length)).getD u 0 ≠ c
        rw [getD_map_range _ (by omega), if_pos (by omega)]
        by_cases he : a.s.getD u 0 = b.s.getD u 0
        · rw [if_pos he]
          rcases h3 with h3 | h3
          · exact h3.2 u hu hadj
          · rw [he]; exact h3.2 u (by omega) hadj
        · rw [if_neg he]; exact .inl rfl
    · rw [if_neg hc] at h; simp at h

theorem Col.Progs.view {t : Col} {U : Nat} {M : Option Int → Mdl ColS} (h : t.Progs U M) : Nonempty (ColView t U M) := by
  cases h with
  | coloring h => exact ⟨t.viewU U h⟩
  | coloring2 h => exact ⟨t.viewA U false h⟩
  | coloring3 h => exact ⟨t.viewA U true h⟩

/-! ### C96 -/

variable {t : Col} {U : Nat} {M : Option Int → Mdl ColS}

/-- C96: the solutions of each program are the proper colourings with colours up to the bound of the file
whose colours enter in order; the cost is the largest colour. -/
theorem colv_sol (hM : t.Progs U M) (hn : 1 ≤ t.K) (ls : List Int) (c : Int) : Sol (M none) ls c ↔
    ∃ cs : List Nat, ls = cs.map (fun i : Nat => (i : Int)) ∧ t.Proper cs ∧ Grow 0 cs ∧ (∀ x, x ∈ cs → x ≤ U) ∧ c = top 0 cs := by
  obtain ⟨V⟩ := hM.view
  exact V.sol_iff hn ls c

/-- C96: there is a solution of cost at most `q` exactly if `min q U` colours are enough: with a bound
in the file that is at least the chromatic number the optimum is the chromatic number, with a
smaller one there is no solution. -/
theorem colv_chromatic (hM : t.Progs U M) (hn : 1 ≤ t.K) (q : Nat) : (∃ ls c, Sol (M none) ls c ∧ c ≤ q) ↔ t.Colourable (min q U) := by
  obtain ⟨V⟩ := hM.view
  exact V.chromatic hn q

/-- C96: merging two open states that come up in a diagram keeps every completion of both, at the same
cost, at any primal bound. -/
theorem colv_merge_valid (hM : t.Progs U M) (hn : 1 ≤ t.K) {ub : Option Int} {a b z : ColS} {va vb : Int}
    (ha : Relx (M ub) t.rank (M ub).sti 0 a va) (hb : Relx (M ub) t.rank (M ub).sti 0 b vb)
    (qa : a.vtx < t.K) (qb : b.vtx < t.K) (h : (M ub).smf a b = some z) {v : Int}
    (hv : Val (M ub) a v ∨ Val (M ub) b v) : Val (M ub) z v := by
  obtain ⟨V⟩ := hM.view
  rw [V.sti] at ha hb
  exact V.merge_valid (V.relx (V.ok_root hn) ha) (V.relx (V.ok_root hn) hb) (by rw [V.eqs]; simp; omega) (by rw [V.eqs]; simp; omega) h hv

/-- C96: at any primal bound, and whatever the width, the relaxed diagram bounds from below the number of
colours of every colouring with fewer colours than the primal bound and at most `U`. -/
theorem colv_dual (hM : t.Progs U M) (hn : 1 ≤ t.K) {p : Int} {w f : Nat} {g : G ColS}
    (h : relaxed (M (some p)) p w f (M (some p)).src0 = some g) {q : Nat} (hq : t.Colourable q) (hU : q ≤ U) (hp : (q : Int) < p) :
    g.bound g.trg ≤ q := by
  obtain ⟨V⟩ := hM.view
  obtain ⟨ls, c, hs, hc⟩ := (V.chromatic hn q).2 (by rwa [Nat.min_eq_left hU])
  rw [V.src0] at h
  have := (V.fam_ok hn).relaxed_dual (r := (M none).src0) (p := p) (Path.nil _) (V.layered_root hn).src h (c := c) ⟨ls, hs⟩ (by
    rw [V.sense]
    simp [Mdl.src0, Sense.better]; omega)
  rw [V.sense] at this
  have : g.bound g.trg ≤ 0 + c := by simpa [Mdl.src0, Sense.betterEQ] using this
  omega

/-! ### C97 -/

/-- C97: everything the searches report is a proper colouring with colours up to the value and up to `U`. -/
theorem colv_search_sound (hM : t.Progs U M) (hn : 1 ≤ t.K) {w dfuel fuel : Nat} {lim : Nat → Bool} {s : BB.BS ColS}
    (h : BB.searchP (M none) (fun p => M (some p)) w dfuel lim fuel 2147483647 = some s) :
    ∀ x, x ∈ s.sols → ∃ cs : List Nat, x.2 = cs.map (fun i : Nat => (i : Int)) ∧ t.Proper cs ∧ ∀ c, c ∈ cs → (c : Int) ≤ x.1 ∧ c ≤ U := by
  obtain ⟨V⟩ := hM.view
  intro x hx
  obtain ⟨cs, h1, h2, _, h4, h5⟩ := (V.sol_iff hn _ _).1 ((BB.searchP_sound (V.fam_ok hn) (V.layered_root hn) (by rw [V.sense]; rfl) h).1 x hx)
  exact ⟨cs, h1, h2, fun c hc => ⟨by rw [h5]; have := mem_le_top cs 0 c hc; omega, h4 c hc⟩⟩

theorem checker_fold (es : List (Nat × Nat)) (inc : List Int) : ∀ (b : Bool), (∀ e ∈ es, e.1 < inc.length ∧ e.2 < inc.length) →
    es.foldlM (fun ok e => (edgeOk inc e).map (ok && ·)) b = some (b && es.all fun e => inc.getD e.1 0 != inc.getD e.2 0) := by
  induction es with
  | nil => intro b _; simp
  | cons e es ih =>
    intro b h
    obtain ⟨h1, h2⟩ := h e (by simp)
    have he : edgeOk inc e = some (inc.getD e.1 0 != inc.getD e.2 0) := by
      unfold edgeOk
      simp [List.getElem?_eq_getElem h1, List.getElem?_eq_getElem h2, List.getD_eq_getElem?_getD]
    rw [List.foldlM_cons, he]
    simp only [Option.map_some, Option.bind_eq_bind, Option.bind_some]
    rw [ih _ (fun e he => h e (by simp [he])), List.all_cons, Bool.and_assoc]

/-- C97: the check of the incumbent never fails, for a graph whose edges join distinct vertices of it. -/
theorem colv_checker (hM : t.Progs U M) (hn : 1 ≤ t.K) (hE : ∀ e ∈ t.es, e.1 < t.K ∧ e.2 < t.K ∧ e.1 ≠ e.2)
    {w dfuel fuel : Nat} {lim : Nat → Bool} {s : BB.BS ColS}
    (h : BB.searchP (M none) (fun p => M (some p)) w dfuel lim fuel 2147483647 = some s) :
    ∀ x, x ∈ s.sols → t.checker x.2 = some true := by
  intro x hx
  obtain ⟨cs, h1, ⟨h2, h3, h4⟩, _⟩ := colv_search_sound hM hn h x hx
  unfold Col.checker
  rw [h1, checker_fold _ _ _ (fun e he => by rw [List.length_map, h2]; exact ⟨(hE e he).1, (hE e he).2.1⟩)]
  rw [Bool.true_and, Option.some.injEq, List.all_eq_true]
  intro e he
  obtain ⟨e1, e2, e3⟩ := hE e he
  have := h4 e.1 e.2 he e1 e2 e3
  have g : ∀ i, i < t.K → (cs.map (fun i : Nat => (i : Int))).getD i 0 = ((cs.getD i 0 : Nat) : Int) := by
    intro i hi
    simp only [List.getD_eq_getElem?_getD, List.getElem?_map, List.getElem?_eq_getElem (show i < cs.length by omega), Option.map_some, Option.getD_some]
  rw [g _ e1, g _ e2]
  simp only [bne_iff_ne, ne_eq]
  omega

/-- C97: the searches end. -/
theorem colv_search_ends (hM : t.Progs U M) (hn : 1 ≤ t.K) (w : Nat) {dfuel : Nat} (hf : t.K + 2 ≤ dfuel) (lim : Nat → Bool) :
    ∃ L, ∀ fuel, L < fuel → ∃ s, BB.searchP (M none) (fun p => M (some p)) w dfuel lim fuel 2147483647 = some s ∧
      (s.stopped = true ∨ Heap.empty s.pq = true) := by
  obtain ⟨V⟩ := hM.view
  exact BB.searchP_ends (V.fam_ok hn) (V.layered_root hn) (by rw [V.sense]; rfl) (V.rankBound hn) w hf lim

/-- C97: with a bound in the file below the chromatic number the searches report nothing. -/
theorem colv_search_low (hM : t.Progs U M) (hn : 1 ≤ t.K) (hU : ¬ t.Colourable U) {w dfuel fuel : Nat} {lim : Nat → Bool} {s : BB.BS ColS}
    (h : BB.searchP (M none) (fun p => M (some p)) w dfuel lim fuel 2147483647 = some s) : s.sols = [] := by
  obtain ⟨V⟩ := hM.view
  refine List.eq_nil_iff_forall_not_mem.2 (fun x hx => hU ?_)
  have hs := (BB.searchP_sound (V.fam_ok hn) (V.layered_root hn) (by rw [V.sense]; rfl) h).1 x hx
  obtain ⟨cs, h1, h2, _, h4, h5⟩ := (V.sol_iff hn _ _).1 hs
  have := (V.chromatic hn U).1 ⟨_, _, hs, by rw [h5]; have := top_le cs 0 U (by omega) h4; omega⟩
  rwa [Nat.min_self] at this

/-- C97: with a bound in the file that allows a colouring and a width no layer exceeds, the searches end
with the chromatic number and a colouring that attains it. -/
theorem colv_search_room (hM : t.Progs U M) (hn : 1 ≤ t.K) (hU : t.Colourable U) {w dfuel fuel : Nat}
    (hR : Room (M none) t.rank (M none).sti w) {lim : Nat → Bool} {s : BB.BS ColS}
    (h : BB.searchP (M none) (fun p => M (some p)) w dfuel lim fuel 2147483647 = some s) (hns : s.stopped = false) :
    ∃ q : Nat, s.primal = q ∧ t.Colourable q ∧ (∀ k, t.Colourable k → q ≤ k) ∧
      ∃ cs : List Nat, s.inc = cs.map (fun i : Nat => (i : Int)) ∧ t.Proper cs ∧ ∀ c, c ∈ cs → c ≤ q := by
  obtain ⟨V⟩ := hM.view
  obtain ⟨h1, h2⟩ := BB.searchP_room (V.fam_ok hn) (V.layered_root hn) (by rw [V.sense]; rfl) (fun _ => V.worst hn) hR h hns
  exact V.answer hn hU h1 h2

/-- C97, any width: if along the run nothing was dropped for a bad reason (`okLoopP`), the answer is the
chromatic number.  Missing: that nothing is, which is false (below). -/
theorem colv_search_partial (hM : t.Progs U M) (hn : 1 ≤ t.K) (hU : t.Colourable U) {w dfuel fuel : Nat} {lim : Nat → Bool} {s : BB.BS ColS}
    (h : BB.searchP (M none) (fun p => M (some p)) w dfuel lim fuel 2147483647 = some s)
    (hok : BB.okLoopP (M none) (fun p => M (some p)) w dfuel lim fuel 0 (BB.init (M none) w 2147483647) = true) (hns : s.stopped = false) :
    ∃ q : Nat, s.primal = q ∧ t.Colourable q ∧ (∀ k, t.Colourable k → q ≤ k) ∧
      ∃ cs : List Nat, s.inc = cs.map (fun i : Nat => (i : Int)) ∧ t.Proper cs ∧ ∀ c, c ∈ cs → c ≤ q := by
  obtain ⟨V⟩ := hM.view
  obtain ⟨h1, h2⟩ := BB.searchP_answer_partial (V.fam_ok hn) (V.layered_root hn) (by intro sd hsd; rw [V.sdom] at hsd; simp at hsd)
    (by rw [V.sense]; rfl) (fun _ => V.worst hn) h hok hns
  exact V.answer hn hU h1 h2

/-! ### Runs -/

/-- What a run ends with: queue empty, stopped, primal bound, reported solutions. -/
def Col.ends (M : Option Int → Mdl ColS) (w : Nat) : Option (Bool × Bool × Int × List (Int × List Int)) :=
  (BB.searchP (M none) (fun p => M (some p)) w 50 (fun _ => false) 50 2147483647).map fun s => (Heap.empty s.pq, s.stopped, s.primal, s.sols)

theorem h5_colourable : h5.Colourable 2 := by
  refine ⟨fun i => [0, 1, 0, 1, 1].getD i 0, ?_, ?_⟩
  · intro i hi
    match i, hi with
    | 0, _ | 1, _ | 2, _ | 3, _ | 4, _ => decide
  · intro a b hab
    simp only [h5, List.mem_cons, Prod.mk.injEq, List.not_mem_nil, or_false] at hab
    rcases hab with ⟨rfl, rfl⟩ | ⟨rfl, rfl⟩ | ⟨rfl, rfl⟩ | ⟨rfl, rfl⟩ <;> decide

/-- C97 is false for small widths: with width 2 each program ends with 3 colours on a graph that needs 2. -/
theorem colv_search_false : h5.Colourable 2 ∧ ∀ M, h5.Progs 5 M → ∃ s,
    BB.searchP (M none) (fun p => M (some p)) 2 50 (fun _ => false) 50 2147483647 = some s ∧
    Heap.empty s.pq = true ∧ s.stopped = false ∧ s.primal = 3 := by
  refine ⟨h5_colourable, fun M hM => ?_⟩
  have hv : (Col.ends M 2).map (fun x => (x.1, x.2.1, x.2.2.1)) = some (true, false, 3) := by
    cases hM with
    | coloring _ => decide +kernel
    | coloring2 _ => decide +kernel
    | coloring3 _ => decide +kernel
  simp only [Col.ends, Option.map_map, Option.map_eq_some_iff] at hv
  obtain ⟨s, h1, h2⟩ := hv
  simp at h2
  exact ⟨s, h1, h2.1, h2.2.1, h2.2.2⟩

/-- A path on four vertices, numbered out of order. -/
def p4 : Col := ⟨4, [(0, 1), (1, 3), (2, 3)]⟩

/-- With width 1, and the right bound in the file, each program ends without any colouring. -/
theorem colv_search_none : p4.Colourable 2 ∧ ∀ M, p4.Progs 2 M → ∃ s,
    BB.searchP (M none) (fun p => M (some p)) 1 50 (fun _ => false) 50 2147483647 = some s ∧
    Heap.empty s.pq = true ∧ s.stopped = false ∧ s.sols = [] := by
  refine ⟨⟨fun i => [0, 1, 1, 0].getD i 0, ?_, ?_⟩, fun M hM => ?_⟩
  · intro i hi
    match i, hi with
    | 0, _ | 1, _ | 2, _ | 3, _ => decide
  · intro a b hab
    simp only [p4, List.mem_cons, Prod.mk.injEq, List.not_mem_nil, or_false] at hab
    rcases hab with ⟨rfl, rfl⟩ | ⟨rfl, rfl⟩ | ⟨rfl, rfl⟩ <;> decide
  have hv : (Col.ends M 1).map (fun x => (x.1, x.2.1, x.2.2.2)) = some (true, false, []) := by
    cases hM with
    | coloring _ => decide +kernel
    | coloring2 _ => decide +kernel
    | coloring3 _ => decide +kernel
  simp only [Col.ends, Option.map_map, Option.map_eq_some_iff] at hv
  obtain ⟨s, h1, h2⟩ := hv
  simp at h2
  exact ⟨s, h1, h2.1, h2.2.1, h2.2.2⟩

/-- A run of each program that splits the problem and lowers the primal bound; by the theorem above the
answer is the chromatic number, and the check passes on everything reported. -/
example (M : Option Int → Mdl ColS) (hM : g5.Progs 4 M) (hU : g5.Colourable 4) : ∃ s,
    BB.searchP (M none) (fun p => M (some p)) 2 50 (fun _ => false) 50 2147483647 = some s ∧
    s.sols = [(3, [1, 2, 2, 1, 3]), (2, [1, 1, 2, 2, 2])] ∧ (∀ x, x ∈ s.sols → g5.checker x.2 = some true) ∧
    ∀ k, g5.Colourable k → 2 ≤ k := by
  have hv : (Col.ends M 2) = some (true, false, 2, [(3, [1, 2, 2, 1, 3]), (2, [1, 1, 2, 2, 2])]) ∧
      BB.okLoopP (M none) (fun p => M (some p)) 2 50 (fun _ => false) 50 0 (BB.init (M none) 2 2147483647) = true := by
    cases hM with
    | coloring _ => decide +kernel
    | coloring2 _ => decide +kernel
    | coloring3 _ => decide +kernel
  obtain ⟨hv, hok⟩ := hv
  simp only [Col.ends, Option.map_eq_some_iff] at hv
  obtain ⟨s, h1, h2⟩ := hv
  simp at h2
  obtain ⟨q, a, b, c, _⟩ := colv_search_partial hM (by decide) hU h1 hok h2.2.1
  have e : q = 2 := by omega
  subst e
  exact ⟨s, h1, h2.2.2.2, colv_checker hM (by decide) (by decide) h1, c⟩

/-- A bound in the file that is too low. -/
example (M : Option Int → Mdl ColS) (hM : g5.Progs 1 M) : ∃ s,
    BB.searchP (M none) (fun p => M (some p)) 2 50 (fun _ => false) 50 2147483647 = some s ∧ s.sols = [] := by
  have hv : (Col.ends M 2).isSome = true := by
    cases hM with
    | coloring _ => decide +kernel
    | coloring2 _ => decide +kernel
    | coloring3 _ => decide +kernel
  obtain ⟨x, hv⟩ := Option.isSome_iff_exists.1 hv
  simp only [Col.ends, Option.map_eq_some_iff] at hv
  obtain ⟨s, h1, _⟩ := hv
  refine ⟨s, h1, colv_search_low hM (by decide) ?_ h1⟩
  rintro ⟨f, hf, hp⟩
  have := hf 0 (by decide)
  have := hf 2 (by decide)
  exact hp 0 2 (by decide) (by decide) (by decide) (by decide) (by omega)

/-- With room for every layer. -/
example (M : Option Int → Mdl ColS) (hM : h5.Progs 3 M) (hU : h5.Colourable 3) : ∃ s,
    BB.searchP (M none) (fun p => M (some p)) 30 50 (fun _ => false) 50 2147483647 = some s ∧ s.primal = 2 ∧ ∀ k, h5.Colourable k → 2 ≤ k := by
  have hv : (Col.ends M 30).map (fun x => (x.2.1, x.2.2.1)) = some (false, 2) ∧ ∀ d, d < 6 → (BB.level (M none) d).length ≤ 30 := by
    cases hM with
    | coloring _ => decide +kernel
    | coloring2 _ => decide +kernel
    | coloring3 _ => decide +kernel
  obtain ⟨hv, hr⟩ := hv
  simp only [Col.ends, Option.map_map, Option.map_eq_some_iff] at hv
  obtain ⟨s, h1, h2⟩ := hv
  simp at h2
  obtain ⟨V⟩ := hM.view
  obtain ⟨q, a, _, c, _⟩ := colv_search_room hM (by decide) hU (w := 30)
    (BB.room_level (V.layered_root (by decide)) (V.rankBound (by decide)) (fun d hd => hr d (by simp only [h5] at hd; omega))) h1 h2.1
  have e : q = 2 := by omega
  subst e
  exact ⟨s, h1, h2.2, c⟩

end Verif.Ex
