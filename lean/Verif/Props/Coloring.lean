import Verif.Coloring
import Verif.Props.BB
import Verif.Props.Wide
/-!
# C78, C79: the graph-colouring example, whose labels depend on the primal bound
-/
namespace Verif.Ex
open Verif.DD

/-! ### What is being solved -/

/-- `q` colours are enough: some assignment of colours below `q` gives the ends of every edge different
colours. -/
def Col.Colourable (t : Col) (q : Nat) : Prop :=
  ∃ f : Nat → Nat, (∀ i, i < t.K → f i < q) ∧ ∀ a b, (a, b) ∈ t.es → a < t.K → b < t.K → a ≠ b → f a ≠ f b

/-- `cs` gives vertex `i` colour `cs[i]`, one of `1, 2, ...`, and the ends of an edge different colours. -/
def Col.Proper (t : Col) (cs : List Nat) : Prop :=
  cs.length = t.K ∧ (∀ c, c ∈ cs → 1 ≤ c) ∧
  ∀ a b, (a, b) ∈ t.es → a < t.K → b < t.K → a ≠ b → cs.getD a 0 ≠ cs.getD b 0

/-- Largest colour of a list, at least `k`. -/
def top (k : Nat) : List Nat → Nat
  | [] => k
  | c :: cs => top (max c k) cs

/-- Colours enter in order: each is at most one more than the largest before it. -/
def Grow (k : Nat) : List Nat → Prop
  | [] => True
  | c :: cs => c ≤ k + 1 ∧ Grow (max c k) cs

theorem le_top : ∀ (cs : List Nat) (k : Nat), k ≤ top k cs := by
  intro cs
  induction cs with
  | nil => intro k; exact Nat.le_refl _
  | cons c cs ih => intro k; have := ih (max c k); simp only [top]; omega

theorem mem_le_top : ∀ (cs : List Nat) (k c : Nat), c ∈ cs → c ≤ top k cs := by
  intro cs
  induction cs with
  | nil => intro k c h; simp at h
  | cons x cs ih =>
    intro k c h
    simp only [top]
    rcases List.mem_cons.1 h with e | e
    · have := le_top cs (max x k); omega
    · exact ih _ _ e

theorem top_le : ∀ (cs : List Nat) (k q : Nat), k ≤ q → (∀ c, c ∈ cs → c ≤ q) → top k cs ≤ q := by
  intro cs
  induction cs with
  | nil => intro k q h _; exact h
  | cons x cs ih =>
    intro k q h hc
    simp only [top]
    exact ih _ _ (by have := hc x (by simp); omega) (fun c h => hc c (by simp [h]))

/-! ### Completions -/

/-- The limit the generator takes from the primal bound. -/
def Under (ub : Option Int) (c : Nat) : Prop := ∀ p, ub = some p → (c : Int) ≤ p

/-- `cs` completes a state with legal sets `s` at vertex `v`, when the largest colour so far is `k`. -/
def Comp (t : Col) (ub : Option Int) (s : List Nat) : Nat → Nat → List Nat → Prop
  | v, _, [] => v = t.K
  | v, k, c :: cs => v < t.K ∧ 1 ≤ c ∧ c ≤ k + 1 ∧ Under ub c ∧ (s.getD v 0).testBit c = true ∧
    (∀ i, i < cs.length → t.adj v (v + 1 + i) = true → cs.getD i 0 ≠ c) ∧ Comp t ub s (v + 1) (max c k) cs

variable (t : Col)

theorem Col.step_iff {ub : Option Int} {x x' : ColS} {l : Int} (hx : x.vtx < t.K) :
    Step (t.mdl ub) x l x' ↔ ∃ c : Nat, l = c ∧ 1 ≤ c ∧ c ≤ x.last + 1 ∧ Under ub c ∧ (x.s.getD x.vtx 0).testBit c = true ∧
      ((x.vtx + 1 = t.K ∧ x' = t.target) ∨ (x.vtx + 1 < t.K ∧ x' = ⟨t.next x.s x.vtx c, max c x.last, x.vtx + 1⟩)) := by
  have h1 : (t.mdl ub).eqs x = false := by simp [Col.mdl]; omega
  have hl : l ∈ (t.mdl ub).lgf x ↔ ∃ c : Nat, l = c ∧ 1 ≤ c ∧ c ≤ x.last + 1 ∧ Under ub c := by
    simp only [Col.mdl]
    rw [if_neg (by omega), List.mem_filter, List.mem_map]
    constructor
    · rintro ⟨⟨i, hi, rfl⟩, h⟩
      simp only [List.mem_range] at hi
      refine ⟨i + 1, by omega, by omega, by omega, ?_⟩
      intro p hp
      subst hp
      simpa using h
    · rintro ⟨c, rfl, h1, h2, h3⟩
      refine ⟨⟨c - 1, by simp only [List.mem_range]; omega, by omega⟩, ?_⟩
      cases ub with
      | none => rfl
      | some p => simpa using h3 p rfl
  unfold Step
  rw [h1, hl]
  constructor
  · rintro ⟨_, ⟨c, rfl, h2, h3, h4⟩, h⟩
    simp only [Col.mdl, Int.toNat_natCast] at h
    by_cases hb : (x.s.getD x.vtx 0).testBit c = true
    · rw [if_pos hb] at h
      refine ⟨c, rfl, h2, h3, h4, hb, ?_⟩
      by_cases hk : x.vtx + 1 = t.K
      · rw [if_pos hk] at h
        exact .inl ⟨hk, by simpa using h.symm⟩
      · rw [if_neg hk] at h
        exact .inr ⟨by omega, by simpa using h.symm⟩
    · rw [if_neg hb] at h; simp at h
  · rintro ⟨c, rfl, h2, h3, h4, h5, h6⟩
    refine ⟨rfl, ⟨c, rfl, h2, h3, h4⟩, ?_⟩
    simp only [Col.mdl, Int.toNat_natCast]
    rw [if_pos h5]
    rcases h6 with ⟨a, b⟩ | ⟨a, b⟩
    · rw [if_pos a, b]
    · rw [if_neg (by omega), b]

theorem Col.next_length (s : List Nat) (v l : Nat) : (t.next s v l).length = s.length := by simp [Col.next]

theorem Col.next_bit {s : List Nat} {v l j c : Nat} (hj : v < j) (hl : j < s.length) :
    ((t.next s v l).getD j 0).testBit c = true ↔ (s.getD j 0).testBit c = true ∧ (t.adj v j = true → c ≠ l) := by
  have e : (t.next s v l).getD j 0 = if v < j ∧ t.adj v j = true ∧ (s.getD j 0).testBit l = true then s.getD j 0 ^^^ 2 ^ l
      else s.getD j 0 := by
    unfold Col.next
    rw [List.getD_eq_getElem?_getD, List.getElem?_map, List.getElem?_range hl]
    simp only [Option.map_some, Option.getD_some]
    rw [if_neg (by omega)]
  rw [e]
  by_cases ha : t.adj v j = true
  · by_cases hb : (s.getD j 0).testBit l = true
    · rw [if_pos ⟨hj, ha, hb⟩, Nat.testBit_xor, Nat.testBit_two_pow]
      by_cases hc : l = c
      · subst hc; rw [hb]; simp [ha]
      · simp [hc, ha]
        intro _ h; exact hc h.symm
    · rw [if_neg (by intro h; exact hb h.2.2)]
      constructor
      · intro h; exact ⟨h, fun _ hc => hb (hc ▸ h)⟩
      · exact fun h => h.1
  · rw [if_neg (by intro h; exact ha h.2.1)]
    simp [ha]

/-- The sets of earlier vertices do not matter, larger sets allow more. -/
theorem Comp.mono {ub : Option Int} {s s' : List Nat} : ∀ {cs : List Nat} {v k : Nat},
    (∀ j c, v ≤ j → j < t.K → (s.getD j 0).testBit c = true → (s'.getD j 0).testBit c = true) →
    Comp t ub s v k cs → Comp t ub s' v k cs := by
  intro cs
  induction cs with
  | nil => intro v k _ h; exact h
  | cons c cs ih =>
    intro v k hs h
    obtain ⟨h1, h2, h3, h4, h5, h6, h7⟩ := h
    exact ⟨h1, h2, h3, h4, hs v c (Nat.le_refl _) h1 h5, h6, ih (fun j c hj => hs j c (by omega)) h7⟩

theorem Comp.length {ub : Option Int} {s : List Nat} : ∀ {cs : List Nat} {v k : Nat}, Comp t ub s v k cs → v + cs.length = t.K := by
  intro cs
  induction cs with
  | nil => intro v k h; exact h
  | cons c cs ih => intro v k h; have := ih h.2.2.2.2.2.2; simp only [List.length_cons]; omega

/-- Removing a colour from the neighbours' sets forbids exactly that colour to them. -/
theorem Comp.next {ub : Option Int} {s : List Nat} {u l : Nat} (hl : s.length = t.K) : ∀ {cs : List Nat} {v k : Nat}, u < v →
    (Comp t ub (t.next s u l) v k cs ↔ Comp t ub s v k cs ∧ ∀ i, i < cs.length → t.adj u (v + i) = true → cs.getD i 0 ≠ l) := by
  intro cs
  induction cs with
  | nil => intro v k _; simp [Comp]
  | cons c cs ih =>
    intro v k hv
    simp only [Comp]
    rw [ih (by omega : u < v + 1)]
    constructor
    · rintro ⟨h1, h2, h3, h4, h5, h6, h7, h8⟩
      obtain ⟨b1, b2⟩ := (t.next_bit hv (by omega)).1 h5
      refine ⟨⟨h1, h2, h3, h4, b1, h6, h7⟩, ?_⟩
      intro i hi ha
      cases i with
      | zero => exact b2 ha
      | succ i =>
        rw [List.getD_cons_succ]
        exact h8 i (by simpa using hi) (by rw [show v + 1 + i = v + (i + 1) by omega]; exact ha)
    · rintro ⟨⟨h1, h2, h3, h4, h5, h6, h7⟩, h8⟩
      refine ⟨h1, h2, h3, h4, (t.next_bit hv (by omega)).2 ⟨h5, fun ha => ?_⟩, h6, h7, ?_⟩
      · exact h8 0 (by simp) ha
      · intro i hi ha
        have := h8 (i + 1) (by simpa using hi) (by rw [show v + (i + 1) = v + 1 + i by omega]; exact ha)
        rwa [List.getD_cons_succ] at this

/-- Paths to the sink are exactly the completions, and cost the colours they add. -/
theorem Col.path_iff {ub : Option Int} : ∀ (cs : List Nat) {x : ColS} {c : Int}, x.vtx < t.K → x.s.length = t.K →
    (Path (t.mdl ub) x (cs.map (fun i : Nat => (i : Int))) c t.target ↔
      Comp t ub x.s x.vtx x.last cs ∧ c = (top x.last cs : Int) - x.last) := by
  intro cs
  induction cs with
  | nil =>
    intro x c hx hl
    constructor
    · intro h
      cases h
      simp [Col.target] at hx
    · rintro ⟨h, _⟩
      simp only [Comp] at h; omega
  | cons b cs ih =>
    intro x c hx hl
    rw [List.map_cons]
    constructor
    · intro h
      cases h with
      | @cons _ x' _ _ _ c' hst hp =>
        obtain ⟨b', e, h2, h3, h4, h5, h6⟩ := (t.step_iff hx).1 hst
        have e : b = b' := by omega
        subst e
        have hc : (t.mdl ub).stc x (b : Int) = max 0 ((b : Int) - x.last) := rfl
        rcases h6 with ⟨a1, a2⟩ | ⟨a1, a2⟩
        · subst a2
          obtain ⟨e1, e2, _⟩ := hp.of_terminal (by simp [Col.mdl, Col.target])
          have e1 : cs = [] := by simpa using e1
          subst e1
          refine ⟨⟨hx, h2, h3, h4, h5, by simp, a1⟩, ?_⟩
          rw [hc, e2]; simp only [top]; omega
        · subst a2
          obtain ⟨i1, i2⟩ := (ih (x := ⟨t.next x.s x.vtx b, max b x.last, x.vtx + 1⟩) a1 (by rw [t.next_length]; exact hl)).1 hp
          obtain ⟨j1, j2⟩ := (Comp.next t hl (by omega : x.vtx < x.vtx + 1)).1 i1
          refine ⟨⟨hx, h2, h3, h4, h5, j2, j1⟩, ?_⟩
          rw [hc, i2]; simp only [top]; omega
    · rintro ⟨⟨h1, h2, h3, h4, h5, h6, h7⟩, hc⟩
      by_cases hk : x.vtx + 1 = t.K
      · have e1 : cs = [] := by
          have := Comp.length t h7
          exact List.eq_nil_of_length_eq_zero (by omega)
        subst e1
        have := Path.cons (m := t.mdl ub) (ls := []) ((t.step_iff hx).2 ⟨b, rfl, h2, h3, h4, h5, .inl ⟨hk, rfl⟩⟩) (Path.nil _)
        have e : (t.mdl ub).stc x (b : Int) + 0 = c := by
          rw [hc, show (t.mdl ub).stc x (b : Int) = max 0 ((b : Int) - x.last) from rfl]; simp only [top]; omega
        rwa [e] at this
      · have hst := (t.step_iff (ub := ub) hx).2 ⟨b, rfl, h2, h3, h4, h5, .inr ⟨by omega, rfl⟩⟩
        have hp := (ih (x := ⟨t.next x.s x.vtx b, max b x.last, x.vtx + 1⟩) (c := (top (max b x.last) cs : Int) - (max b x.last : Nat))
          (by show x.vtx + 1 < t.K; omega) (by rw [t.next_length]; exact hl)).2
          ⟨(Comp.next t hl (by omega : x.vtx < x.vtx + 1)).2 ⟨h7, h6⟩, rfl⟩
        have := Path.cons hst hp
        have e : (t.mdl ub).stc x (b : Int) + ((top (max b x.last) cs : Int) - (max b x.last : Nat)) = c := by
          rw [hc, show (t.mdl ub).stc x (b : Int) = max 0 ((b : Int) - x.last) from rfl]; simp only [top]; omega
        rwa [e] at this

/-- Labels on a path are colours. -/
theorem Col.path_nat {ub : Option Int} {x y : ColS} {ls : List Int} {c : Int} (h : Path (t.mdl ub) x ls c y) (hx : x.vtx ≤ t.K) :
    ∃ cs : List Nat, ls = cs.map (fun i : Nat => (i : Int)) := by
  induction h with
  | nil s => exact ⟨[], rfl⟩
  | @cons x x' z l ls c hst hp ih =>
    have hx' : x.vtx < t.K := by
      have := hst.1
      simp [Col.mdl] at this; omega
    obtain ⟨b, rfl, _, _, _, _, h6⟩ := (t.step_iff hx').1 hst
    obtain ⟨cs, e⟩ := ih (by rcases h6 with ⟨_, a⟩ | ⟨_, a⟩ <;> rw [a] <;> simp [Col.target]; omega)
    exact ⟨b :: cs, by rw [e]; rfl⟩

/-! ### Reachable states -/

/-- Reachable states with their values. -/
def Col.Ok (x : ColS) (v : Int) : Prop :=
  (x = t.target ∧ 0 ≤ v ∧ v ≤ t.K) ∨ (x.s.length = t.K ∧ x.vtx < t.K ∧ v = x.last ∧ x.last ≤ x.vtx)

theorem Col.Ok.step {ub : Option Int} {x x' : ColS} {v l : Int} (h : t.Ok x v) (hs : Step (t.mdl ub) x l x') :
    t.Ok x' (v + (t.mdl ub).stc x l) := by
  rcases h with ⟨h, _⟩ | ⟨h1, h2, h3, h4⟩
  · have := hs.1
    rw [h] at this; simp [Col.mdl, Col.target] at this
  · obtain ⟨b, rfl, a1, a2, _, _, a6⟩ := (t.step_iff h2).1 hs
    have hc : (t.mdl ub).stc x (b : Int) = max 0 ((b : Int) - x.last) := rfl
    rw [hc]
    rcases a6 with ⟨c1, c2⟩ | ⟨c1, c2⟩
    · exact .inl ⟨c2, by omega, by omega⟩
    · subst c2
      refine .inr ⟨by rw [t.next_length]; exact h1, c1, ?_, ?_⟩
      · show v + _ = ((max b x.last : Nat) : Int)
        omega
      · show max b x.last ≤ x.vtx + 1
        omega

theorem Col.Ok.open {ub : Option Int} {x : ColS} {v : Int} (h : t.Ok x v) (hq : (t.mdl ub).eqs x = false) :
    x.s.length = t.K ∧ x.vtx < t.K ∧ v = x.last ∧ x.last ≤ x.vtx := by
  rcases h with ⟨h, _⟩ | h
  · rw [h] at hq; simp [Col.mdl, Col.target] at hq
  · exact h

theorem Col.smf_some {ub : Option Int} {a b c : ColS} (h : (t.mdl ub).smf a b = some c) :
    a.last = b.last ∧ a.vtx = b.vtx ∧ c = ⟨(List.range a.s.length).map fun i => a.s.getD i 0 ||| b.s.getD i 0, a.last, a.vtx⟩ := by
  simp only [Col.mdl] at h
  by_cases hc : a.last = b.last ∧ a.vtx = b.vtx
  · rw [if_pos hc] at h
    exact ⟨hc.1, hc.2, by simpa using h.symm⟩
  · rw [if_neg hc] at h; simp at h

theorem Col.relx {ub : Option Int} {x : ColS} {v : Int} {s0 : ColS} {v0 : Int} (h0 : t.Ok s0 v0) (h : Relx (t.mdl ub) t.rank s0 v0 x v) :
    t.Ok x v := by
  induction h with
  | swap _ _ hsw _ ihsw => obtain rfl := (same_iff _ _).1 hsw; exact ihsw
  | root => exact h0
  | step _ hs ih => exact ih.step t hs
  | mergeL _ _ q1 q2 _ hm ih1 ih2 =>
    obtain ⟨e1, e2, rfl⟩ := t.smf_some hm
    obtain ⟨a1, a2, a3, a4⟩ := ih1.open t q1
    exact .inr ⟨by simpa using a1, a2, a3, a4⟩
  | mergeR _ _ q1 q2 _ hm ih1 ih2 =>
    obtain ⟨e1, e2, rfl⟩ := t.smf_some hm
    obtain ⟨a1, a2, a3, a4⟩ := ih1.open t q1
    obtain ⟨b1, b2, b3, b4⟩ := ih2.open t q2
    exact .inr ⟨by simpa using a1, a2, by rw [b3, ← e1], a4⟩

/-- C78: merging is a relaxation: what two open states of one layer can still do, the merged state can do
at the same cost, with any limit on the colours. -/
theorem coloring_merge_valid {ub : Option Int} {a b c : ColS} (ha : a.s.length = t.K ∧ a.vtx < t.K) (hb : b.s.length = t.K ∧ b.vtx < t.K)
    (h : (t.mdl ub).smf a b = some c) {v : Int} (hv : Val (t.mdl ub) a v ∨ Val (t.mdl ub) b v) : Val (t.mdl ub) c v := by
  obtain ⟨e1, e2, rfl⟩ := t.smf_some h
  have bit : ∀ j, j < t.K → (((List.range a.s.length).map fun i => a.s.getD i 0 ||| b.s.getD i 0).getD j 0) = a.s.getD j 0 ||| b.s.getD j 0 := by
    intro j hj
    rw [List.getD_eq_getElem?_getD, List.getElem?_map, List.getElem?_range (by omega)]
    rfl
  have key : ∀ x : ColS, x.s.length = t.K → x.vtx < t.K → a.last = x.last → a.vtx = x.vtx →
      (∀ j c, j < t.K → (x.s.getD j 0).testBit c = true → (a.s.getD j 0 ||| b.s.getD j 0).testBit c = true) →
      Val (t.mdl ub) x v → Val (t.mdl ub) ⟨(List.range a.s.length).map fun i => a.s.getD i 0 ||| b.s.getD i 0, a.last, a.vtx⟩ v := by
    rintro x x1 x2 x3 x4 x5 ⟨ls, hp⟩
    obtain ⟨cs, rfl⟩ := t.path_nat hp (by omega)
    obtain ⟨p1, p2⟩ := (t.path_iff cs x2 x1).1 hp
    refine ⟨_, (t.path_iff cs (x := ⟨(List.range a.s.length).map fun i => a.s.getD i 0 ||| b.s.getD i 0, a.last, a.vtx⟩) (c := v) ha.2 (by simpa using ha.1)).2
      ⟨?_, by rw [p2, ← x3]⟩⟩
    show Comp t ub _ a.vtx a.last cs
    rw [x3, x4]
    exact p1.mono t (fun j c _ hj hbt => by rw [bit j hj]; exact x5 j c hj hbt)
  rcases hv with hv | hv
  · exact key a ha.1 ha.2 rfl rfl (fun j c _ h => by rw [Nat.testBit_or, h]; rfl) hv
  · exact key b hb.1 hb.2 e1 e2 (fun j c _ h => by rw [Nat.testBit_or, h]; simp) hv

/-- The hypotheses of the engine, from any reachable state and with any limit on the colours. -/
theorem Col.layered {ub : Option Int} (hK : t.K < 2147483647) {s0 : ColS} {v0 : Int} (h0 : t.Ok s0 v0) (hq : (t.mdl ub).eqs s0 = false) :
    Layered (t.mdl ub) t.rank s0 v0 where
  sink := by simp [Col.mdl, Col.target]
  src := hq
  range := by
    intro s v h
    have : v < 2147483647 := by
      rcases t.relx h0 h with ⟨_, _, h2⟩ | ⟨_, h2, h3, h4⟩ <;> omega
    simp only [Col.mdl, Sense.better, Sense.best0]; simpa using this
  step := by
    intro s v l s' h hs
    obtain ⟨_, h2, _, _⟩ := (t.relx h0 h).open t hs.1
    obtain ⟨b, rfl, _, _, _, _, ⟨_, a⟩ | ⟨_, a⟩⟩ := (t.step_iff h2).1 hs
    · left; rw [a]; simp [Col.mdl, Col.target]
    · right; rw [a]; rfl
  merge := by
    intro a b c va vb h1 h2 q1 q2 hr hm
    obtain ⟨a1, a2, _⟩ := (t.relx h0 h1).open t q1
    obtain ⟨b1, b2, _⟩ := (t.relx h0 h2).open t q2
    have hv := fun v => coloring_merge_valid t ⟨a1, a2⟩ ⟨b1, b2⟩ hm (v := v)
    obtain ⟨_, _, rfl⟩ := t.smf_some hm
    refine ⟨by simp [Col.mdl]; omega, rfl, fun v h => ⟨v, hv v (.inl h), by rw [Sense.betterEQ_iff]; omega⟩,
      fun v h => ⟨v, hv v (.inr h), by rw [Sense.betterEQ_iff]; omega⟩⟩
  local_ := by intro f hf; simp [Col.mdl] at hf
  dom := by intro f hf; simp [Col.mdl] at hf

theorem Col.ok_root (hn : 1 ≤ t.K) : t.Ok t.full.sti 0 :=
  .inr ⟨by simp [Col.full, Col.mdl], hn, rfl, Nat.le_refl _⟩

theorem Col.reach {s : ColS} {ls : List Int} {v : Int} (hn : 1 ≤ t.K) (h : Path t.full t.full.sti ls v s) : t.Ok s v := by
  have := t.relx (ub := none) (t.ok_root hn) (h.relx (rank := t.rank) (v0 := 0) Relx.root)
  rwa [Int.zero_add] at this

theorem Col.fam_sub (p : Int) (s : ColS) (l : Int) : l ∈ (t.fam p).lgf s → l ∈ t.full.lgf s := by
  intro h
  simp only [Col.fam, Col.full, Col.mdl] at h ⊢
  by_cases hc : s.vtx ≥ t.K
  · rw [if_pos hc] at h; simp at h
  · rw [if_neg hc] at h ⊢
    rw [List.mem_filter] at h ⊢
    exact ⟨h.1, rfl⟩

/-- The generator only drops colours that cannot improve on the primal bound. -/
theorem Col.fam_ok (hn : 1 ≤ t.K) (hK : t.K < 2147483647) : Fam t.full t.rank t.fam where
  same := fun _ => rfl
  sub := t.fam_sub
  back := fun p _ _ h => val_sub (m' := t.fam p) rfl (t.fam_sub p) h
  keep := by
    rintro p s ls v c hp ⟨ls', hv⟩ hb
    have hb : v + c < p := by simpa [Col.full, Col.mdl, Sense.better] using hb
    by_cases hq : t.full.eqs s = true
    · obtain ⟨e1, e2, e3⟩ := hv.of_terminal hq
      subst e1; subst e2
      rw [e3]; exact ⟨[], Path.nil _⟩
    · obtain ⟨a1, a2, a3, a4⟩ := (t.reach hn hp).open t (ub := none) (Bool.eq_false_iff.2 hq)
      obtain ⟨cs, rfl⟩ := t.path_nat hv (by omega)
      obtain ⟨b1, b2⟩ := (t.path_iff cs a2 a1).1 hv
      refine ⟨_, (t.path_iff (ub := some p) cs a2 a1).2 ⟨?_, b2⟩⟩
      have hlim : ∀ c, c ∈ cs → (c : Int) ≤ p := by
        intro c hc
        have := mem_le_top cs s.last c hc
        omega
      clear hv b2
      have : ∀ (cs : List Nat) (v k : Nat), (∀ c, c ∈ cs → (c : Int) ≤ p) → Comp t none s.s v k cs → Comp t (some p) s.s v k cs := by
        intro cs
        induction cs with
        | nil => intro v k _ h; exact h
        | cons c cs ih =>
          intro v k hl h
          obtain ⟨h1, h2, h3, h4, h5, h6, h7⟩ := h
          exact ⟨h1, h2, h3, fun q hq => by injection hq with hq; rw [← hq]; exact hl c (by simp), h5, h6, ih _ _ (fun c h => hl c (by simp [h])) h7⟩
      exact this cs _ _ hlim b1
  lay := by
    intro p s ls v hp hq
    exact t.layered hK (t.reach hn hp) hq

/-! ### Solutions are colourings -/

theorem Comp.iff {ub : Option Int} {s : List Nat} : ∀ (cs : List Nat) (v k : Nat), v ≤ t.K →
    (Comp t ub s v k cs ↔ v + cs.length = t.K ∧ Grow k cs ∧ (∀ c, c ∈ cs → 1 ≤ c ∧ Under ub c) ∧
      (∀ i, i < cs.length → (s.getD (v + i) 0).testBit (cs.getD i 0) = true) ∧
      ∀ i j, i < j → j < cs.length → t.adj (v + i) (v + j) = true → cs.getD j 0 ≠ cs.getD i 0) := by
  intro cs
  induction cs with
  | nil => intro v k hv; simp [Comp, Ex.Grow]
  | cons c cs ih =>
    intro v k hv
    simp only [Comp, Ex.Grow, List.length_cons]
    constructor
    · rintro ⟨h1, h2, h3, h4, h5, h6, h7⟩
      obtain ⟨a1, a2, a3, a4, a5⟩ := (ih (v + 1) _ (by omega)).1 h7
      refine ⟨by omega, ⟨h3, a2⟩, ?_, ?_, ?_⟩
      · intro x hx
        rcases List.mem_cons.1 hx with e | e
        · rw [e]; exact ⟨h2, h4⟩
        · exact a3 x e
      · intro i hi
        cases i with
        | zero => exact h5
        | succ i =>
          rw [List.getD_cons_succ, show v + (i + 1) = v + 1 + i by omega]
          exact a4 i (by omega)
      · intro i j hij hj ha
        cases j with
        | zero => omega
        | succ j =>
          rw [List.getD_cons_succ]
          rw [show v + (j + 1) = v + 1 + j by omega] at ha
          cases i with
          | zero => exact h6 j (by omega) ha
          | succ i =>
            rw [List.getD_cons_succ]
            rw [show v + (i + 1) = v + 1 + i by omega] at ha
            exact a5 i j (by omega) (by omega) ha
    · rintro ⟨h1, ⟨h2, h3⟩, h4, h5, h6⟩
      refine ⟨by omega, (h4 c (by simp)).1, h2, (h4 c (by simp)).2, h5 0 (by omega), ?_, ?_⟩
      · intro i hi ha
        have := h6 0 (i + 1) (by omega) (by omega) (by rw [show v + (i + 1) = v + 1 + i by omega]; exact ha)
        rwa [List.getD_cons_succ] at this
      · refine (ih (v + 1) _ (by omega)).2 ⟨by omega, h3, fun x hx => h4 x (by simp [hx]), ?_, ?_⟩
        · intro i hi
          have := h5 (i + 1) (by omega)
          rwa [List.getD_cons_succ, show v + (i + 1) = v + 1 + i by omega] at this
        · intro i j hij hj ha
          have := h6 (i + 1) (j + 1) (by omega) (by omega) (by
            rw [show v + (i + 1) = v + 1 + i by omega, show v + (j + 1) = v + 1 + j by omega]; exact ha)
          rwa [List.getD_cons_succ, List.getD_cons_succ] at this

theorem Grow.bound : ∀ (cs : List Nat) (k i : Nat), Grow k cs → i < cs.length → cs.getD i 0 ≤ k + i + 1 := by
  intro cs
  induction cs with
  | nil => intro k i _ h; simp at h
  | cons c cs ih =>
    intro k i h hi
    cases i with
    | zero => have := h.1; simp; omega
    | succ i =>
      rw [List.getD_cons_succ]
      have := ih (max c k) i h.2 (by simpa using hi)
      have := h.1
      omega

theorem Col.labels_bit (c : Nat) : t.labels.testBit c = true ↔ 1 ≤ c ∧ c ≤ t.K := by
  unfold Col.labels
  have h2 : 1 < 2 ^ (t.K + 1) := by
    have : 2 ^ 0 < 2 ^ (t.K + 1) := Nat.pow_lt_pow_right (by omega) (by omega)
    exact this
  have := Nat.testBit_two_pow_sub_succ h2 c
  rw [show 2 ^ (t.K + 1) - 2 = 2 ^ (t.K + 1) - (1 + 1) from rfl, this, show Nat.testBit 1 c = decide (0 = c) from Nat.testBit_two_pow (n := 0)]
  simp; omega

/-- Solutions are the proper colourings whose colours enter in order, within the limit; the cost is the
largest colour. -/
theorem Col.sol_iff {ub : Option Int} (hn : 1 ≤ t.K) (ls : List Int) (c : Int) : Sol (t.mdl ub) ls c ↔
    ∃ cs : List Nat, ls = cs.map (fun i : Nat => (i : Int)) ∧ t.Proper cs ∧ Grow 0 cs ∧ (∀ x, x ∈ cs → Under ub x) ∧ c = top 0 cs := by
  have hadj : ∀ a b, t.adj a b = true ↔ (a, b) ∈ t.es ∨ (b, a) ∈ t.es := by intro a b; simp [Col.adj]
  have hs : (t.mdl ub).sti.s.length = t.K := by simp [Col.mdl]
  have hbit : ∀ i, i < t.K → (t.mdl ub).sti.s.getD i 0 = t.labels := by
    intro i hi
    simp only [Col.mdl]
    rw [List.getD_eq_getElem?_getD, List.getElem?_replicate, if_pos hi]
    rfl
  have hC : ∀ cs : List Nat, Comp t ub (t.mdl ub).sti.s 0 0 cs ↔ t.Proper cs ∧ Grow 0 cs ∧ ∀ x, x ∈ cs → Under ub x := by
    intro cs
    rw [Comp.iff t cs 0 0 (by omega)]
    constructor
    · rintro ⟨h1, h2, h3, _, h5⟩
      refine ⟨⟨by omega, fun c hc => (h3 c hc).1, ?_⟩, h2, fun c hc => (h3 c hc).2⟩
      intro a b hab ha hb hne
      by_cases hlt : a < b
      · have := h5 a b hlt (by omega) (by rw [Nat.zero_add, Nat.zero_add]; exact (hadj a b).2 (.inl hab))
        exact fun e => this e.symm
      · exact h5 b a (by omega) (by omega) (by rw [Nat.zero_add, Nat.zero_add]; exact (hadj b a).2 (.inr hab))
    · rintro ⟨⟨h1, h2, h3⟩, h4, h5⟩
      refine ⟨by omega, h4, fun c hc => ⟨h2 c hc, h5 c hc⟩, ?_, ?_⟩
      · intro i hi
        rw [Nat.zero_add, hbit i (by omega), t.labels_bit]
        refine ⟨h2 _ ?_, ?_⟩
        · rw [List.getD_eq_getElem?_getD, List.getElem?_eq_getElem hi]
          exact List.getElem_mem hi
        · have := Grow.bound cs 0 i h4 hi
          omega
      · intro i j hij hj ha
        rw [Nat.zero_add, Nat.zero_add] at ha
        rcases (hadj i j).1 ha with e | e
        · exact fun h => h3 i j e (by omega) (by omega) (by omega) h.symm
        · exact h3 j i e (by omega) (by omega) (by omega)
  constructor
  · intro h
    obtain ⟨cs, rfl⟩ := t.path_nat h (by simp [Col.mdl])
    obtain ⟨h1, h2⟩ := (t.path_iff cs (x := (t.mdl ub).sti) hn hs).1 h
    obtain ⟨a, b, d⟩ := (hC cs).1 h1
    exact ⟨cs, rfl, a, b, d, by rw [h2]; simp [Col.mdl]⟩
  · rintro ⟨cs, rfl, a, b, d, e⟩
    exact (t.path_iff cs (x := (t.mdl ub).sti) hn hs).2 ⟨(hC cs).2 ⟨a, b, d⟩, by rw [e]; simp [Col.mdl]⟩

/-! ### Renaming colours in order of first use -/

/-- Distinct values in order of first occurrence, after those in `seen`. -/
def firsts (seen : List Nat) : List Nat → List Nat
  | [] => seen
  | x :: xs => firsts (if x ∈ seen then seen else seen ++ [x]) xs

theorem firsts_app : ∀ (xs seen : List Nat), ∃ r, firsts seen xs = seen ++ r := by
  intro xs
  induction xs with
  | nil => intro seen; exact ⟨[], by simp [firsts]⟩
  | cons x xs ih =>
    intro seen
    simp only [firsts]
    obtain ⟨r, hr⟩ := ih (if x ∈ seen then seen else seen ++ [x])
    rw [hr]
    by_cases hx : x ∈ seen
    · rw [if_pos hx]; exact ⟨r, rfl⟩
    · rw [if_neg hx]; exact ⟨x :: r, by simp⟩

theorem firsts_nodup : ∀ (xs seen : List Nat), seen.Nodup → (firsts seen xs).Nodup := by
  intro xs
  induction xs with
  | nil => intro seen h; exact h
  | cons x xs ih =>
    intro seen h
    simp only [firsts]
    refine ih _ ?_
    by_cases hx : x ∈ seen
    · rw [if_pos hx]; exact h
    · rw [if_neg hx, List.nodup_append]
      exact ⟨h, by simp, fun a ha b hb => by simp at hb; intro e; exact hx (by rw [← hb, ← e]; exact ha)⟩

theorem mem_firsts : ∀ (xs seen : List Nat) (y : Nat), y ∈ firsts seen xs ↔ y ∈ seen ∨ y ∈ xs := by
  intro xs
  induction xs with
  | nil => intro seen y; simp [firsts]
  | cons x xs ih =>
    intro seen y
    simp only [firsts]
    rw [ih]
    by_cases hx : x ∈ seen
    · rw [if_pos hx, List.mem_cons]
      constructor
      · rintro (h | h)
        · exact .inl h
        · exact .inr (.inr h)
      · rintro (h | h | h)
        · exact .inl h
        · exact .inl (h ▸ hx)
        · exact .inr h
    · rw [if_neg hx]
      rw [List.mem_append, List.mem_singleton, List.mem_cons]
      constructor
      · rintro ((h | h) | h)
        · exact .inl h
        · exact .inr (.inl h)
        · exact .inr (.inr h)
      · rintro (h | h | h)
        · exact .inl (.inl h)
        · exact .inl (.inr h)
        · exact .inr h

theorem firsts_grow : ∀ (xs seen : List Nat), Grow seen.length (xs.map fun x => (firsts seen xs).idxOf x + 1) := by
  intro xs
  induction xs with
  | nil => intro seen; trivial
  | cons x xs ih =>
    intro seen
    rw [List.map_cons]
    by_cases hx : x ∈ seen
    · have e : firsts seen (x :: xs) = firsts seen xs := by simp only [firsts]; rw [if_pos hx]
      rw [e]
      obtain ⟨r, hr⟩ := firsts_app xs seen
      have hi : (firsts seen xs).idxOf x < seen.length := by
        rw [hr, List.idxOf_append, if_pos hx]
        exact List.idxOf_lt_length_iff.2 hx
      refine ⟨by omega, ?_⟩
      rw [Nat.max_eq_right (by omega)]
      exact ih seen
    · have e : firsts seen (x :: xs) = firsts (seen ++ [x]) xs := by simp only [firsts]; rw [if_neg hx]
      rw [e]
      obtain ⟨r, hr⟩ := firsts_app xs (seen ++ [x])
      have hi : (firsts (seen ++ [x]) xs).idxOf x = seen.length := by
        rw [hr, List.idxOf_append, if_pos (by simp), List.idxOf_append, if_neg hx]
        simp
      have := ih (seen ++ [x])
      rw [List.length_append, List.length_singleton] at this
      refine ⟨by omega, ?_⟩
      rw [Nat.max_eq_left (by omega), hi]
      exact this

theorem firsts_idxOf_inj {S : List Nat} {a b : Nat} (ha : a ∈ S) (h : S.idxOf a = S.idxOf b) : a = b := by
  have h1 := List.idxOf_lt_length_iff.2 ha
  have h2 : S.idxOf b < S.length := by omega
  have e1 := List.getElem_idxOf h1
  have e2 := List.getElem_idxOf h2
  rw [← e1, ← e2]
  simp only [h]

/-- C78: the optimum of the model is the chromatic number: the graph has a colouring with `q` colours
exactly if the model has a solution of cost at most `q`. -/
theorem coloring_chromatic (hn : 1 ≤ t.K) (q : Nat) : (∃ ls c, Sol t.full ls c ∧ c ≤ q) ↔ t.Colourable q := by
  constructor
  · rintro ⟨ls, c, hs, hc⟩
    obtain ⟨cs, _, ⟨h1, h2, h3⟩, _, _, h6⟩ := (t.sol_iff (ub := none) hn ls c).1 hs
    have hmem : ∀ i, i < t.K → cs.getD i 0 ∈ cs := by
      intro i hi
      rw [List.getD_eq_getElem?_getD, List.getElem?_eq_getElem (by omega)]
      exact List.getElem_mem _
    refine ⟨fun i => cs.getD i 0 - 1, ?_, ?_⟩
    · intro i hi
      have := mem_le_top cs 0 _ (hmem i hi)
      have := h2 _ (hmem i hi)
      show cs.getD i 0 - 1 < q
      omega
    · intro a b hab ha hb hne
      have := h3 a b hab ha hb hne
      have := h2 _ (hmem a ha)
      have := h2 _ (hmem b hb)
      show cs.getD a 0 - 1 ≠ cs.getD b 0 - 1
      omega
  · rintro ⟨f, h1, h2⟩
    let xs := (List.range t.K).map f
    let S := firsts [] xs
    have hS : ∀ i, i < t.K → f i ∈ S := by
      intro i hi
      exact (mem_firsts xs [] _).2 (.inr (List.mem_map.2 ⟨i, by simpa using hi, rfl⟩))
    have hlen : S.length ≤ q := by
      have := nodup_inj_le id (l := S) (k := List.range q) (firsts_nodup xs [] (by simp)) (fun x y _ _ e => e) (by
        intro x hx
        rcases (mem_firsts xs [] x).1 hx with e | e
        · simp at e
        · obtain ⟨i, hi, rfl⟩ := List.mem_map.1 e
          simp only [id, List.mem_range]
          exact h1 i (by simpa using hi))
      simpa using this
    let cs := xs.map fun x => S.idxOf x + 1
    have hget : ∀ i, i < t.K → cs.getD i 0 = S.idxOf (f i) + 1 := by
      intro i hi
      show (((List.range t.K).map f).map fun x => S.idxOf x + 1).getD i 0 = _
      rw [List.getD_eq_getElem?_getD, List.getElem?_map, List.getElem?_map, List.getElem?_range hi]
      rfl
    refine ⟨cs.map (fun i : Nat => (i : Int)), (top 0 cs : Nat), (t.sol_iff (ub := none) hn _ _).2 ⟨cs, rfl, ⟨?_, ?_, ?_⟩, ?_, ?_, rfl⟩, ?_⟩
    · simp [cs, xs]
    · intro c hc
      obtain ⟨x, _, rfl⟩ := List.mem_map.1 hc
      omega
    · intro a b hab ha hb hne
      rw [hget a ha, hget b hb]
      intro e
      exact h2 a b hab ha hb hne (firsts_idxOf_inj (hS a ha) (by omega))
    · exact firsts_grow xs []
    · intro x _ p hp; simp at hp
    · have : top 0 cs ≤ q := top_le cs 0 q (by omega) (by
        intro c hc
        obtain ⟨x, hx, rfl⟩ := List.mem_map.1 hc
        have : x ∈ S := (mem_firsts xs [] x).2 (.inr hx)
        have := List.idxOf_lt_length_iff.2 this
        omega)
      omega

/-! ### With the engine -/

theorem Col.layered_root (hn : 1 ≤ t.K) (hK : t.K < 2147483647) : Layered t.full t.rank t.full.sti 0 :=
  t.layered hK (t.ok_root hn) (by simp [Col.full, Col.mdl]; omega)

/-- C79: at any primal bound, and whatever the width, the relaxed diagram bounds from below the number of
colours of every colouring with fewer colours than the primal bound, although the generator hides
colours according to that bound. -/
theorem coloring_dual (hn : 1 ≤ t.K) (hK : t.K < 2147483647) {p : Int} {w f : Nat} {g : G ColS}
    (h : relaxed (t.fam p) p w f (t.fam p).src0 = some g) {q : Nat} (hq : t.Colourable q) (hp : (q : Int) < p) : g.bound g.trg ≤ q := by
  obtain ⟨ls, c, hs, hc⟩ := (coloring_chromatic t hn q).2 hq
  have := (t.fam_ok hn hK).relaxed_dual (r := (t.fam p).src0) (Path.nil _) (t.layered_root hn hK).src h (c := c) ⟨ls, hs⟩ (by
    simp [Mdl.src0, Col.fam, Col.full, Col.mdl, Sense.better]; omega)
  have : g.bound g.trg ≤ 0 + c := by simpa [Mdl.src0, Col.fam, Col.full, Col.mdl, Sense.betterEQ] using this
  omega

/-- C79: everything the search reports is a proper colouring with colours `1 .. value`. -/
theorem coloring_search_sound (hn : 1 ≤ t.K) (hK : t.K < 2147483647) {w dfuel fuel : Nat} {lim : Nat → Bool} {s : BB.BS ColS}
    (h : BB.searchP t.full t.fam w dfuel lim fuel 2147483647 = some s) :
    ∀ x, x ∈ s.sols → ∃ cs : List Nat, x.2 = cs.map (fun i : Nat => (i : Int)) ∧ t.Proper cs ∧ ∀ c, c ∈ cs → (c : Int) ≤ x.1 := by
  intro x hx
  obtain ⟨cs, h1, h2, _, _, h5⟩ := (t.sol_iff (ub := none) hn _ _).1 ((BB.searchP_sound (t.fam_ok hn hK) (t.layered_root hn hK) rfl h).1 x hx)
  exact ⟨cs, h1, h2, fun c hc => by rw [h5]; have := mem_le_top cs 0 c hc; omega⟩

theorem Col.rankBound : RankBound t.full t.rank t.full.sti 0 t.K := by
  intro s v h _
  by_cases hn : 1 ≤ t.K
  · rcases t.relx (ub := none) (t.ok_root hn) h with ⟨h, _⟩ | ⟨_, h, _⟩
    · rw [h]; exact Nat.le_refl _
    · exact Nat.le_of_lt h
  · have h0 : t.K = 0 := by omega
    have : ∀ s v, Relx t.full t.rank t.full.sti 0 s v → s = t.full.sti := by
      intro s v h
      induction h with
      | swap _ _ hsw _ ihsw => obtain rfl := (same_iff _ _).1 hsw; exact ihsw
      | root => rfl
      | step _ hs ih =>
        have := hs.1
        rw [ih] at this; simp [Col.full, Col.mdl, h0] at this
      | mergeL _ _ q1 _ _ _ ih1 => rw [ih1] at q1; simp [Col.full, Col.mdl, h0] at q1
      | mergeR _ _ q1 _ _ _ ih1 => rw [ih1] at q1; simp [Col.full, Col.mdl, h0] at q1
    rw [this s v h]
    exact Nat.zero_le _

/-- C79: the search ends. -/
theorem coloring_search_ends (hn : 1 ≤ t.K) (hK : t.K < 2147483647) (w : Nat) {dfuel : Nat} (hf : t.K + 2 ≤ dfuel) (lim : Nat → Bool) :
    ∃ L, ∀ fuel, L < fuel → ∃ s, BB.searchP t.full t.fam w dfuel lim fuel 2147483647 = some s ∧ (s.stopped = true ∨ Heap.empty s.pq = true) :=
  BB.searchP_ends (t.fam_ok hn hK) (t.layered_root hn hK) rfl t.rankBound w hf lim

theorem Col.sol_nonneg {ls : List Int} {c : Int} (hn : 1 ≤ t.K) (h : Sol t.full ls c) : 0 ≤ c := by
  obtain ⟨cs, _, _, _, _, h5⟩ := (t.sol_iff (ub := none) hn _ _).1 h
  omega

theorem Col.trivial_colourable : t.Colourable t.K := ⟨id, fun _ h => h, fun _ _ _ _ _ h => h⟩

/-- C79: with a width no layer exceeds, the search ends with the chromatic number and a colouring that
attains it. -/
theorem coloring_search_room (hn : 1 ≤ t.K) (hK : t.K < 2147483647) {w dfuel fuel : Nat} (hR : Room t.full t.rank t.full.sti w)
    {lim : Nat → Bool} {s : BB.BS ColS} (h : BB.searchP t.full t.fam w dfuel lim fuel 2147483647 = some s) (hns : s.stopped = false) :
    ∃ q : Nat, s.primal = q ∧ t.Colourable q ∧ (∀ k, t.Colourable k → q ≤ k) ∧
      ∃ cs : List Nat, s.inc = cs.map (fun i : Nat => (i : Int)) ∧ t.Proper cs ∧ ∀ c, c ∈ cs → c ≤ q := by
  obtain ⟨h1, h2⟩ := BB.searchP_room (t.fam_ok hn hK) (t.layered_root hn hK) rfl (fun _ ls c hs => by
    have := t.sol_nonneg hn hs
    simp [Col.full, Col.mdl, Sense.betterEQ, Sense.worst0]; omega) hR h hns
  have hle : ∀ k, t.Colourable k → s.primal ≤ k := by
    intro k hk
    obtain ⟨ls, c, a, b⟩ := (coloring_chromatic t hn k).2 hk
    have := h1 ls c a
    have : s.primal ≤ c := by simpa [Col.full, Col.mdl, Sense.betterEQ] using this
    omega
  rcases h2 with h2 | ⟨h2, _⟩
  · obtain ⟨cs, a1, a2, _, _, a5⟩ := (t.sol_iff (ub := none) hn _ _).1 h2
    refine ⟨top 0 cs, a5, (coloring_chromatic t hn _).1 ⟨_, _, h2, by omega⟩, fun k hk => ?_, cs, a1, a2, fun c hc => mem_le_top cs 0 c hc⟩
    have := hle k hk
    omega
  · exfalso
    have := hle t.K t.trivial_colourable
    omega

/-- C79, for any width: if along the run nothing was dropped for a bad reason (`okLoopP`), the answer is the
chromatic number.  Missing: that nothing is, which is false (below). -/
theorem coloring_search_partial (hn : 1 ≤ t.K) (hK : t.K < 2147483647) {w dfuel fuel : Nat} {lim : Nat → Bool} {s : BB.BS ColS}
    (h : BB.searchP t.full t.fam w dfuel lim fuel 2147483647 = some s)
    (hok : BB.okLoopP t.full t.fam w dfuel lim fuel 0 (BB.init t.full w 2147483647) = true) (hns : s.stopped = false) :
    ∃ q : Nat, s.primal = q ∧ t.Colourable q ∧ ∀ k, t.Colourable k → q ≤ k := by
  obtain ⟨h1, h2⟩ := BB.searchP_answer_partial (t.fam_ok hn hK) (t.layered_root hn hK) (by intro sd hsd; simp [Col.full, Col.mdl] at hsd)
    rfl (fun _ ls c hs => by
    have := t.sol_nonneg hn hs
    simp [Col.full, Col.mdl, Sense.betterEQ, Sense.worst0]; omega) h hok hns
  have hle : ∀ k, t.Colourable k → s.primal ≤ k := by
    intro k hk
    obtain ⟨ls, c, a, b⟩ := (coloring_chromatic t hn k).2 hk
    have := h1 ls c a
    have : s.primal ≤ c := by simpa [Col.full, Col.mdl, Sense.betterEQ] using this
    omega
  rcases h2 with h2 | ⟨h2, _⟩
  · obtain ⟨cs, a1, a2, _, _, a5⟩ := (t.sol_iff (ub := none) hn _ _).1 h2
    refine ⟨top 0 cs, a5, (coloring_chromatic t hn _).1 ⟨_, _, h2, by omega⟩, fun k hk => ?_⟩
    have := hle k hk
    omega
  · exfalso
    have := hle t.K t.trivial_colourable
    omega

/-- The graph of the example (examples/coloringtoy.cpp:55-63). -/
def toy : Col := ⟨5, [(0, 3), (0, 4), (1, 2), (1, 3), (1, 4), (2, 4)]⟩

/-- The program itself: width 4, answer 3, which is the chromatic number. -/
example : ∃ s, BB.searchP toy.full toy.fam 4 50 (fun _ => false) 50 2147483647 = some s ∧ s.primal = 3 ∧ s.inc = [1, 1, 2, 2, 3] ∧
    toy.Colourable 3 ∧ ¬ toy.Colourable 2 := by
  have hv : (BB.searchP toy.full toy.fam 4 50 (fun _ => false) 50 2147483647).map (fun s => (s.primal, s.inc, s.stopped)) =
      some (3, [1, 1, 2, 2, 3], false) := by decide +kernel
  simp only [Option.map_eq_some_iff] at hv
  obtain ⟨s, h1, h2⟩ := hv
  simp at h2
  obtain ⟨q, a, b, c⟩ := coloring_search_partial toy (by decide) (by decide) h1 (by decide +kernel) h2.2.2
  have e : q = 3 := by omega
  subst e
  exact ⟨s, h1, h2.1, h2.2.1, b, fun h => by have := c 2 h; omega⟩

/-- Four edges on five vertices. -/
def g5 : Col := ⟨5, [(0, 2), (1, 3), (0, 4), (1, 4)]⟩

/-- A run that splits the problem, lowers the primal bound from 3 to 2, and with it what the generator shows. -/
example : ∃ s, BB.searchP g5.full g5.fam 2 50 (fun _ => false) 50 2147483647 = some s ∧ s.pn = 3 ∧
    s.sols = [(3, [1, 2, 2, 1, 3]), (2, [1, 1, 2, 2, 2])] ∧ ∀ k, g5.Colourable k → 2 ≤ k := by
  have hv : (BB.searchP g5.full g5.fam 2 50 (fun _ => false) 50 2147483647).map (fun s => (s.pn, s.primal, s.sols, s.stopped)) =
      some (3, 2, [(3, [1, 2, 2, 1, 3]), (2, [1, 1, 2, 2, 2])], false) := by decide +kernel
  simp only [Option.map_eq_some_iff] at hv
  obtain ⟨s, h1, h2⟩ := hv
  simp at h2
  obtain ⟨q, a, b, c⟩ := coloring_search_partial g5 (by decide) (by decide) h1 (by decide +kernel) h2.2.2.2
  have e : q = 2 := by omega
  subst e
  exact ⟨s, h1, h2.1, h2.2.2.1, c⟩

/-- Another four edges. -/
def h5 : Col := ⟨5, [(0, 1), (2, 3), (0, 4), (2, 4)]⟩

/-- C79 is false for small widths: the search with width 2 ends with 3 colours on a graph that needs 2. -/
theorem coloring_search_false : ∃ s, BB.searchP h5.full h5.fam 2 50 (fun _ => false) 50 2147483647 = some s ∧
    Heap.empty s.pq = true ∧ s.stopped = false ∧ s.primal = 3 ∧ h5.Colourable 2 := by
  have hv : (BB.searchP h5.full h5.fam 2 50 (fun _ => false) 50 2147483647).map (fun s => (Heap.empty s.pq, s.stopped, s.primal)) =
      some (true, false, 3) := by decide +kernel
  simp only [Option.map_eq_some_iff] at hv
  obtain ⟨s, h1, h2⟩ := hv
  simp at h2
  refine ⟨s, h1, h2.1, h2.2.1, h2.2.2, fun i => [0, 1, 0, 1, 1].getD i 0, ?_, ?_⟩
  · intro i hi
    match i, hi with
    | 0, _ | 1, _ | 2, _ | 3, _ | 4, _ => decide
  · intro a b hab
    simp only [h5, List.mem_cons, Prod.mk.injEq, List.not_mem_nil, or_false] at hab
    rcases hab with ⟨rfl, rfl⟩ | ⟨rfl, rfl⟩ | ⟨rfl, rfl⟩ | ⟨rfl, rfl⟩ <;> decide

/-- With room for every layer the answer on that graph is right. -/
example : ∃ s, BB.searchP h5.full h5.fam 30 50 (fun _ => false) 50 2147483647 = some s ∧ s.primal = 2 ∧
    ∀ k, h5.Colourable k → 2 ≤ k := by
  have hv : (BB.searchP h5.full h5.fam 30 50 (fun _ => false) 50 2147483647).map (fun s => (s.primal, s.stopped)) =
      some (2, false) := by decide +kernel
  simp only [Option.map_eq_some_iff] at hv
  obtain ⟨s, h1, h2⟩ := hv
  simp at h2
  obtain ⟨q, a, _, c, _⟩ := coloring_search_room h5 (by decide) (by decide) (w := 30)
    (BB.room_level (h5.layered_root (by decide) (by decide)) h5.rankBound (fun d hd => by
      have : ∀ d, d < 6 → (BB.level h5.full d).length ≤ 30 := by decide +kernel
      exact this d (by simp only [h5] at hd; omega))) h1 h2.2
  have e : q = 2 := by omega
  subst e
  exact ⟨s, h1, h2.1, c⟩

end Verif.Ex
