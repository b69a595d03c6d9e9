import Verif.Misp2
import Verif.Props.Misp1
/-!
# C91: the second and third independent-set examples
-/
namespace Verif.Ex
open Verif.DD

/-! ### Reading an answer -/

/-- An edge joins the two vertices. -/
def Misp.joined (g : Misp) (u v : Nat) : Bool := g.edges.contains (u, v) || g.edges.contains (v, u)

/-- How a list of 0/1 decisions is read: each concerns the first remaining candidate; taking it removes
the candidates joined to it. -/
def Misp.read (g : Misp) : List Int → List Nat → Option (List Nat)
  | [], [] => some []
  | l :: ls, v :: cs =>
    if l = 0 then g.read ls cs
    else if l = 1 then (g.read ls (cs.filter fun u => !g.joined v u)).map (v :: ·)
    else none
  | _, _ => none

theorem Misp.joined_iff {g : Misp} {u v : Nat} : g.joined u v = true ↔ (u, v) ∈ g.edges ∨ (v, u) ∈ g.edges := by
  simp [Misp.joined]

theorem Misp.read_sub {g : Misp} : ∀ (ls : List Int) (cs vs : List Nat), g.read ls cs = some vs → vs.Sublist cs := by
  intro ls
  induction ls with
  | nil =>
    intro cs vs h
    cases cs with
    | nil => simp [Misp.read] at h; subst h; exact .slnil
    | cons => simp [Misp.read] at h
  | cons l ls ih =>
    intro cs vs h
    cases cs with
    | nil => simp [Misp.read] at h
    | cons v cs =>
      unfold Misp.read at h
      by_cases h0 : l = 0
      · rw [if_pos h0] at h
        exact (ih _ _ h).cons _
      · rw [if_neg h0] at h
        by_cases h1 : l = 1
        · rw [if_pos h1, Option.map_eq_some_iff] at h
          obtain ⟨us, h2, rfl⟩ := h
          exact ((ih _ _ h2).trans List.filter_sublist).cons_cons _
        · rw [if_neg h1] at h; cases h

theorem Misp.read_apart {g : Misp} : ∀ (ls : List Int) (cs vs : List Nat), g.read ls cs = some vs →
    vs.Pairwise fun a b => g.joined a b = false := by
  intro ls
  induction ls with
  | nil =>
    intro cs vs h
    cases cs with
    | nil => simp [Misp.read] at h; subst h; exact .nil
    | cons => simp [Misp.read] at h
  | cons l ls ih =>
    intro cs vs h
    cases cs with
    | nil => simp [Misp.read] at h
    | cons v cs =>
      unfold Misp.read at h
      by_cases h0 : l = 0
      · rw [if_pos h0] at h
        exact ih _ _ h
      · rw [if_neg h0] at h
        by_cases h1 : l = 1
        · rw [if_pos h1, Option.map_eq_some_iff] at h
          obtain ⟨us, h2, rfl⟩ := h
          refine List.pairwise_cons.2 ⟨fun u hu => ?_, ih _ _ h2⟩
          have := (List.mem_filter.1 ((g.read_sub _ _ _ h2).subset hu)).2
          simpa using this
        · rw [if_neg h1] at h; cases h

/-- Any choice of candidates no two of which are joined can be written as decisions. -/
theorem Misp.read_onto {g : Misp} : ∀ (k : Nat) (cs vs : List Nat), cs.length ≤ k → vs.Sublist cs →
    (vs.Pairwise fun a b => g.joined a b = false) → ∃ ls, g.read ls cs = some vs := by
  intro k
  induction k with
  | zero =>
    intro cs vs hk hs _
    have : cs = [] := List.length_eq_zero_iff.1 (by omega)
    subst this
    have := List.sublist_nil.1 hs
    subst this
    exact ⟨[], rfl⟩
  | succ k ih =>
    intro cs vs hk hs hp
    cases hs with
    | slnil => exact ⟨[], rfl⟩
    | cons v hs =>
      obtain ⟨ls, h⟩ := ih _ _ (by simpa using hk) hs hp
      exact ⟨0 :: ls, by rw [Misp.read, if_pos rfl, h]⟩
    | @cons_cons us cs v hs =>
      have hp' := List.pairwise_cons.1 hp
      have hsub : us.Sublist (cs.filter fun u => !g.joined v u) := by
        have := hs.filter (fun u => !g.joined v u)
        rwa [List.filter_eq_self.2 (fun u hu => by simp [hp'.1 u hu])] at this
      obtain ⟨ls, h⟩ := ih _ us (by
        have := List.length_filter_le (fun u => !g.joined v u) cs
        simp at hk
        omega) hsub hp'.2
      exact ⟨1 :: ls, by rw [Misp.read, if_neg (by decide), if_pos rfl, h]; rfl⟩

theorem range_pairwise (n : Nat) : (List.range n).Pairwise (· < ·) := List.pairwise_lt_range

/-- What is read off all the vertices is an independent set. -/
theorem Misp.read_ind {g : Misp} {ls : List Int} {vs : List Nat} (h : g.read ls (List.range g.top) = some vs) : g.IndV vs := by
  have hs := g.read_sub _ _ _ h
  refine ⟨fun v hv => List.mem_range.1 (hs.subset hv), ?_⟩
  have h1 := (range_pairwise g.top).sublist hs
  have h2 := g.read_apart _ _ _ h
  refine (h1.and h2).imp ?_
  rintro a b ⟨h3, h4⟩
  rw [← Bool.not_eq_true, Misp.joined_iff, not_or] at h4
  exact ⟨h3, h4.1, h4.2⟩

theorem sublist_range {vs : List Nat} (hp : vs.Pairwise (· < ·)) : ∀ (p : Nat → Bool) (n : Nat), (∀ v, v ∈ vs → v < n ∧ p v = true) → vs.Sublist ((List.range n).filter p) := by
  intro p n
  induction n generalizing vs with
  | zero =>
    intro h
    cases vs with
    | nil => exact List.nil_sublist _
    | cons v vs => have := (h v List.mem_cons_self).1; omega
  | succ n ih =>
    intro h
    rw [List.range_succ, List.filter_append]
    rcases List.eq_nil_or_concat vs with rfl | ⟨ys, z, rfl⟩
    · exact List.nil_sublist _
    · rw [List.concat_eq_append] at h hp ⊢
      have hp' := List.pairwise_append.1 hp
      by_cases e : z = n
      · subst e
        have hz := (h z (by simp)).2
        refine List.Sublist.append (ih hp'.1 fun v hv => ⟨hp'.2.2 v hv z (by simp), (h v (by simp [hv])).2⟩) ?_
        simp [hz]
      · refine (ih hp fun v hv => ⟨?_, (h v hv).2⟩).trans (List.sublist_append_left _ _)
        have := (h v hv).1
        have hz := (h z (by simp)).1
        rcases List.mem_append.1 hv with hv | hv
        · have := hp'.2.2 v hv z (by simp); omega
        · simp at hv; omega

theorem Misp.apart_of {g : Misp} {vs : List Nat} (h : g.IndV vs) : vs.Pairwise fun a b => g.joined a b = false := by
  refine h.2.imp ?_
  rintro a b ⟨_, h1, h2⟩
  rw [← Bool.not_eq_true, Misp.joined_iff, not_or]
  exact ⟨h1, h2⟩

/-! ### The shape both programs have -/

/-- The selectable vertices in order. -/
def Misp.cand (g : Misp) (s : Nat) : List Nat := (List.range g.top).filter fun i => s.testBit i

theorem Misp.cand_mem {g : Misp} {s v : Nat} : v ∈ g.cand s ↔ v < g.top ∧ s.testBit v = true := by
  simp [Misp.cand]

/-- A program that decides the first selectable vertex; `f` gives the last state component. -/
structure Misp.Decides (g : Misp) (m : Mdl MispS) (Live : MispS → Prop) (f : MispS → Nat → Int → Int) : Prop where
  sense : m.sense = .max
  eqs : ∀ x, m.eqs x = decide (x.sel = 0)
  stt : m.stt.sel = 0
  sti : m.sti.sel = 2 ^ g.top - 1
  dom : m.sdom = none
  ne : ∀ x, Live x → x.sel ≠ 0
  top : ∀ x, Live x → ∀ i, x.sel.testBit i = true → i < g.top
  rank : ∀ x, Live x → x.n ≤ g.top
  step : ∀ x v cs l x', Live x → g.cand x.sel = v :: cs → (Step m x l x' ↔ (l = 0 ∨ l = 1) ∧
    (g.pick x.sel v l = 0 ∧ x' = m.stt ∨ g.pick x.sel v l ≠ 0 ∧ x' = ⟨g.pick x.sel v l, x.n + 1, f x v l⟩))
  cost : ∀ x v cs l, Live x → g.cand x.sel = v :: cs → m.stc x l = l * g.w v
  next : ∀ x v cs l, Live x → g.cand x.sel = v :: cs → l = 0 ∨ l = 1 → g.pick x.sel v l ≠ 0 → Live ⟨g.pick x.sel v l, x.n + 1, f x v l⟩
  merge : ∀ a b c, Live a → Live b → m.smf a b = some c → Live c ∧ c.sel = a.sel ||| b.sel ∧ c.n = min a.n b.n
  loc : ∀ h, m.loc = some h → ∀ x y, Live x ∨ x = m.stt → g.wts (g.cand x.sel) ≤ h x y

theorem Misp.cand_cons {g : Misp} {s v : Nat} {cs : List Nat} (h : g.cand s = v :: cs) :
    v < g.top ∧ s.testBit v = true ∧ (∀ u, u ∈ cs → v < u) ∧ cs.Pairwise (· < ·) := by
  have hp : (g.cand s).Pairwise (· < ·) := (range_pairwise g.top).sublist List.filter_sublist
  rw [h] at hp
  have := List.pairwise_cons.1 hp
  have hv := (g.cand_mem (s := s) (v := v)).1 (by rw [h]; exact List.mem_cons_self)
  exact ⟨hv.1, hv.2, this.1, this.2⟩

theorem Misp.cand_ext {g : Misp} {s : Nat} {cs : List Nat} (hp : cs.Pairwise (· < ·)) (h : ∀ u, u ∈ cs ↔ u < g.top ∧ s.testBit u = true) : g.cand s = cs := by
  have h1 := sublist_range hp (fun i => s.testBit i) g.top (fun v hv => (h v).1 hv)
  have hp' : (g.cand s).Pairwise (· < ·) := (range_pairwise g.top).sublist List.filter_sublist
  refine (h1.eq_of_length ?_).symm
  refine Nat.le_antisymm h1.length_le ?_
  exact (List.Nodup.length_le_of_subset (hp'.imp (fun h => by omega)) (fun u hu => (h u).2 (g.cand_mem.1 hu)))

theorem Misp.pick_bit {g : Misp} {s v : Nat} {l : Int} (i : Nat) : (g.pick s v l).testBit i = true ↔
    s.testBit i = true ∧ i ≠ v ∧ (l ≠ 0 → g.joined v i = false) := by
  unfold Misp.pick
  by_cases h : l = 0
  · rw [if_pos h, mdiff_bit, Nat.testBit_two_pow, Bool.and_eq_true, Bool.not_eq_true', decide_eq_false_iff_not]
    exact ⟨fun ⟨a, b⟩ => ⟨a, fun e => b e.symm, fun e => absurd h e⟩, fun ⟨a, b, _⟩ => ⟨a, fun e => b e.symm⟩⟩
  · rw [if_neg h, mdiff_bit, Bool.and_eq_true, Bool.not_eq_true', ← Bool.not_eq_true, g.closed_bit, not_or, ← Misp.joined_iff, Bool.not_eq_true]
    exact ⟨fun ⟨a, b, c⟩ => ⟨a, b, fun _ => c⟩, fun ⟨a, b, c⟩ => ⟨a, b, c h⟩⟩

theorem Misp.cand_pick {g : Misp} {s v : Nat} {cs : List Nat} (h : g.cand s = v :: cs) (l : Int) :
    g.cand (g.pick s v l) = if l = 0 then cs else cs.filter fun u => !g.joined v u := by
  obtain ⟨h1, h2, h3, h4⟩ := g.cand_cons h
  have hm : ∀ u, u ∈ cs ↔ (u < g.top ∧ s.testBit u = true) ∧ u ≠ v := by
    intro u
    rw [← g.cand_mem, h, List.mem_cons]
    constructor
    · intro hu; exact ⟨.inr hu, by have := h3 u hu; omega⟩
    · rintro ⟨hu | hu, hn⟩
      · exact absurd hu hn
      · exact hu
  by_cases hl : l = 0
  · rw [if_pos hl]
    refine g.cand_ext h4 fun u => ?_
    rw [hm, g.pick_bit]
    exact ⟨fun ⟨⟨a, b⟩, c⟩ => ⟨a, b, c, fun e => absurd hl e⟩, fun ⟨a, b, c, _⟩ => ⟨⟨a, b⟩, c⟩⟩
  · rw [if_neg hl]
    refine g.cand_ext (h4.sublist List.filter_sublist) fun u => ?_
    rw [List.mem_filter, hm, g.pick_bit, Bool.not_eq_true']
    exact ⟨fun ⟨⟨⟨a, b⟩, c⟩, d⟩ => ⟨a, b, c, fun _ => d⟩, fun ⟨a, b, c, d⟩ => ⟨⟨⟨a, b⟩, c⟩, d hl⟩⟩

theorem Misp.cand_nil {g : Misp} {s : Nat} (ht : ∀ i, s.testBit i = true → i < g.top) : g.cand s = [] ↔ s = 0 := by
  constructor
  · intro h
    refine Classical.byContradiction fun hs => ?_
    obtain ⟨i, hi⟩ := Nat.exists_testBit_of_ne_zero hs
    have := (g.cand_mem (s := s) (v := i)).2 ⟨ht i hi, hi⟩
    rw [h] at this
    cases this
  · rintro rfl
    simp [Misp.cand]

theorem Misp.cand_zero {g : Misp} : g.cand 0 = [] := by simp [Misp.cand]

theorem wts_sublist {g : Misp} (hw : ∀ i, 0 ≤ g.w i) {us vs : List Nat} (h : us.Sublist vs) : g.wts us ≤ g.wts vs := by
  induction h with
  | slnil => exact Int.le_refl _
  | @cons l1 l2 a h ih =>
    have : g.wts (a :: l2) = g.w a + g.wts l2 := by simp [Misp.wts]
    have := hw a
    omega
  | @cons_cons l1 l2 a h ih =>
    have e1 : g.wts (a :: l1) = g.w a + g.wts l1 := by simp [Misp.wts]
    have e2 : g.wts (a :: l2) = g.w a + g.wts l2 := by simp [Misp.wts]
    omega

namespace Misp.Decides
variable {g : Misp} {m : Mdl MispS} {Live : MispS → Prop} {f : MispS → Nat → Int → Int} (D : g.Decides m Live f)
include D

theorem term : m.eqs m.stt = true := by rw [D.eqs, D.stt]; rfl

theorem live_of {x : MispS} (h : Live x ∨ x = m.stt) (hq : m.eqs x = false) : Live x :=
  h.resolve_right fun e => by rw [e, D.term] at hq; cases hq

theorem first {x : MispS} (hx : Live x) : ∃ v cs, g.cand x.sel = v :: cs := by
  cases h : g.cand x.sel with
  | nil => exact absurd ((g.cand_nil (D.top x hx)).1 h) (D.ne x hx)
  | cons v cs => exact ⟨v, cs, rfl⟩

theorem path_iff : ∀ (ls : List Int) (x : MispS) (c : Int), Live x ∨ x = m.stt →
    (Path m x ls c m.stt ↔ ∃ vs, g.read ls (g.cand x.sel) = some vs ∧ c = g.wts vs) := by
  intro ls
  induction ls with
  | nil =>
    intro x c hx
    rcases hx with hx | rfl
    · obtain ⟨v, cs, hc⟩ := D.first hx
      rw [hc]
      constructor
      · intro h
        cases h
        exact absurd D.stt (D.ne _ hx)
      · rintro ⟨vs, h, _⟩; cases h
    · rw [D.stt, g.cand_zero]
      constructor
      · intro h; cases h; exact ⟨[], rfl, rfl⟩
      · rintro ⟨vs, h, rfl⟩
        cases h
        exact Path.nil _
  | cons l ls ih =>
    intro x c hx
    rcases hx with hx | rfl
    · obtain ⟨v, cs, hc⟩ := D.first hx
      have hrest : ∀ x', (g.pick x.sel v l = 0 ∧ x' = m.stt ∨ g.pick x.sel v l ≠ 0 ∧ x' = ⟨g.pick x.sel v l, x.n + 1, f x v l⟩) →
          x'.sel = g.pick x.sel v l := by
        rintro x' (⟨h1, rfl⟩ | ⟨h1, rfl⟩)
        · rw [D.stt, h1]
        · rfl
      have hlive : ∀ x', (l = 0 ∨ l = 1) → (g.pick x.sel v l = 0 ∧ x' = m.stt ∨ g.pick x.sel v l ≠ 0 ∧ x' = ⟨g.pick x.sel v l, x.n + 1, f x v l⟩) →
          Live x' ∨ x' = m.stt := by
        rintro x' hl (⟨_, rfl⟩ | ⟨h1, rfl⟩)
        · exact .inr rfl
        · exact .inl (D.next x v cs l hx hc hl h1)
      constructor
      · intro h
        cases h with
        | @cons _ x' _ _ _ c hst hp =>
          obtain ⟨hl, hx'⟩ := (D.step x v cs l x' hx hc).1 hst
          obtain ⟨vs, h1, rfl⟩ := (ih x' c (hlive x' hl hx')).1 hp
          rw [hrest x' hx', g.cand_pick hc] at h1
          rw [D.cost x v cs l hx hc, hc]
          rcases hl with rfl | rfl
          · rw [if_pos rfl] at h1
            exact ⟨vs, by rw [Misp.read, if_pos rfl, h1], by omega⟩
          · rw [if_neg (by decide)] at h1
            exact ⟨v :: vs, by rw [Misp.read, if_neg (by decide), if_pos rfl, h1]; rfl, by simp [Misp.wts]⟩
      · rintro ⟨vs, h, rfl⟩
        rw [hc, Misp.read] at h
        have hst : (l = 0 ∨ l = 1) → ∃ x', Step m x l x' ∧ (Live x' ∨ x' = m.stt) ∧ x'.sel = g.pick x.sel v l := by
          intro hl
          by_cases ho : g.pick x.sel v l = 0
          · exact ⟨m.stt, (D.step x v cs l _ hx hc).2 ⟨hl, .inl ⟨ho, rfl⟩⟩, .inr rfl, by rw [D.stt, ho]⟩
          · exact ⟨_, (D.step x v cs l _ hx hc).2 ⟨hl, .inr ⟨ho, rfl⟩⟩, .inl (D.next x v cs l hx hc hl ho), rfl⟩
        by_cases h0 : l = 0
        · rw [if_pos h0] at h
          obtain ⟨x', h1, h2, h3⟩ := hst (.inl h0)
          have := Path.cons h1 ((ih x' _ h2).2 ⟨vs, by rw [h3, g.cand_pick hc, if_pos h0, h], rfl⟩)
          rwa [D.cost x v cs l hx hc, h0, Int.zero_mul, Int.zero_add, ← h0] at this
        · rw [if_neg h0] at h
          by_cases h1 : l = 1
          · rw [if_pos h1, Option.map_eq_some_iff] at h
            obtain ⟨us, h, rfl⟩ := h
            obtain ⟨x', k1, k2, k3⟩ := hst (.inr h1)
            have := Path.cons k1 ((ih x' _ k2).2 ⟨us, by rw [k3, g.cand_pick hc, if_neg h0, h], rfl⟩)
            rw [D.cost x v cs l hx hc, h1, Int.one_mul, ← h1] at this
            have e : g.wts (v :: us) = g.w v + g.wts us := by simp [Misp.wts]
            rwa [e]
          · rw [if_neg h1] at h; cases h
    · rw [D.stt, g.cand_zero]
      constructor
      · intro h
        have := (h.of_terminal D.term).1
        cases this
      · rintro ⟨vs, h, _⟩; simp [Misp.read] at h

theorem cand_sti : g.cand m.sti.sel = List.range g.top := by
  rw [D.sti]
  unfold Misp.cand
  refine List.filter_eq_self.2 fun i hi => ?_
  rw [Nat.testBit_two_pow_sub_one]
  simpa using hi

theorem sol (hl : Live m.sti) (ls : List Int) (c : Int) : Sol m ls c ↔ ∃ vs, g.read ls (List.range g.top) = some vs ∧ c = g.wts vs := by
  unfold Sol
  rw [D.path_iff ls _ c (.inl hl), D.cand_sti]

theorem covers (hl : Live m.sti) {vs : List Nat} (h : g.IndV vs) : ∃ ls, Sol m ls (g.wts vs) := by
  obtain ⟨ls, h1⟩ := g.read_onto _ (List.range g.top) vs (Nat.le_refl _) (by
    have := sublist_range (h.2.imp And.left) (fun _ => true) g.top (fun v hv => ⟨h.1 v hv, rfl⟩)
    rwa [List.filter_eq_self.2 (fun _ _ => rfl)] at this) (g.apart_of h)
  exact ⟨ls, (D.sol hl _ _).2 ⟨vs, h1, rfl⟩⟩

theorem merge_valid {a b c : MispS} (ha : Live a) (hb : Live b) (hm : m.smf a b = some c) {v : Int}
    (h : Val m a v ∨ Val m b v) : Val m c v := by
  obtain ⟨hc, hs, _⟩ := D.merge a b c ha hb hm
  have key : ∀ x, Live x → (∀ i, x.sel.testBit i = true → c.sel.testBit i = true) → Val m x v → Val m c v := by
    rintro x hx hi ⟨ls, h⟩
    obtain ⟨vs, h1, rfl⟩ := (D.path_iff ls x v (.inl hx)).1 h
    have hsub := g.read_sub _ _ _ h1
    obtain ⟨ls', h2⟩ := g.read_onto _ (g.cand c.sel) vs (Nat.le_refl _) (by
      refine sublist_range ?_ _ _ fun v hv => ?_
      · exact ((range_pairwise g.top).sublist List.filter_sublist).sublist hsub
      · have := g.cand_mem.1 (hsub.subset hv)
        exact ⟨this.1, hi v this.2⟩) (g.read_apart _ _ _ h1)
    exact ⟨ls', (D.path_iff ls' c _ (.inl hc)).2 ⟨vs, h2, rfl⟩⟩
  rcases h with h | h
  · exact key a ha (fun i hi => by rw [hs, Nat.testBit_or, hi]; rfl) h
  · exact key b hb (fun i hi => by rw [hs, Nat.testBit_or, hi]; simp) h

theorem relx (hw : ∀ i, 0 ≤ g.w i) {s0 x : MispS} {v0 v : Int} (h0 : Live s0) (h : Relx m g.rank s0 v0 x v) :
    (Live x ∨ x = m.stt) ∧ v0 ≤ v := by
  induction h with
  | swap _ _ hsw _ ihsw => obtain rfl := (same_iff _ _).1 hsw; exact ihsw
  | root => exact ⟨.inl h0, Int.le_refl _⟩
  | @step x x' l v _ hst ih =>
    have hx := D.live_of ih.1 hst.1
    obtain ⟨u, cs, hc⟩ := D.first hx
    obtain ⟨hl, h2⟩ := (D.step x u cs l x' hx hc).1 hst
    refine ⟨?_, ?_⟩
    · rcases h2 with ⟨_, rfl⟩ | ⟨ho, rfl⟩
      · exact .inr rfl
      · exact .inl (D.next x u cs l hx hc hl ho)
    · rw [D.cost x u cs l hx hc]
      have := hw u
      have := ih.2
      rcases hl with rfl | rfl <;> omega
  | mergeL _ _ ha hb _ hm ih1 ih2 => exact ⟨.inl (D.merge _ _ _ (D.live_of ih1.1 ha) (D.live_of ih2.1 hb) hm).1, ih1.2⟩
  | mergeR _ _ ha hb _ hm ih1 ih2 => exact ⟨.inl (D.merge _ _ _ (D.live_of ih1.1 ha) (D.live_of ih2.1 hb) hm).1, ih2.2⟩

/-- Such a program meets the engine's hypotheses, from every live state. -/
theorem layered (hw : ∀ i, 0 ≤ g.w i) {s0 : MispS} {v0 : Int} (h0 : Live s0) (hv0 : -2147483647 < v0) : Layered m g.rank s0 v0 where
  sink := D.term
  src := by rw [D.eqs]; simpa using D.ne _ h0
  range := fun x v h => by
    have := (D.relx hw h0 h).2
    rw [D.sense]
    simp [Sense.better, Sense.best0]; omega
  step := fun x v l x' h hst => by
    have hx := D.live_of (D.relx hw h0 h).1 hst.1
    obtain ⟨u, cs, hc⟩ := D.first hx
    obtain ⟨hl, h2⟩ := (D.step x u cs l x' hx hc).1 hst
    rcases h2 with ⟨_, rfl⟩ | ⟨ho, rfl⟩
    · exact .inl D.term
    · exact .inr rfl
  merge := fun a b c va vb ra rb ha hb hr hm => by
    have la := D.live_of (D.relx hw h0 ra).1 ha
    have lb := D.live_of (D.relx hw h0 rb).1 hb
    obtain ⟨h1, _, h3⟩ := D.merge a b c la lb hm
    refine ⟨by rw [D.eqs]; simpa using D.ne _ h1, ?_, ?_, ?_⟩
    · have hr' : a.n = b.n := hr
      show c.n = a.n
      omega
    · exact fun v hv => ⟨v, D.merge_valid la lb hm (.inl hv), by rw [Sense.betterEQ_iff]; omega⟩
    · exact fun v hv => ⟨v, D.merge_valid la lb hm (.inr hv), by rw [Sense.betterEQ_iff]; omega⟩
  local_ := fun h hf x v y c hr hv => by
    have hx := (D.relx hw h0 hr).1
    obtain ⟨ls, hp⟩ := hv
    obtain ⟨vs, h1, rfl⟩ := (D.path_iff ls x c hx).1 hp
    have h2 := wts_sublist hw (g.read_sub _ _ _ h1)
    have h3 := D.loc h hf x y hx
    rw [D.sense]
    simp [Sense.betterEQ]; omega
  dom := fun f hf => by rw [D.dom] at hf; cases hf

theorem rankBound (hw : ∀ i, 0 ≤ g.w i) (h0 : Live m.sti) : RankBound m g.rank m.sti 0 g.top := by
  intro x v h hq
  exact D.rank x (D.live_of (D.relx hw h0 h).1 hq)

theorem answer (h0 : Live m.sti) {p : Int} {inc : List Int} (h1 : ∀ ls c, Sol m ls c → m.sense.betterEQ p c = true)
    (h2 : Sol m inc p ∨ (p = -2147483647 ∧ ∀ ls c, Sol m ls c → m.sense.better c (-2147483647) = false)) :
    g.Heaviest p ∧ ∃ vs, g.read inc (List.range g.top) = some vs ∧ g.wts vs = p := by
  rw [D.sense] at h1
  have hle : ∀ vs, g.IndV vs → g.wts vs ≤ p := by
    intro vs hv
    obtain ⟨ls, hs⟩ := D.covers h0 hv
    have := h1 ls _ hs
    simpa [Sense.betterEQ] using this
  rcases h2 with h2 | ⟨h2, _⟩
  · obtain ⟨vs, a1, a2⟩ := (D.sol h0 _ _).1 h2
    exact ⟨⟨⟨vs, g.read_ind a1, a2.symm⟩, hle⟩, vs, a1, a2.symm⟩
  · have := hle [] ⟨by simp, List.Pairwise.nil⟩
    rw [h2] at this
    simp [Misp.wts] at this

theorem worst (hw : ∀ i, 0 ≤ g.w i) (h0 : Live m.sti) (hB : g.wts (List.range g.top) ≤ 2147483647) (ls : List Int) (c : Int) (hs : Sol m ls c) :
    m.sense.betterEQ m.sense.worst0 c = true := by
  obtain ⟨vs, h1, rfl⟩ := (D.sol h0 _ _).1 hs
  have := wts_sublist hw (g.read_sub _ _ _ h1)
  rw [D.sense]
  simp [Sense.betterEQ, Sense.worst0]; omega

end Misp.Decides

/-! ### misp2 -/

theorem scanTo_spec (s top : Nat) : ∀ (f v u : Nat), v ≤ u → u ≤ top → s.testBit u = true → (∀ i, v ≤ i → i < u → s.testBit i = false) → u - v < f →
    scanTo s top f v = u := by
  intro f
  induction f with
  | zero => intro v u _ _ _ _ h; omega
  | succ f ih =>
    intro v u hv hu hb hn hf
    unfold scanTo
    by_cases e : v = u
    · subst e
      rw [if_neg (by simp [hb])]
    · rw [if_pos ⟨hn v (Nat.le_refl _) (by omega), by omega⟩]
      exact ih (v + 1) u (by omega) hu hb (fun i h1 h2 => hn i (by omega) h2) (by omega)

theorem scan_spec {s top v u : Nat} (h1 : v ≤ u) (h2 : u ≤ top) (h3 : s.testBit u = true) (h4 : ∀ i, v ≤ i → i < u → s.testBit i = false) : scan s top v = u :=
  scanTo_spec s top _ v u h1 h2 h3 h4 (by omega)

theorem Misp.cand_least {g : Misp} {s v : Nat} {cs : List Nat} (h : g.cand s = v :: cs) (i : Nat) (hi : i < v) : s.testBit i = false := by
  have := g.cand_cons h
  refine Bool.eq_false_iff.2 fun hb => ?_
  have : i ∈ g.cand s := g.cand_mem.2 ⟨by omega, hb⟩
  rw [h] at this
  rcases List.mem_cons.1 this with e | e
  · omega
  · have := (g.cand_cons h).2.2.1 i e; omega

/-- States of misp2: the selectable vertices come after the last one decided. -/
abbrev Misp.Live2 (g : Misp) : MispS → Prop := g.Live1

theorem Misp.cur2_eq {g : Misp} {x : MispS} (hx : g.Live2 x) {v : Nat} {cs : List Nat} (h : g.cand x.sel = v :: cs) : g.cur2 x = v := by
  have h1 := g.cand_cons h
  have h2 := hx.bits v h1.2.1
  have h3 := hx.l
  exact scan_spec (by omega) (by omega) h1.2.1 (fun i _ hi => g.cand_least h i hi)

theorem Misp.decides2 (g : Misp) : g.Decides g.mdl2 g.Live2 (fun _ v _ => v) where
  sense := rfl
  eqs := fun _ => rfl
  stt := rfl
  sti := rfl
  dom := rfl
  ne := fun x hx => hx.ne
  top := fun x hx i hi => (hx.bits i hi).2
  rank := fun x hx => by
    obtain ⟨i, hi⟩ := Nat.exists_testBit_of_ne_zero hx.ne
    have := hx.bits i hi
    have := hx.n
    omega
  step := fun x v cs l x' hx hc => by
    have h1 : g.mdl2.eqs x = false := by simp [Misp.mdl2, hx.ne]
    have h2 : l ∈ g.mdl2.lgf x ↔ l = 0 ∨ l = 1 := by simp [Misp.mdl2]
    have hv := (g.cand_cons hc).1
    have h3 : g.mdl2.stf x l = some ⟨g.pick x.sel v l, if g.pick x.sel v l = 0 then 0 else x.n + 1, if g.pick x.sel v l = 0 then (g.top : Int) else (v : Int)⟩ := by
      simp only [Misp.mdl2]
      rw [g.cur2_eq hx hc, if_neg (by omega)]
    unfold Step
    rw [h1, h2, h3]
    by_cases ho : g.pick x.sel v l = 0
    · rw [if_pos ho, if_pos ho, ho]
      constructor
      · rintro ⟨_, hl, e⟩; exact ⟨hl, .inl ⟨rfl, (Option.some.inj e).symm⟩⟩
      · rintro ⟨hl, ⟨_, rfl⟩ | ⟨e, _⟩⟩
        · exact ⟨rfl, hl, rfl⟩
        · exact absurd rfl e
    · rw [if_neg ho, if_neg ho]
      constructor
      · rintro ⟨_, hl, e⟩; exact ⟨hl, .inr ⟨ho, (Option.some.inj e).symm⟩⟩
      · rintro ⟨hl, ⟨e, _⟩ | ⟨_, rfl⟩⟩
        · exact absurd e ho
        · exact ⟨rfl, hl, rfl⟩
  cost := fun x v cs l hx hc => by
    have hv := (g.cand_cons hc).1
    show l * (if g.cur2 x = g.top then 0 else g.w (g.cur2 x)) = _
    rw [g.cur2_eq hx hc, if_neg (by omega)]
  next := fun x v cs l hx hc _ ho => by
    have h1 := g.cand_cons hc
    have h2 := hx.bits v h1.2.1
    refine ⟨ho, by dsimp only; omega, by have := hx.n; dsimp only; omega, fun i hi => ?_⟩
    have hi' := (g.pick_bit i).1 hi
    have := hx.bits i hi'.1
    dsimp only
    refine ⟨?_, this.2⟩
    have : ¬ i < v := fun h => by rw [g.cand_least hc i h] at hi'; simp at hi'
    have := hi'.2.1
    omega
  merge := fun a b c ha hb hm => by
    have hm' : g.mdl1.smf a b = some c := hm
    obtain ⟨h1, h2⟩ := g.merge1_eq hm'
    exact ⟨(ha.merge hb hm').1, by rw [h2], by rw [h2]⟩
  loc := fun h hf => by simp [Misp.mdl2] at hf

/-! ### misp3 -/

/-- States of misp3: the selectable vertices start at the one decided next. -/
structure Misp.Live3 (g : Misp) (x : MispS) : Prop where
  l0 : 0 ≤ x.l
  here : x.sel.testBit x.l.toNat = true
  n : (x.n : Int) ≤ x.l
  bits : ∀ i : Nat, x.sel.testBit i = true → x.l ≤ i ∧ i < g.top

theorem Misp.Live3.first {g : Misp} {x : MispS} (hx : g.Live3 x) {v : Nat} {cs : List Nat} (h : g.cand x.sel = v :: cs) : x.l = v := by
  have h1 := g.cand_cons h
  have h2 := hx.bits v h1.2.1
  have h3 := g.cand_least h x.l.toNat
  have := hx.l0
  have : ¬ x.l.toNat < v := fun e => by have := h3 e; rw [hx.here] at this; cases this
  omega

theorem Misp.pick3 {g : Misp} (s v : Nat) (l : Int) : (if l ≠ 0 then mdiff (mdiff s (2 ^ v)) (g.closed v) else mdiff s (2 ^ v)) = g.pick s v l := by
  apply Nat.eq_of_testBit_eq
  intro i
  rw [Bool.eq_iff_iff, g.pick_bit]
  by_cases h : l = 0
  · rw [if_neg (by simp [h]), mdiff_bit, Nat.testBit_two_pow, Bool.and_eq_true, Bool.not_eq_true', decide_eq_false_iff_not]
    exact ⟨fun ⟨a, b⟩ => ⟨a, fun e => b e.symm, fun e => absurd h e⟩, fun ⟨a, b, _⟩ => ⟨a, fun e => b e.symm⟩⟩
  · rw [if_pos h, mdiff_bit, mdiff_bit, Nat.testBit_two_pow, Bool.and_eq_true, Bool.and_eq_true, Bool.not_eq_true', decide_eq_false_iff_not, Bool.not_eq_true', ← Bool.not_eq_true,
      g.closed_bit, not_or, ← Misp.joined_iff, Bool.not_eq_true]
    exact ⟨fun ⟨⟨a, _⟩, b, c⟩ => ⟨a, b, fun _ => c⟩, fun ⟨a, b, c⟩ => ⟨⟨a, fun e => b e.symm⟩, b, c h⟩⟩

theorem Misp.rest3_eq {g : Misp} {x : MispS} (h : ∀ i : Nat, x.sel.testBit i = true → x.l ≤ i) : g.rest3 x = g.wts (g.cand x.sel) := by
  unfold Misp.rest3 Misp.wts Misp.cand
  congr 1
  refine List.map_congr_left fun i hi => ?_
  rw [if_pos (h i (by simpa using (List.mem_filter.1 hi).2))]

theorem Misp.decides3 (g : Misp) : g.Decides g.mdl3 g.Live3 (fun x v l => (scan (g.pick x.sel v l) g.top (v + 1) : Int)) where
  sense := rfl
  eqs := fun _ => rfl
  stt := rfl
  sti := rfl
  dom := rfl
  ne := fun x hx h => by have := hx.here; rw [h] at this; simp at this
  top := fun x hx i hi => (hx.bits i hi).2
  rank := fun x hx => by
    have := hx.bits _ hx.here
    have := hx.n
    omega
  step := fun x v cs l x' hx hc => by
    have hne : x.sel ≠ 0 := fun h => by have := hx.here; rw [h] at this; simp at this
    have h1 : g.mdl3.eqs x = false := by simp [Misp.mdl3, hne]
    have h2 : l ∈ g.mdl3.lgf x ↔ l = 0 ∨ l = 1 := by simp [Misp.mdl3]
    have hv := (g.cand_cons hc).1
    have hl := hx.first hc
    have h3 : g.mdl3.stf x l = some ⟨g.pick x.sel v l, if g.pick x.sel v l = 0 then 0 else x.n + 1,
        if g.pick x.sel v l = 0 then (g.top : Int) else (scan (g.pick x.sel v l) g.top (v + 1) : Int)⟩ := by
      simp only [Misp.mdl3]
      rw [if_neg (by omega), hl, Int.toNat_natCast, g.pick3]
    unfold Step
    rw [h1, h2, h3]
    by_cases ho : g.pick x.sel v l = 0
    · rw [if_pos ho, if_pos ho, ho]
      constructor
      · rintro ⟨_, hl, e⟩; exact ⟨hl, .inl ⟨rfl, (Option.some.inj e).symm⟩⟩
      · rintro ⟨hl, ⟨_, rfl⟩ | ⟨e, _⟩⟩
        · exact ⟨rfl, hl, rfl⟩
        · exact absurd rfl e
    · rw [if_neg ho, if_neg ho]
      constructor
      · rintro ⟨_, hl, e⟩; exact ⟨hl, .inr ⟨ho, (Option.some.inj e).symm⟩⟩
      · rintro ⟨hl, ⟨e, _⟩ | ⟨_, rfl⟩⟩
        · exact absurd e ho
        · exact ⟨rfl, hl, rfl⟩
  cost := fun x v cs l hx hc => by
    have hv := (g.cand_cons hc).1
    show l * (if x.l.toNat = g.top then 0 else g.w x.l.toNat) = _
    rw [hx.first hc, Int.toNat_natCast, if_neg (by omega)]
  next := fun x v cs l hx hc _ ho => by
    have h1 := g.cand_cons hc
    have hl := hx.first hc
    have hb : ∀ i : Nat, (g.pick x.sel v l).testBit i = true → v < i ∧ i < g.top := by
      intro i hi
      have hi' := (g.pick_bit i).1 hi
      have := hx.bits i hi'.1
      have := hi'.2.1
      omega
    obtain ⟨u, us, hu⟩ : ∃ u us, g.cand (g.pick x.sel v l) = u :: us := by
      cases h : g.cand (g.pick x.sel v l) with
      | nil => exact absurd ((g.cand_nil fun i hi => (hb i hi).2).1 h) ho
      | cons u us => exact ⟨u, us, rfl⟩
    have hu' := g.cand_cons hu
    have hs : scan (g.pick x.sel v l) g.top (v + 1) = u := scan_spec (by have := hb u hu'.2.1; omega) (by omega) hu'.2.1 (fun i _ hi => g.cand_least hu i hi)
    rw [hs]
    have := hb u hu'.2.1
    have := hx.n
    refine ⟨by dsimp only; omega, by dsimp only; rw [Int.toNat_natCast]; exact hu'.2.1, by dsimp only; omega, fun i hi => ⟨?_, (hb i hi).2⟩⟩
    have : ¬ i < u := fun e => by have := g.cand_least hu i e; dsimp only at hi; rw [hi] at this; cases this
    dsimp only
    omega
  merge := fun a b c ha hb hm => by
    have hm' : g.mdl1.smf a b = some c := hm
    obtain ⟨h1, rfl⟩ := g.merge1_eq hm'
    refine ⟨⟨ha.l0, ?_, ?_, ?_⟩, rfl, rfl⟩
    · dsimp only
      rw [Nat.testBit_or, ha.here]; rfl
    · have := ha.n; dsimp only; omega
    · intro i hi
      dsimp only at hi ⊢
      rw [Nat.testBit_or, Bool.or_eq_true] at hi
      rcases hi with hi | hi
      · exact ha.bits i hi
      · rw [h1]; exact hb.bits i hi
  loc := fun h hf x y hx => by
    have : h = fun x _ => g.rest3 x := by
      have : some (fun (x : MispS) (_ : Ctx) => g.rest3 x) = some h := hf
      exact (Option.some.inj this).symm
    subst this
    rcases hx with hx | rfl
    · dsimp only
      rw [g.rest3_eq fun i hi => (hx.bits i hi).1]
      exact Int.le_refl _
    · show g.wts (g.cand 0) ≤ g.rest3 ⟨0, 0, g.top⟩
      rw [g.rest3_eq fun i hi => by simp at hi]
      exact Int.le_refl _

theorem Misp.live2 (g : Misp) (ht : 0 < g.top) : g.Live2 g.mdl2.sti := g.live1 ht

theorem Misp.live3 (g : Misp) (ht : 0 < g.top) : g.Live3 g.mdl3.sti where
  l0 := Int.le_refl _
  here := by
    show (2 ^ g.top - 1).testBit 0 = true
    rw [Nat.testBit_two_pow_sub_one]
    simpa using ht
  n := Int.le_refl _
  bits := fun i hi => by
    have hi' : (2 ^ g.top - 1).testBit i = true := hi
    rw [Nat.testBit_two_pow_sub_one] at hi'
    exact ⟨by show (0 : Int) ≤ i; omega, by simpa using hi'⟩

/-! ### The searches -/

section
variable (g : Misp)

/-- C91: the solutions of misp2 and of misp3 are the lists of decisions about the vertices in order, each
about the first vertex that is undecided and not joined to a taken one. -/
theorem misp23_sol (ht : 0 < g.top) (ls : List Int) (c : Int) :
    (Sol g.mdl2 ls c ↔ ∃ vs, g.read ls (List.range g.top) = some vs ∧ c = g.wts vs) ∧
    (Sol g.mdl3 ls c ↔ ∃ vs, g.read ls (List.range g.top) = some vs ∧ c = g.wts vs) :=
  ⟨g.decides2.sol (g.live2 ht) ls c, g.decides3.sol (g.live3 ht) ls c⟩

/-- C91: the decisions describe exactly the independent sets. -/
theorem misp23_read (vs : List Nat) : (∃ ls, g.read ls (List.range g.top) = some vs) ↔ g.IndV vs := by
  constructor
  · rintro ⟨ls, h⟩; exact g.read_ind h
  · intro h
    exact g.read_onto _ (List.range g.top) vs (Nat.le_refl _) (by
      have := sublist_range (h.2.imp And.left) (fun _ => true) g.top (fun v hv => ⟨h.1 v hv, rfl⟩)
      rwa [List.filter_eq_self.2 (fun _ _ => rfl)] at this) (g.apart_of h)

/-- C91: the merged state of two states of one rank has every completion of either. -/
theorem misp23_merge_valid {a b c : MispS} {v : Int} :
    (g.Live2 a → g.Live2 b → g.mdl2.smf a b = some c → Val g.mdl2 a v ∨ Val g.mdl2 b v → Val g.mdl2 c v) ∧
    (g.Live3 a → g.Live3 b → g.mdl3.smf a b = some c → Val g.mdl3 a v ∨ Val g.mdl3 b v → Val g.mdl3 c v) :=
  ⟨fun ha hb hm h => g.decides2.merge_valid ha hb hm h, fun ha hb hm h => g.decides3.merge_valid ha hb hm h⟩

/-- C91: whatever the width, the relaxed diagram is at least the weight of every independent set heavier
than the primal bound. -/
theorem misp23_dual (hw : ∀ i, 0 ≤ g.w i) (ht : 0 < g.top) {prim : Int} {w f : Nat} {d : G MispS}
    (h : relaxed g.mdl2 prim w f g.mdl2.src0 = some d ∨ relaxed g.mdl3 prim w f g.mdl3.src0 = some d)
    {vs : List Nat} (hi : g.IndV vs) (hp : prim < g.wts vs) : g.wts vs ≤ d.bound d.trg := by
  rcases h with h | h
  · obtain ⟨ls, hs⟩ := g.decides2.covers (g.live2 ht) hi
    have := relaxed_dual (g.decides2.layered hw (g.live2 ht) (v0 := 0) (by omega)) h hs (by simp [Mdl.src0, Misp.mdl2, Sense.better]; omega)
    simp [Mdl.src0, Misp.mdl2, Sense.betterEQ] at this
    omega
  · obtain ⟨ls, hs⟩ := g.decides3.covers (g.live3 ht) hi
    have := relaxed_dual (g.decides3.layered hw (g.live3 ht) (v0 := 0) (by omega)) h hs (by simp [Mdl.src0, Misp.mdl3, Sense.better]; omega)
    simp [Mdl.src0, Misp.mdl3, Sense.betterEQ] at this
    omega

/-- C91: everything either search reports reads as an independent set with its weight. -/
theorem misp23_search_sound (hw : ∀ i, 0 ≤ g.w i) (ht : 0 < g.top) {w dfuel fuel : Nat} {lim : Nat → Bool} {s : BB.BS MispS}
    (h : BB.search g.mdl2 w dfuel lim fuel (-2147483647) = some s ∨ BB.search g.mdl3 w dfuel lim fuel (-2147483647) = some s) :
    ∀ x, x ∈ s.sols → ∃ vs, g.read x.2 (List.range g.top) = some vs ∧ g.IndV vs ∧ x.1 = g.wts vs := by
  intro x hx
  rcases h with h | h
  · obtain ⟨vs, h1, h2⟩ := (g.decides2.sol (g.live2 ht) _ _).1 ((BB.search_sound (g.decides2.layered hw (g.live2 ht) (by omega)) rfl h).1 x hx)
    exact ⟨vs, h1, g.read_ind h1, h2⟩
  · obtain ⟨vs, h1, h2⟩ := (g.decides3.sol (g.live3 ht) _ _).1 ((BB.search_sound (g.decides3.layered hw (g.live3 ht) (by omega)) rfl h).1 x hx)
    exact ⟨vs, h1, g.read_ind h1, h2⟩

/-- C91: both searches end. -/
theorem misp23_search_ends (hw : ∀ i, 0 ≤ g.w i) (ht : 0 < g.top) (w : Nat) {dfuel : Nat} (hf : g.top + 2 ≤ dfuel) (lim : Nat → Bool) :
    (∃ N, ∀ fuel, N < fuel → ∃ s, BB.search g.mdl2 w dfuel lim fuel (-2147483647) = some s ∧ (s.stopped = true ∨ Heap.empty s.pq = true)) ∧
    (∃ N, ∀ fuel, N < fuel → ∃ s, BB.search g.mdl3 w dfuel lim fuel (-2147483647) = some s ∧ (s.stopped = true ∨ Heap.empty s.pq = true)) :=
  ⟨BB.search_ends (g.decides2.layered hw (g.live2 ht) (by omega)) rfl (g.decides2.rankBound hw (g.live2 ht)) w hf lim,
   BB.search_ends (g.decides3.layered hw (g.live3 ht) (by omega)) rfl (g.decides3.rankBound hw (g.live3 ht)) w hf lim⟩

/-- C91: with a width no layer exceeds, misp2 ends with a heaviest independent set. -/
theorem misp2_search_room (hw : ∀ i, 0 ≤ g.w i) (ht : 0 < g.top) (hB : g.wts (List.range g.top) ≤ 2147483647) {w dfuel fuel : Nat} (hR : Room g.mdl2 g.rank g.mdl2.sti w)
    {lim : Nat → Bool} {s : BB.BS MispS} (h : BB.search g.mdl2 w dfuel lim fuel (-2147483647) = some s) (hns : s.stopped = false) :
    g.Heaviest s.primal ∧ ∃ vs, g.read s.inc (List.range g.top) = some vs ∧ g.wts vs = s.primal := by
  obtain ⟨h1, h2⟩ := BB.search_room (g.decides2.layered hw (g.live2 ht) (by omega)) rfl
    (fun _ => g.decides2.worst hw (g.live2 ht) hB) hR h hns
  exact g.decides2.answer (g.live2 ht) h1 h2

/-- C91: with a width no layer exceeds, misp3 ends with a heaviest independent set. -/
theorem misp3_search_room (hw : ∀ i, 0 ≤ g.w i) (ht : 0 < g.top) {w dfuel fuel : Nat} (hR : Room g.mdl3 g.rank g.mdl3.sti w)
    {lim : Nat → Bool} {s : BB.BS MispS} (h : BB.search g.mdl3 w dfuel lim fuel (-2147483647) = some s) (hns : s.stopped = false) :
    g.Heaviest s.primal ∧ ∃ vs, g.read s.inc (List.range g.top) = some vs ∧ g.wts vs = s.primal := by
  obtain ⟨h1, h2⟩ := BB.search_room (g.decides3.layered hw (g.live3 ht) (by omega)) rfl (fun hl => by cases hl) hR h hns
  exact g.decides3.answer (g.live3 ht) h1 h2

/-- C91, any width: if along the run nothing was dropped for a bad reason, misp2 ends with a heaviest
independent set.  Missing: the other runs (`misp2_search_false`). -/
theorem misp2_search_partial (hw : ∀ i, 0 ≤ g.w i) (ht : 0 < g.top) (hB : g.wts (List.range g.top) ≤ 2147483647) {w dfuel fuel : Nat} {lim : Nat → Bool} {s : BB.BS MispS}
    (h : BB.search g.mdl2 w dfuel lim fuel (-2147483647) = some s)
    (hok : BB.okLoop g.mdl2 w dfuel lim fuel 0 (BB.init g.mdl2 w (-2147483647)) = true) (hns : s.stopped = false) :
    g.Heaviest s.primal ∧ ∃ vs, g.read s.inc (List.range g.top) = some vs ∧ g.wts vs = s.primal := by
  obtain ⟨h1, h2⟩ := BB.search_answer_partial (g.decides2.layered hw (g.live2 ht) (by omega)) (fun sd hsd => by cases hsd) rfl
    (fun _ => g.decides2.worst hw (g.live2 ht) hB) h hok hns
  exact g.decides2.answer (g.live2 ht) h1 h2

/-- C91, any width: if along the run nothing was dropped for a bad reason, misp3 ends with a heaviest
independent set.  Missing: the other runs (`misp3_search_false`). -/
theorem misp3_search_partial (hw : ∀ i, 0 ≤ g.w i) (ht : 0 < g.top) {w dfuel fuel : Nat} {lim : Nat → Bool} {s : BB.BS MispS}
    (h : BB.search g.mdl3 w dfuel lim fuel (-2147483647) = some s)
    (hok : BB.okLoop g.mdl3 w dfuel lim fuel 0 (BB.init g.mdl3 w (-2147483647)) = true) (hns : s.stopped = false) :
    g.Heaviest s.primal ∧ ∃ vs, g.read s.inc (List.range g.top) = some vs ∧ g.wts vs = s.primal := by
  obtain ⟨h1, h2⟩ := BB.search_answer_partial (g.decides3.layered hw (g.live3 ht) (by omega)) (fun sd hsd => by cases hsd) rfl
    (fun hl => by cases hl) h hok hns
  exact g.decides3.answer (g.live3 ht) h1 h2
end

/-- Six vertices, three edges, all weights 1. -/
def g6b : Misp := ⟨6, [(3, 5), (0, 2), (0, 1)], fun _ => 1⟩

/-- Six vertices, four edges, all weights 1. -/
def g6c : Misp := ⟨6, [(2, 5), (2, 3), (0, 3), (0, 1)], fun _ => 1⟩

/-- C91 is false for small widths: at width 2 misp2 ends with 3 on `g6b`, where 4 vertices are independent. -/
theorem misp2_search_false : ∃ s, BB.search g6b.mdl2 2 20 (fun _ => false) 50 (-2147483647) = some s ∧
    s.stopped = false ∧ Heap.empty s.pq = true ∧ s.primal = 3 ∧ g6b.IndV [1, 2, 3, 4] ∧ g6b.wts [1, 2, 3, 4] = 4 := by
  have hv : (BB.search g6b.mdl2 2 20 (fun _ => false) 50 (-2147483647)).map (fun s => (s.stopped, Heap.empty s.pq, s.primal)) =
      some (false, true, 3) := by decide +kernel
  simp only [Option.map_eq_some_iff] at hv
  obtain ⟨s, h1, h2⟩ := hv
  simp at h2
  exact ⟨s, h1, h2.1, h2.2.1, h2.2.2, ⟨by decide, by decide⟩, by decide⟩

/-- C91 is false for small widths: at width 2 misp3 ends with 3 on `g6c`, where 4 vertices are independent. -/
theorem misp3_search_false : ∃ s, BB.search g6c.mdl3 2 20 (fun _ => false) 50 (-2147483647) = some s ∧
    s.stopped = false ∧ Heap.empty s.pq = true ∧ s.primal = 3 ∧ g6c.IndV [1, 3, 4, 5] ∧ g6c.wts [1, 3, 4, 5] = 4 := by
  have hv : (BB.search g6c.mdl3 2 20 (fun _ => false) 50 (-2147483647)).map (fun s => (s.stopped, Heap.empty s.pq, s.primal)) =
      some (false, true, 3) := by decide +kernel
  simp only [Option.map_eq_some_iff] at hv
  obtain ⟨s, h1, h2⟩ := hv
  simp at h2
  exact ⟨s, h1, h2.1, h2.2.1, h2.2.2, ⟨by decide, by decide⟩, by decide⟩

/-- The checker of both programs (examples/misp2.cpp:119-133, examples/misp3.cpp:118-132) takes the position
of a decision for a vertex.  With one edge between the first two of three vertices the search is wide
enough and right, the reported decisions mean vertices 0 and 2, and the checker calls them joined. -/
theorem misp23_checker_false : let g : Misp := ⟨3, [(0, 1)], fun _ => 1⟩
    (∃ s, BB.search g.mdl2 64 20 (fun _ => false) 50 (-2147483647) = some s ∧ s.primal = 2 ∧ s.inc = [1, 1]) ∧
    (∃ s, BB.search g.mdl3 64 20 (fun _ => false) 50 (-2147483647) = some s ∧ s.primal = 2 ∧ s.inc = [1, 1]) ∧
    g.read [1, 1] (List.range 3) = some [0, 2] ∧ g.IndV [0, 2] ∧ g.chkEdges [1, 1] = false := by
  refine ⟨?_, ?_, by decide, ⟨by decide, by decide⟩, by decide⟩
  · have hv : (BB.search (⟨3, [(0, 1)], fun _ => 1⟩ : Misp).mdl2 64 20 (fun _ => false) 50 (-2147483647)).map (fun s => (s.primal, s.inc)) =
        some (2, [1, 1]) := by decide +kernel
    simp only [Option.map_eq_some_iff] at hv
    obtain ⟨s, h1, h2⟩ := hv
    simp at h2
    exact ⟨s, h1, h2.1, h2.2⟩
  · have hv : (BB.search (⟨3, [(0, 1)], fun _ => 1⟩ : Misp).mdl3 64 20 (fun _ => false) 50 (-2147483647)).map (fun s => (s.primal, s.inc)) =
        some (2, [1, 1]) := by decide +kernel
    simp only [Option.map_eq_some_iff] at hv
    obtain ⟨s, h1, h2⟩ := hv
    simp at h2
    exact ⟨s, h1, h2.1, h2.2⟩

/-- The weighted 5-cycle at width 2, misp2. -/
example : ∃ s, BB.search c5.mdl2 2 20 (fun _ => false) 50 (-2147483647) = some s ∧ s.primal = 11 ∧ c5.Heaviest 11 := by
  have hv : (BB.search c5.mdl2 2 20 (fun _ => false) 50 (-2147483647)).map (fun s => (s.stopped, s.primal)) = some (false, 11) := by decide +kernel
  simp only [Option.map_eq_some_iff] at hv
  obtain ⟨s, h1, h2⟩ := hv
  simp at h2
  obtain ⟨a, _⟩ := misp2_search_partial c5 c5_w (by decide) (by decide) h1 (by decide +kernel) h2.1
  rw [h2.2] at a
  exact ⟨s, h1, h2.2, a⟩

/-- The weighted 5-cycle at width 2, misp3. -/
example : ∃ s, BB.search c5.mdl3 2 20 (fun _ => false) 50 (-2147483647) = some s ∧ s.primal = 11 ∧ c5.Heaviest 11 := by
  have hv : (BB.search c5.mdl3 2 20 (fun _ => false) 50 (-2147483647)).map (fun s => (s.stopped, s.primal)) = some (false, 11) := by decide +kernel
  simp only [Option.map_eq_some_iff] at hv
  obtain ⟨s, h1, h2⟩ := hv
  simp at h2
  obtain ⟨a, _⟩ := misp3_search_partial c5 c5_w (by decide) h1 (by decide +kernel) h2.1
  rw [h2.2] at a
  exact ⟨s, h1, h2.2, a⟩

end Verif.Ex
