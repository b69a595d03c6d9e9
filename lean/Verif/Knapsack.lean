import Verif.Spec
/-!
# The knapsack example (examples/knapsack.cpp:20-124)
-/
namespace Verif.Ex
open Verif.DD

/-- `Instance` (examples/knapsack.cpp:39-46). -/
structure Knap where
  I : Nat
  capa : Int
  w : Nat → Int
  p : Nat → Int

/-- The lambdas of `main` (examples/knapsack.cpp:87-117).  A state is the item index and the
remaining capacity.  The label range `close(b,0)` runs downwards, but `getLabels` makes it a set (`range_labels`). -/
def Knap.mdl (k : Knap) : Mdl (Nat × Int) where
  sense := .max
  sti := (0, k.capa)
  stt := (k.I, 0)
  lgf := fun s => if s.2 ≥ k.w s.1 then [0, 1] else [0]
  stf := fun s l =>
    if s.1 + 1 < k.I then (if l ≠ 0 then some (s.1 + 1, s.2 - k.w s.1) else some (s.1 + 1, s.2))
    else some (k.I, 0)
  stc := fun s l => k.p s.1 * l
  smf := fun a b =>
    if (a.2 - b.2).natAbs ≤ (2 * k.capa) / 100 then some (max a.1 b.1, max a.2 b.2) else none
  eqs := fun s => s.1 == k.I
  loc := none
  sdom := none

/-- Rank of a state: its item index. -/
def Knap.rank (_ : Knap) (s : Nat × Int) : Nat := s.1

theorem Knap.step_iff (k : Knap) {s s' : Nat × Int} {l : Int} (hs : s.1 < k.I) :
    Step k.mdl s l s' ↔ (l = 0 ∨ (l = 1 ∧ k.w s.1 ≤ s.2)) ∧
      s' = (if s.1 + 1 < k.I then (s.1 + 1, s.2 - l * k.w s.1) else (k.I, 0)) := by
  have h1 : (s.1 == k.I) = false := by simp; omega
  simp only [Step, Knap.mdl, h1, true_and]
  by_cases hc : s.2 ≥ k.w s.1
  · rw [if_pos hc]
    constructor
    · rintro ⟨a, b⟩
      simp at a
      rcases a with a | a <;> subst a <;> (refine ⟨by simp [hc], ?_⟩) <;> split at b <;> rename_i h <;>
        simp at b <;> simp [h, b]
    · rintro ⟨a, b⟩
      subst b
      rcases a with a | ⟨a, _⟩ <;> subst a <;> simp <;> split <;> rfl
  · rw [if_neg hc]
    constructor
    · rintro ⟨a, b⟩
      simp at a
      subst a
      refine ⟨by simp, ?_⟩
      split at b <;> rename_i h <;> simp at b <;> simp [h, b]
    · rintro ⟨a, b⟩
      subst b
      rcases a with a | ⟨a, a'⟩
      · subst a; simp; split <;> rfl
      · omega

/-- States on a path: below the last index, or the sink. -/
theorem Knap.step_ok (k : Knap) {s s' : Nat × Int} {l : Int} (hs : s.1 < k.I) (h : Step k.mdl s l s') :
    (s' = (k.I, 0) ∧ s.1 + 1 = k.I) ∨ (s'.1 = s.1 + 1 ∧ s'.1 < k.I ∧ s'.2 = s.2 - l * k.w s.1) := by
  have := ((k.step_iff hs).1 h).2
  split at this
  · subst this; exact Or.inr ⟨rfl, by assumption, rfl⟩
  · exact Or.inl ⟨this, by omega⟩

/-- More capacity is at least as good. -/
theorem Knap.mono (k : Knap) : ∀ (d n : Nat) (c c' : Int) (ls : List Int) (v : Int), k.I = n + d → c ≤ c' → n < k.I →
    Path k.mdl (n, c) ls v (k.I, 0) → Path k.mdl (n, c') ls v (k.I, 0) := by
  intro d
  induction d with
  | zero => intro n c c' ls v h1 h2 h3; omega
  | succ d ih =>
    intro n c c' ls v h1 h2 h3 hp
    generalize hs : (n, c) = s at hp
    generalize ht : (k.I, (0 : Int)) = t at hp
    cases hp with
    | nil => subst hs; simp at ht; omega
    | @cons _ s' _ l ls' v' hst hp' =>
      subst hs; subst ht
      have hst2 := (k.step_iff (s := (n, c)) h3).1 hst
      have : ∃ s2, Step k.mdl (n, c') l s2 ∧ Path k.mdl s2 ls' v' (k.I, 0) := by
        by_cases hn : n + 1 < k.I
        · obtain ⟨a, b⟩ := hst2
          simp only [hn, if_true] at b
          subst b
          refine ⟨(n + 1, c' - l * k.w n), (k.step_iff (s := (n, c')) h3).2 ⟨?_, by simp [hn]⟩, ?_⟩
          · rcases a with a | ⟨a, a'⟩
            · exact Or.inl a
            · exact Or.inr ⟨a, by simp at a' ⊢; omega⟩
          · exact ih (n + 1) _ _ _ _ (by omega) (by omega) hn hp'
        · obtain ⟨a, b⟩ := hst2
          simp only [hn, if_false] at b
          subst b
          refine ⟨(k.I, 0), (k.step_iff (s := (n, c')) h3).2 ⟨?_, by simp [hn]⟩, hp'⟩
          rcases a with a | ⟨a, a'⟩
          · exact Or.inl a
          · exact Or.inr ⟨a, by simp at a' ⊢; omega⟩
      obtain ⟨s2, q1, q2⟩ := this
      exact Path.cons q1 q2

theorem Knap.cover (k : Knap) {n : Nat} {c c' : Int} (h : c ≤ c') (hn : n < k.I) : Cover k.mdl (n, c') (n, c) := by
  rintro v ⟨ls, hp⟩
  exact ⟨v, ⟨ls, k.mono (k.I - n) n c c' ls v (by omega) h hn hp⟩, by rw [Sense.betterEQ_iff]; omega⟩

/-- What relaxation can reach, with value at least the start's. -/
theorem Knap.relx (k : Knap) (hp : ∀ i, 0 ≤ k.p i) {s0 s : Nat × Int} {v0 v : Int} (h0 : s0.1 < k.I)
    (h : Relx k.mdl k.rank s0 v0 s v) : (s.1 < k.I ∨ s = (k.I, 0)) ∧ v0 ≤ v := by
  induction h with
  | swap _ _ hsw _ ihsw => obtain rfl := (same_iff _ _).1 hsw; exact ihsw
  | root => exact ⟨Or.inl h0, by omega⟩
  | @step s s' l v _ hst ih =>
    have hlt : s.1 < k.I := by
      rcases ih.1 with x | x
      · exact x
      · have := hst.1; rw [x] at this; simp [Knap.mdl] at this
    have hl := ((k.step_iff hlt).1 hst).1
    have hc : 0 ≤ k.mdl.stc s l := by
      have := hp s.1
      rcases hl with x | ⟨x, _⟩ <;> simp [Knap.mdl, x] <;> omega
    rcases k.step_ok hlt hst with ⟨x, _⟩ | ⟨_, x, _⟩
    · exact ⟨Or.inr x, by omega⟩
    · exact ⟨Or.inl x, by omega⟩
  | @mergeL a b c v v' _ _ ha hb hr hm ih1 ih2 =>
    refine ⟨Or.inl ?_, ih1.2⟩
    simp only [Knap.mdl] at ha hb hm
    split at hm
    · simp at hm ha hb; rw [← hm]; simp
      have h1 : a.1 < k.I := ih1.1.resolve_right (fun x => ha (by rw [x]))
      have h2 : b.1 < k.I := ih2.1.resolve_right (fun x => hb (by rw [x]))
      omega
    · simp at hm
  | @mergeR a b c v v' _ _ ha hb hr hm ih1 ih2 =>
    refine ⟨Or.inl ?_, ih2.2⟩
    simp only [Knap.mdl] at ha hb hm
    split at hm
    · simp at hm ha hb; rw [← hm]; simp
      have h1 : a.1 < k.I := ih1.1.resolve_right (fun x => ha (by rw [x]))
      have h2 : b.1 < k.I := ih2.1.resolve_right (fun x => hb (by rw [x]))
      omega
    · simp at hm

/-- The knapsack model meets the engine's hypotheses, from any state with an item left. -/
theorem Knap.layered (k : Knap) (hp : ∀ i, 0 ≤ k.p i) {s0 : Nat × Int} {v0 : Int} (h0 : s0.1 < k.I) (hv : 0 ≤ v0) :
    Layered k.mdl k.rank s0 v0 where
  sink := by simp [Knap.mdl]
  src := by simp [Knap.mdl]; omega
  range := fun s v h => by
    have := (k.relx hp h0 h).2
    simp [Knap.mdl, Sense.better, Sense.best0]; omega
  step := fun s v l s' h hst => by
    have hlt : s.1 < k.I := by
      rcases (k.relx hp h0 h).1 with x | x
      · exact x
      · have := hst.1; rw [x] at this; simp [Knap.mdl] at this
    rcases k.step_ok hlt hst with ⟨x, _⟩ | ⟨x, _⟩
    · left; rw [x]; simp [Knap.mdl]
    · right; exact x
  merge := fun a b c va vb ra rb ha hb hr hm => by
    have la : a.1 < k.I := by
      rcases (k.relx hp h0 ra).1 with x | x
      · exact x
      · rw [x] at ha; simp [Knap.mdl] at ha
    have hr : a.1 = b.1 := hr
    simp only [Knap.mdl] at hm
    split at hm
    · simp at hm
      have h1 : c = (a.1, max a.2 b.2) := by rw [← hm, hr]; simp
      have h2 : c = (b.1, max a.2 b.2) := by rw [h1, hr]
      refine ⟨?_, ?_, ?_, ?_⟩
      · rw [h1]; simp [Knap.mdl]; omega
      · rw [h1]; rfl
      · rw [h1]; exact k.cover (by omega) la
      · rw [h2]; exact k.cover (by omega) (by omega)
    · simp at hm
  local_ := fun f hf => by simp [Knap.mdl] at hf
  dom := fun f hf => by simp [Knap.mdl] at hf

/-! ### What the solutions of the model are -/

/-- Load of the items `n, n+1, …` chosen by `xs`. -/
def Knap.load (k : Knap) : Nat → List Int → Int
  | _, [] => 0
  | n, x :: xs => x * k.w n + k.load (n + 1) xs
/-- Profit of the items `n, n+1, …` chosen by `xs`. -/
def Knap.gain (k : Knap) : Nat → List Int → Int
  | _, [] => 0
  | n, x :: xs => x * k.p n + k.gain (n + 1) xs

/-- A packing: one 0/1 decision per item, within capacity, with its profit. -/
def Knap.Packing (k : Knap) (xs : List Int) (v : Int) : Prop :=
  xs.length = k.I ∧ (∀ x, x ∈ xs → x = 0 ∨ x = 1) ∧ k.load 0 xs ≤ k.capa ∧ v = k.gain 0 xs

theorem Knap.load_nonneg (k : Knap) (hw : ∀ i, 0 ≤ k.w i) : ∀ (xs : List Int) (n : Nat), (∀ x, x ∈ xs → x = 0 ∨ x = 1) →
    0 ≤ k.load n xs := by
  intro xs
  induction xs with
  | nil => intro n _; simp [Knap.load]
  | cons x xs ih =>
    intro n h
    have h1 := ih (n + 1) (fun y hy => h y (by simp [hy]))
    have h2 := hw n
    unfold Knap.load
    rcases h x (by simp) with y | y <;> subst y <;> omega

theorem Knap.path_iff (k : Knap) (hw : ∀ i, 0 ≤ k.w i) : ∀ (d n : Nat) (c : Int) (xs : List Int) (v : Int), k.I = n + d → n < k.I → 0 ≤ c →
    (Path k.mdl (n, c) xs v (k.I, 0) ↔
      xs.length = d ∧ (∀ x, x ∈ xs → x = 0 ∨ x = 1) ∧ k.load n xs ≤ c ∧ v = k.gain n xs) := by
  intro d
  induction d with
  | zero => intro n c xs v h1 h2; omega
  | succ d ih =>
    intro n c xs v h1 h2 h0
    by_cases hn : n + 1 < k.I
    · constructor
      · intro hp
        generalize hs : (n, c) = s at hp
        generalize ht : (k.I, (0 : Int)) = t at hp
        cases hp with
        | nil => subst hs; simp at ht; omega
        | @cons _ s' _ l ls' v' hst hp' =>
          subst hs; subst ht
          obtain ⟨a, b⟩ := (k.step_iff (s := (n, c)) h2).1 hst
          simp only [hn, if_true] at b
          subst b
          have hc' : 0 ≤ c - l * k.w n := by
            rcases a with a | ⟨a, a'⟩ <;> subst a
            · omega
            · simp at a'; omega
          obtain ⟨p1, p2, p3, p4⟩ := (ih (n + 1) _ _ _ (by omega) hn hc').1 hp'
          refine ⟨by simp [p1], ?_, ?_, ?_⟩
          · intro x hx
            rcases List.mem_cons.1 hx with y | y
            · subst y
              rcases a with a | ⟨a, _⟩
              · exact Or.inl a
              · exact Or.inr a
            · exact p2 x y
          · simp only [Knap.load]; omega
          · simp only [Knap.gain, Knap.mdl, p4, Int.mul_comm]
      · rintro ⟨p1, p2, p3, p4⟩
        cases xs with
        | nil => simp at p1
        | cons x xs =>
          simp only [Knap.load] at p3
          have hx := p2 x (by simp)
          have hl := k.load_nonneg hw xs (n + 1) (fun y hy => p2 y (by simp [hy]))
          have hc' : 0 ≤ c - x * k.w n := by omega
          have := (ih (n + 1) (c - x * k.w n) xs (k.gain (n + 1) xs) (by omega) hn hc').2
            ⟨by simpa using p1, fun y hy => p2 y (by simp [hy]), by omega, rfl⟩
          have h3 : Step k.mdl (n, c) x (n + 1, c - x * k.w n) := (k.step_iff (s := (n, c)) h2).2 ⟨by
            rcases hx with y | y
            · exact Or.inl y
            · subst y; exact Or.inr ⟨rfl, by simp; omega⟩, by simp [hn]⟩
          have := Path.cons h3 this
          rw [p4]
          simpa only [Knap.gain, Knap.mdl, Int.mul_comm] using this
    · have hd : d = 0 := by omega
      subst hd
      constructor
      · intro hp
        generalize hs : (n, c) = s at hp
        generalize ht : (k.I, (0 : Int)) = t at hp
        cases hp with
        | nil => subst hs; simp at ht; omega
        | @cons _ s' _ l ls' v' hst hp' =>
          subst hs; subst ht
          obtain ⟨a, b⟩ := (k.step_iff (s := (n, c)) h2).1 hst
          simp only [hn, if_false] at b
          subst b
          obtain ⟨e1, e2, _⟩ := hp'.of_terminal (by simp [Knap.mdl])
          subst e1; subst e2
          refine ⟨by simp, ?_, ?_, ?_⟩
          · intro x hx
            simp at hx; subst hx
            rcases a with a | ⟨a, _⟩
            · exact Or.inl a
            · exact Or.inr a
          · simp only [Knap.load]
            rcases a with a | ⟨a, a'⟩ <;> subst a
            · omega
            · simp at a'; omega
          · simp only [Knap.gain, Knap.mdl, Int.mul_comm]
      · rintro ⟨p1, p2, p3, p4⟩
        cases xs with
        | nil => simp at p1
        | cons x xs =>
          have : xs = [] := by simpa using p1
          subst this
          simp only [Knap.load] at p3
          have hx := p2 x (by simp)
          have h3 : Step k.mdl (n, c) x (k.I, 0) := (k.step_iff (s := (n, c)) h2).2 ⟨by
            rcases hx with y | y
            · exact Or.inl y
            · subst y; exact Or.inr ⟨rfl, by simp; omega⟩, by simp [hn]⟩
          have := Path.cons h3 (Path.nil _)
          rw [p4]
          simpa only [Knap.gain, Knap.mdl, Int.mul_comm] using this

/-- The solutions of the model are the packings. -/
theorem Knap.sol_iff (k : Knap) (hw : ∀ i, 0 ≤ k.w i) (hI : 0 < k.I) (hc : 0 ≤ k.capa) (xs : List Int) (v : Int) :
    Sol k.mdl xs v ↔ k.Packing xs v :=
  k.path_iff hw k.I 0 k.capa xs v (by omega) hI hc

end Verif.Ex
