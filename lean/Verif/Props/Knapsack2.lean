import Verif.Knapsack2
import Verif.Check
import Verif.BB
import Verif.Props.DD
/-!
# C60, C71, C72: dominance, local bound and initial bound of the second knapsack example
-/
namespace Verif.Ex
open Verif.DD Verif.BB

/-- Items sorted by profit per weight, positive weights, non-negative profits: what `readFile`
(examples/knapsack2.cpp:56-83) establishes. -/
structure Knap.Sorted (k : Knap) : Prop where
  w : ∀ i, 0 < k.w i
  p : ∀ i, 0 ≤ k.p i
  ratio : ∀ i j, i ≤ j → k.p j * k.w i ≤ k.p i * k.w j

theorem Knap.step2_iff (k : Knap) (fl : Int → Int → Int → Int) {s s' : Nat × Int} {l : Int} : Step (k.mdl2 fl) s l s' ↔ Step k.mdl s l s' := by
  unfold Step
  refine and_congr Iff.rfl ?_
  simp only [Knap.mdl2, Knap.mdl]
  by_cases hc : s.2 ≥ k.w s.1
  · rw [if_pos hc]
    constructor
    · rintro ⟨a, b⟩
      simp at a
      rcases a with a | a <;> subst a <;> (refine ⟨by simp, ?_⟩) <;> split at b <;> rename_i h <;> simp [h] <;> simpa using b
    · rintro ⟨a, b⟩
      simp at a
      rcases a with a | a <;> subst a <;> (refine ⟨by simp, ?_⟩) <;> split at b <;> rename_i h <;> simp [h] <;> simpa using b
  · rw [if_neg hc]
    constructor
    · rintro ⟨a, b⟩
      simp at a
      subst a
      refine ⟨by simp, ?_⟩
      split at b <;> rename_i h <;> simp [h] <;> simpa using b
    · rintro ⟨a, b⟩
      simp at a
      subst a
      refine ⟨by simp, ?_⟩
      split at b <;> rename_i h <;> simp [h] <;> simpa using b

theorem Knap.path2_iff (k : Knap) (fl : Int → Int → Int → Int) {s t : Nat × Int} {ls : List Int} {c : Int} :
    Path (k.mdl2 fl) s ls c t ↔ Path k.mdl s ls c t := by
  constructor
  · intro h
    induction h with
    | nil => exact Path.nil _
    | cons hs _ ih => exact Path.cons ((k.step2_iff fl).1 hs) ih
  · intro h
    induction h with
    | nil => exact Path.nil _
    | cons hs _ ih => exact Path.cons (m := k.mdl2 fl) ((k.step2_iff fl).2 hs) ih

theorem Knap.cover2 (k : Knap) (fl : Int → Int → Int → Int) {n : Nat} {c c' : Int} (h : c ≤ c') (hn : n < k.I) : Cover (k.mdl2 fl) (n, c') (n, c) := by
  rintro v ⟨ls, hp⟩
  obtain ⟨v', ⟨ls', hp'⟩, hb⟩ := k.cover h hn v ⟨ls, (k.path2_iff fl).1 hp⟩
  exact ⟨v', ⟨ls', (k.path2_iff fl).2 hp'⟩, hb⟩

/-- The solutions are the packings. -/
theorem Knap.sol2_iff (k : Knap) (fl : Int → Int → Int → Int) (hw : ∀ i, 0 ≤ k.w i) (hI : 0 < k.I) (hc : 0 ≤ k.capa) (xs : List Int) (v : Int) :
    Sol (k.mdl2 fl) xs v ↔ k.Packing xs v :=
  Iff.trans (k.path2_iff fl) (k.sol_iff hw hI hc xs v)

theorem Knap.relx2 (k : Knap) (fl : Int → Int → Int → Int) (hpr : ∀ i, 0 ≤ k.p i) {s0 s : Nat × Int} {v0 v : Int} (h0 : s0.1 < k.I) (hc0 : 0 ≤ s0.2)
    (h : Relx (k.mdl2 fl) k.rank s0 v0 s v) : (s.1 < k.I ∧ 0 ≤ s.2 ∨ s = (k.I, 0)) ∧ v0 ≤ v := by
  induction h with
  | swap _ _ hsw _ ihsw => obtain rfl := (same_iff _ _).1 hsw; exact ihsw
  | root => exact ⟨Or.inl ⟨h0, hc0⟩, by omega⟩
  | @step s s' l v _ hst ih =>
    have hlt : s.1 < k.I ∧ 0 ≤ s.2 := by
      rcases ih.1 with x | x
      · exact x
      · have := hst.1; rw [x] at this; simp [Knap.mdl2] at this
    have hst := (k.step2_iff fl).1 hst
    have hl := ((k.step_iff hlt.1).1 hst).1
    have hc : 0 ≤ (k.mdl2 fl).stc s l := by
      have := hpr s.1
      rcases hl with x | ⟨x, _⟩ <;> simp [Knap.mdl2, x] <;> omega
    rcases k.step_ok hlt.1 hst with ⟨x, _⟩ | ⟨_, x, y⟩
    · exact ⟨Or.inr x, by omega⟩
    · refine ⟨Or.inl ⟨x, ?_⟩, by omega⟩
      rw [y]
      rcases hl with z | ⟨z, z'⟩ <;> subst z <;> omega
  | @mergeL a b c v v' _ _ ha hb hr hm ih1 ih2 =>
    refine ⟨Or.inl ?_, ih1.2⟩
    simp only [Knap.mdl2] at ha hb hm
    split at hm
    · simp at hm ha hb; rw [← hm]; dsimp only
      have h1 := ih1.1.resolve_right (fun x => ha (by rw [x]))
      have h2 := ih2.1.resolve_right (fun x => hb (by rw [x]))
      omega
    · simp at hm
  | @mergeR a b c v v' _ _ ha hb hr hm ih1 ih2 =>
    refine ⟨Or.inl ?_, ih2.2⟩
    simp only [Knap.mdl2] at ha hb hm
    split at hm
    · simp at hm ha hb; rw [← hm]; dsimp only
      have h1 := ih1.1.resolve_right (fun x => ha (by rw [x]))
      have h2 := ih2.1.resolve_right (fun x => hb (by rw [x]))
      omega
    · simp at hm

/-! ### C71: the local bound -/

/-- Total weight and profit of the items `n .. n+d-1`. -/
def Knap.sumW (k : Knap) : Nat → Nat → Int
  | 0, _ => 0
  | d + 1, n => k.w n + k.sumW d (n + 1)
def Knap.sumP (k : Knap) : Nat → Nat → Int
  | 0, _ => 0
  | d + 1, n => k.p n + k.sumP d (n + 1)

/-- Against the rate of item `j`, later items do not pay. -/
theorem Knap.tail_le (k : Knap) (hs : k.Sorted) (j : Nat) : ∀ (xs : List Int) (n : Nat), j ≤ n → (∀ x, x ∈ xs → x = 0 ∨ x = 1) →
    k.w j * k.gain n xs ≤ k.p j * k.load n xs := by
  intro xs
  induction xs with
  | nil => intro n _ _; simp [Knap.gain, Knap.load]
  | cons x xs ih =>
    intro n hj h
    have h1 := ih (n + 1) (by omega) (fun y hy => h y (by simp [hy]))
    have h2 := hs.ratio j n hj
    simp only [Knap.gain, Knap.load, Int.mul_add]
    rcases h x (by simp) with y | y <;> subst y
    · simp; exact h1
    · rw [Int.one_mul, Int.one_mul, Int.mul_comm (k.w j) (k.p n)]; omega

/-- Against the rate of item `n + d`, taking all of the items before it is best. -/
theorem Knap.head_le (k : Knap) (hs : k.Sorted) : ∀ (d n : Nat) (xs : List Int), (∀ x, x ∈ xs → x = 0 ∨ x = 1) →
    k.w (n + d) * k.gain n xs - k.p (n + d) * k.load n xs ≤ k.w (n + d) * k.sumP d n - k.p (n + d) * k.sumW d n := by
  intro d
  induction d with
  | zero =>
    intro n xs h
    have := k.tail_le hs n xs n (Nat.le_refl _) h
    simp only [Knap.sumP, Knap.sumW, Nat.add_zero]; omega
  | succ d ih =>
    intro n xs h
    have h2 := hs.ratio n (n + (d + 1)) (by omega)
    cases xs with
    | nil =>
      have := ih (n + 1) [] (by simp)
      rw [show n + 1 + d = n + (d + 1) by omega] at this
      simp only [Knap.gain, Knap.load, Knap.sumP, Knap.sumW, Int.mul_add, Int.mul_zero] at this ⊢
      rw [Int.mul_comm (k.w (n + (d + 1))) (k.p n)]
      omega
    | cons x xs =>
      have := ih (n + 1) xs (fun y hy => h y (by simp [hy]))
      rw [show n + 1 + d = n + (d + 1) by omega] at this
      simp only [Knap.gain, Knap.load, Knap.sumP, Knap.sumW, Int.mul_add] at this ⊢
      rw [Int.mul_comm (k.w (n + (d + 1))) (k.p n)]
      rcases h x (by simp) with y | y <;> subst y
      · simp; omega
      · rw [Int.one_mul, Int.one_mul, Int.mul_comm (k.w (n + (d + 1))) (k.p n)]; omega

theorem Knap.gain_le_sum (k : Knap) (hp : ∀ i, 0 ≤ k.p i) : ∀ (xs : List Int) (n : Nat), (∀ x, x ∈ xs → x = 0 ∨ x = 1) → k.gain n xs ≤ k.sumP xs.length n := by
  intro xs
  induction xs with
  | nil => intro n _; simp [Knap.gain, Knap.sumP]
  | cons x xs ih =>
    intro n h
    have h1 := ih (n + 1) (fun y hy => h y (by simp [hy]))
    have := hp n
    simp only [Knap.gain, Knap.sumP, List.length_cons]
    rcases h x (by simp) with y | y <;> subst y <;> omega

/-- What the loop computes: everything fits, or the break item's share is rounded. -/
theorem Knap.locL_eq (k : Knap) (fl : Int → Int → Int → Int) : ∀ (d n : Nat) (c : Int), 0 ≤ c →
    (k.locL fl d n c = k.sumP d n) ∨
    ∃ e, e < d ∧ 0 ≤ c - k.sumW e n ∧ c - k.sumW e n < k.w (n + e) ∧ k.locL fl d n c = k.sumP e n + fl (c - k.sumW e n) (k.w (n + e)) (k.p (n + e)) := by
  intro d
  induction d with
  | zero => intro n c _; exact .inl rfl
  | succ d ih =>
    intro n c hc
    rw [Knap.locL]
    by_cases h : k.w n ≤ c
    · rw [if_pos h]
      rcases ih (n + 1) (c - k.w n) (by omega) with e1 | ⟨e, h1, h2, h3, h4⟩
      · exact .inl (by rw [e1]; rfl)
      · refine .inr ⟨e + 1, by omega, ?_⟩
        rw [show c - k.sumW (e + 1) n = c - k.w n - k.sumW e (n + 1) by simp only [Knap.sumW]; omega, show n + (e + 1) = n + 1 + e by omega]
        exact ⟨h2, h3, by rw [h4]; simp only [Knap.sumP]; omega⟩
    · rw [if_neg h]
      refine .inr ⟨0, by omega, ?_⟩
      simp only [Knap.sumW, Knap.sumP, Nat.add_zero]
      rw [Int.sub_zero, Int.zero_add]
      exact ⟨hc, by omega, rfl⟩

/-- C71, what holds: with the last term rounded down exactly (or up), the local bound is at least the
profit of every way to fill capacity `c` with the items from `n` on. -/
theorem local2_partial (k : Knap) (hs : k.Sorted) {fl : Int → Int → Int → Int} (hfl : ∀ rc w p, 0 ≤ rc → rc < w → 0 ≤ p → floorQ rc w p ≤ fl rc w p)
    {n : Nat} {c : Int} (hc : 0 ≤ c) {xs : List Int} (hlen : n + xs.length = k.I) (h01 : ∀ x, x ∈ xs → x = 0 ∨ x = 1) (hl : k.load n xs ≤ c) :
    k.gain n xs ≤ k.loc2 fl (n, c) := by
  unfold Knap.loc2
  dsimp only
  rcases k.locL_eq fl (k.I - n) n c hc with h | ⟨e, h1, h2, h3, h4⟩
  · rw [h, show k.I - n = xs.length by omega]
    exact k.gain_le_sum hs.p xs n h01
  · rw [h4]
    have hf := hfl (c - k.sumW e n) (k.w (n + e)) (k.p (n + e)) h2 h3 (hs.p _)
    have hh := k.head_le hs e n xs h01
    have hw := hs.w (n + e)
    have hp := hs.p (n + e)
    have hq : k.gain n xs - k.sumP e n ≤ floorQ (c - k.sumW e n) (k.w (n + e)) (k.p (n + e)) := by
      unfold floorQ
      rw [Int.le_ediv_iff_mul_le hw]
      have hm : k.p (n + e) * k.load n xs ≤ k.p (n + e) * c := Int.mul_le_mul_of_nonneg_left hl hp
      have e1 : (k.gain n xs - k.sumP e n) * k.w (n + e) = k.w (n + e) * k.gain n xs - k.w (n + e) * k.sumP e n := by
        rw [Int.sub_mul, Int.mul_comm, Int.mul_comm (k.sumP e n)]
      have e2 : (c - k.sumW e n) * k.p (n + e) = k.p (n + e) * c - k.p (n + e) * k.sumW e n := by
        rw [Int.sub_mul, Int.mul_comm, Int.mul_comm (k.sumW e n)]
      rw [e1, e2]
      omega
    omega

/-! ### C60 -/

/-- The second knapsack model meets the engine's hypotheses on one diagram, dominance included, when
the local bound is rounded exactly. -/
theorem Knap.layered2 (k : Knap) (hs : k.Sorted) {fl : Int → Int → Int → Int} (hfl : ∀ rc w p, 0 ≤ rc → rc < w → 0 ≤ p → floorQ rc w p ≤ fl rc w p)
    {s0 : Nat × Int} {v0 : Int} (h0 : s0.1 < k.I) (hc0 : 0 ≤ s0.2) (hv : 0 ≤ v0) : Layered (k.mdl2 fl) k.rank s0 v0 where
  sink := by simp [Knap.mdl2]
  src := by simp [Knap.mdl2]; omega
  range := fun s v h => by
    have := (k.relx2 fl hs.p h0 hc0 h).2
    simp [Knap.mdl2, Sense.better, Sense.best0]; omega
  step := fun s v l s' h hst => by
    have hlt : s.1 < k.I := by
      rcases (k.relx2 fl hs.p h0 hc0 h).1 with x | x
      · exact x.1
      · have := hst.1; rw [x] at this; simp [Knap.mdl2] at this
    rcases k.step_ok hlt ((k.step2_iff fl).1 hst) with ⟨x, _⟩ | ⟨x, _⟩
    · left; rw [x]; simp [Knap.mdl2]
    · right; exact x
  merge := fun a b c va vb ra rb ha hb hr hm => by
    have la : a.1 < k.I := by
      rcases (k.relx2 fl hs.p h0 hc0 ra).1 with x | x
      · exact x.1
      · rw [x] at ha; simp [Knap.mdl2] at ha
    have hr : a.1 = b.1 := hr
    simp only [Knap.mdl2] at hm
    split at hm
    · simp at hm
      have h1 : c = (a.1, max a.2 b.2) := by rw [← hm, hr]; simp
      have h2 : c = (b.1, max a.2 b.2) := by rw [h1, hr]
      refine ⟨?_, ?_, ?_, ?_⟩
      · rw [h1]; simp [Knap.mdl2]; omega
      · rw [h1]; rfl
      · rw [h1]; exact k.cover2 fl (by omega) la
      · rw [h2]; exact k.cover2 fl (by omega) (by omega)
    · simp at hm
  local_ := fun f hf s v x c hr hval => by
    simp only [Knap.mdl2, Option.some.injEq] at hf
    subst hf
    obtain ⟨ls, hp⟩ := hval
    show decide _ = true
    rw [decide_eq_true_iff]
    rcases (k.relx2 fl hs.p h0 hc0 hr).1 with ⟨h1, h2⟩ | h1
    · obtain ⟨p1, p2, p3, p4⟩ := (k.path_iff (fun i => Int.le_of_lt (hs.w i)) (k.I - s.1) s.1 s.2 ls c (by omega) h1 h2).1 ((k.path2_iff fl).1 hp)
      rw [p4]
      exact local2_partial k hs hfl h2 (by omega) p2 p3
    · obtain ⟨_, h2, _⟩ := hp.of_terminal (by rw [h1]; simp [Knap.mdl2])
      rw [h1, h2]
      simp [Knap.loc2, Knap.locL]
  dom := fun f hf a b va vb ra rb ha hr hd => by
    simp only [Knap.mdl2, Option.some.injEq] at hf
    subst hf
    simp only [decide_eq_true_iff] at hd
    have la : a.1 < k.I := by
      rcases (k.relx2 fl hs.p h0 hc0 ra).1 with x | x
      · exact x.1
      · rw [x] at ha; simp [Knap.mdl2] at ha
    rcases hr with ⟨h1, h2⟩ | ⟨p, vp, l, h1, h2, h3, h4⟩
    · have h2 : a.1 = b.1 := h2
      have := k.cover2 fl (n := a.1) (c := b.2) (c' := a.2) hd la
      refine ⟨?_, fun hb => by rw [hb] at h1; simp [Knap.mdl2] at h1⟩
      have e : (a.1, b.2) = b := by rw [h2]
      rwa [e] at this
    · -- a terminal state is one item further than any state compared with it
      exfalso
      have h4 : a.1 = p.1 + 1 := h4
      have lp : p.1 < k.I := by
        rcases (k.relx2 fl hs.p h0 hc0 h1).1 with x | x
        · exact x.1
        · have := h2.1; rw [x] at this; simp [Knap.mdl2] at this
      rcases k.step_ok lp ((k.step2_iff fl).1 h2) with ⟨_, x⟩ | ⟨_, x, _⟩
      · omega
      · simp [Knap.mdl2] at h3; omega

/-- C60, what holds: between states of the same item, more capacity is at least as good, from any
reachable state. -/
theorem dominance2_partial (k : Knap) (fl : Int → Int → Int → Int) {a b : Nat × Int} (hn : a.1 = b.1) (ha : a.1 < k.I)
    {sd : (Nat × Int) → (Nat × Int) → Bool} (hsd : (k.mdl2 fl).sdom = some sd) (hd : sd a b = true) : Cover (k.mdl2 fl) a b := by
  simp only [Knap.mdl2, Option.some.injEq] at hsd
  subst hsd
  simp only [decide_eq_true_iff] at hd
  have := k.cover2 fl (n := a.1) hd ha
  have e : (a.1, b.2) = b := by rw [hn]
  rwa [e] at this

/-- An instance with seven sorted items. -/
def kd : Knap where
  I := 7
  capa := 56
  w := fun i => [14, 29, 14, 13, 9, 2, 30].getD i 1
  p := fun i => [56, 116, 56, 52, 36, 8, 119].getD i 0

theorem kd_sorted : kd.Sorted := by
  have hp : ∀ i, 0 ≤ kd.p i := by
    intro i; simp only [kd]; match i with | 0 | 1 | 2 | 3 | 4 | 5 | 6 => decide | n + 7 => simp
  have hw : ∀ i, 0 < kd.w i := by
    intro i; simp only [kd]; match i with | 0 | 1 | 2 | 3 | 4 | 5 | 6 => decide | n + 7 => simp
  refine ⟨hw, hp, fun i j hij => ?_⟩
  by_cases hj : j < 7
  · have : ∀ j < 7, ∀ i ≤ j, kd.p j * kd.w i ≤ kd.p i * kd.w j := by decide +kernel
    exact this j hj i hij
  · have : kd.p j = 0 := by
      simp only [kd]
      match j with | n + 7 => simp
    rw [this, Int.zero_mul]
    exact Int.mul_nonneg (hp i) (Int.le_of_lt (hw j))

/-- Filling 42 from the second item on: 168 bounds the packing of items 1 and 3 (168). -/
example : kd.gain 1 [1, 0, 1, 0, 0, 0] ≤ kd.loc2 floorQ (1, 42) ∧ kd.gain 1 [1, 0, 1, 0, 0, 0] = 168 ∧ kd.loc2 floorQ (1, 42) = 168 :=
  ⟨local2_partial kd kd_sorted (fun _ _ _ _ _ _ => Int.le_refl _) (by decide) (by decide) (by decide) (by decide), by decide, by decide⟩

/-- The rule with the item index compared as well. -/
def kdSame : Mdl (Nat × Int) := { kd.mdl2 floorQ with
  sdom := some fun a b => decide (a.1 = b.1) && decide (a.2 ≥ b.2) }

/-- C60 is false: on a sorted instance, with an exactly rounded local bound, the initial bound of the
example and width 1, the search ends with 219 although [1,1,0,1,0,0,0] packs 224.  With the item index
compared it finds the 224. -/
theorem dominance2_false : kd.Sorted ∧ Layered (kd.mdl2 floorQ) kd.rank (0, 56) 0 ∧ kd.getUB = some 172 ∧
    (∃ s, search (kd.mdl2 floorQ) 1 200 (fun _ => false) 60 172 = some s ∧ s.stopped = false ∧ s.primal = 219) ∧
    (∃ s, search kdSame 1 200 (fun _ => false) 60 172 = some s ∧ s.primal = 224) ∧
    Sol (kd.mdl2 floorQ) [1, 1, 0, 1, 0, 0, 0] 224 := by
  refine ⟨kd_sorted, kd.layered2 kd_sorted (fun _ _ _ _ _ _ => Int.le_refl _) (by decide) (by decide) (by decide), by decide, ?_, ?_, ?_⟩
  · have hv : (search (kd.mdl2 floorQ) 1 200 (fun _ => false) 60 172).map (fun s => (s.stopped, s.primal)) = some (false, 219) := by decide +kernel
    simp only [Option.map_eq_some_iff] at hv
    obtain ⟨s, h1, h2⟩ := hv
    exact ⟨s, h1, (Prod.mk.inj h2).1, (Prod.mk.inj h2).2⟩
  · have hv : (search kdSame 1 200 (fun _ => false) 60 172).map (fun s => s.primal) = some 224 := by decide +kernel
    simpa only [Option.map_eq_some_iff] using hv
  · rw [kd.sol2_iff floorQ (fun i => Int.le_of_lt (kd_sorted.w i)) (by decide) (by decide)]
    exact ⟨rfl, by decide, by decide, by decide⟩

/-- Two items of rate 1 and capacity 49. -/
def kf : Knap where
  I := 2
  capa := 49
  w := fun i => [48, 49].getD i 1
  p := fun i => [48, 49].getD i 0

theorem kf_sorted : kf.Sorted := by
  have hp : ∀ i, 0 ≤ kf.p i := by
    intro i; simp only [kf]; match i with | 0 | 1 => decide | n + 2 => simp
  have hw : ∀ i, 0 < kf.w i := by
    intro i; simp only [kf]; match i with | 0 | 1 => decide | n + 2 => simp
  refine ⟨hw, hp, fun i j hij => ?_⟩
  by_cases hj : j < 2
  · have : ∀ j < 2, ∀ i ≤ j, kf.p j * kf.w i ≤ kf.p i * kf.w j := by decide +kernel
    exact this j hj i hij
  · have : kf.p j = 0 := by
      simp only [kf]
      match j with | n + 2 => simp
    rw [this, Int.zero_mul]
    exact Int.mul_nonneg (hp i) (Int.le_of_lt (hw j))

/-- C71 is false in `double`: 1.0/49*49 is below 1, so the local bound of the root is 48, and the
search started from `getUB()` = 48 never looks at the packing of value 49. -/
theorem local2_false : kf.Sorted ∧ kf.loc2 floorF (0, 49) = 48 ∧ kf.loc2 floorQ (0, 49) = 49 ∧ kf.getUB = some 48 ∧
    Sol (kf.mdl2 floorF) [0, 1] 49 ∧
    ∃ s, search (kf.mdl2 floorF) 64 50 (fun _ => false) 50 48 = some s ∧ s.stopped = false ∧ s.primal = 48 ∧ s.inc = [] := by
  refine ⟨kf_sorted, by decide +kernel, by decide +kernel, by decide, ?_, ?_⟩
  · rw [kf.sol2_iff floorF (fun i => Int.le_of_lt (kf_sorted.w i)) (by decide) (by decide)]
    exact ⟨rfl, by decide, by decide, by decide⟩
  · have hv : (search (kf.mdl2 floorF) 64 50 (fun _ => false) 50 48).map (fun s => (s.stopped, s.primal, s.inc)) = some (false, 48, []) := by decide +kernel
    simp only [Option.map_eq_some_iff] at hv
    obtain ⟨s, h1, h2⟩ := hv
    simp only [Prod.mk.injEq] at h2
    exact ⟨s, h1, h2.1, h2.2.1, h2.2.2⟩

/-! ### C72: the initial primal bound -/

theorem Knap.ubLoop_spec (k : Knap) : ∀ (d n : Nat) (c v u : Int), k.ubLoop d n c v = some u →
    ∃ xs : List Int, xs.length = d ∧ (∀ x, x ∈ xs → x = 0 ∨ x = 1) ∧ k.load n xs ≤ max c 0 ∧ u = v + k.gain n xs := by
  have zeros : ∀ d n, k.load n (List.replicate d 0) = 0 ∧ k.gain n (List.replicate d 0) = 0 := by
    intro d
    induction d with
    | zero => intro n; exact ⟨rfl, rfl⟩
    | succ d ih => intro n; simp [List.replicate_succ, Knap.load, Knap.gain, ih (n + 1)]
  intro d
  induction d with
  | zero => intro n c v u h; simp [Knap.ubLoop] at h
  | succ d ih =>
    intro n c v u h
    rw [Knap.ubLoop] at h
    have hz : v = u → ∃ xs : List Int, xs.length = d + 1 ∧ (∀ x, x ∈ xs → x = 0 ∨ x = 1) ∧ k.load n xs ≤ max c 0 ∧ u = v + k.gain n xs := by
      intro huv
      refine ⟨List.replicate (d + 1) 0, by simp, fun x hx => Or.inl (List.eq_of_mem_replicate hx), ?_, ?_⟩
      · rw [(zeros _ n).1]; omega
      · rw [(zeros _ n).2]; omega
    split at h
    · split at h
      · rename_i h0 hw
        obtain ⟨xs, h1, h2, h3, h4⟩ := ih (n + 1) (c - k.w n) (v + k.p n) u h
        refine ⟨1 :: xs, by simp [h1], fun x hx => ?_, ?_, ?_⟩
        · rcases List.mem_cons.1 hx with y | y
          · exact Or.inr y
          · exact h2 x y
        · simp only [Knap.load]; omega
        · simp only [Knap.gain]; omega
      · exact hz (Option.some.inj h)
    · exact hz (Option.some.inj h)

/-- C72, what holds: a value `getUB` returns is the profit of a packing (so it does not exceed the
optimum). -/
theorem getUB_partial (k : Knap) (hc : 0 ≤ k.capa) {u : Int} (h : k.getUB = some u) : ∃ xs, k.Packing xs u := by
  obtain ⟨xs, h1, h2, h3, h4⟩ := k.ubLoop_spec k.I 0 k.capa 0 u h
  exact ⟨xs, h1, h2, by omega, by omega⟩

/-- It returns unless every item fits, in which case it reads past the end of the weights: C72 is
false there. -/
theorem getUB_none (k : Knap) (hs : k.Sorted) (hc : 0 ≤ k.capa) : k.getUB = none ↔ k.sumW k.I 0 ≤ k.capa := by
  have key : ∀ (d n : Nat) (c v : Int), 0 ≤ c → (k.ubLoop d n c v = none ↔ k.sumW d n ≤ c) := by
    intro d
    induction d with
    | zero => intro n c v h; simp [Knap.ubLoop, Knap.sumW, h]
    | succ d ih =>
      intro n c v h
      have hpos : ∀ d n, 0 ≤ k.sumW d n := by
        intro d
        induction d with
        | zero => intro n; exact Int.le_refl _
        | succ d ihd => intro n; have := ihd (n + 1); have := hs.w n; simp only [Knap.sumW]; omega
      rw [Knap.ubLoop, if_pos h]
      by_cases hw : k.w n ≤ c
      · rw [if_pos hw, ih _ _ _ (by omega)]; simp only [Knap.sumW]; omega
      · rw [if_neg hw]
        have := hpos d (n + 1)
        simp only [Knap.sumW]
        constructor
        · intro h; simp at h
        · intro h; omega
  exact key k.I 0 k.capa 0 hc

example : kd.getUB = some 172 ∧ ∃ xs, kd.Packing xs 172 := ⟨by decide, getUB_partial kd (by decide) (by decide)⟩
example : ({ kf with capa := 97 } : Knap).getUB = none := by decide

end Verif.Ex
