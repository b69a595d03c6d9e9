import Verif.Props.Knapsack2
import Verif.Props.Wide
/-!
# C113, C114: the searches of the two knapsack examples, and the checker of the second
-/
namespace Verif.Ex
open Verif.DD

variable (k : Knap)

/-- `v` is the largest profit of a packing. -/
def Knap.Best (k : Knap) (v : Int) : Prop := (∃ xs, k.Packing xs v) ∧ ∀ xs c, k.Packing xs c → c ≤ v

theorem Knap.rankBound (hp : ∀ i, 0 ≤ k.p i) (hI : 0 < k.I) : RankBound k.mdl k.rank k.mdl.sti 0 k.I := by
  intro x v h _
  rcases (k.relx hp hI h).1 with hx | rfl
  · exact Nat.le_of_lt hx
  · exact Nat.le_refl _

theorem Knap.packing_zero (hc : 0 ≤ k.capa) : k.Packing (List.replicate k.I 0) 0 := by
  have zeros : ∀ d n, k.load n (List.replicate d 0) = 0 ∧ k.gain n (List.replicate d 0) = 0 := by
    intro d
    induction d with
    | zero => intro n; exact ⟨rfl, rfl⟩
    | succ d ih => intro n; simp [List.replicate_succ, Knap.load, Knap.gain, ih (n + 1)]
  refine ⟨by simp, fun x hx => .inl (List.eq_of_mem_replicate hx), ?_, (zeros _ _).2.symm⟩
  rw [(zeros _ _).1]; exact hc

/-- On every path the remaining capacity stays between 0 and the capacity. -/
theorem Knap.path_capa (hw : ∀ i, 0 ≤ k.w i) {s t : Nat × Int} {ls : List Int} {c : Int} (h : Path k.mdl s ls c t) :
    s.1 < k.I → 0 ≤ s.2 → s.2 ≤ k.capa → 0 ≤ k.capa → 0 ≤ t.2 ∧ t.2 ≤ k.capa := by
  induction h with
  | nil => intro _ h1 h2 _; exact ⟨h1, h2⟩
  | @cons s s' t l ls c hst hp ih =>
    intro h0 h1 h2 h3
    have hl := ((k.step_iff h0).1 hst).1
    rcases k.step_ok h0 hst with ⟨e, _⟩ | ⟨_, e1, e2⟩
    · subst e
      obtain ⟨_, _, e⟩ := hp.of_terminal (by simp [Knap.mdl])
      rw [← e]
      exact ⟨Int.le_refl _, h3⟩
    · have := hw s.1
      refine ih e1 ?_ ?_ h3
      · rw [e2]; rcases hl with z | ⟨z, z'⟩ <;> subst z <;> omega
      · rw [e2]; rcases hl with z | ⟨z, z'⟩ <;> subst z <;> omega

/-- A width above the capacity leaves room for every layer: a layer has one state per remaining capacity. -/
theorem Knap.room (hw : ∀ i, 0 ≤ k.w i) (hI : 0 < k.I) (hc : 0 ≤ k.capa) {w : Nat} (h : k.capa < w) : Room k.mdl k.rank k.mdl.sti w := by
  intro n L hn hL
  have key : ∀ s, s ∈ L → s.1 = n ∧ 0 ≤ s.2 ∧ s.2 ≤ k.capa := by
    intro s hs
    obtain ⟨_, h2, ls, c, hp⟩ := hL s hs
    exact ⟨h2, k.path_capa hw hp hI hc (Int.le_refl _) hc⟩
  have hm : (L.map (fun s => s.2.toNat)).Nodup := by
    unfold List.Nodup at hn ⊢
    rw [List.pairwise_map]
    refine List.Pairwise.imp_of_mem ?_ hn
    intro a b ha hb hab e
    obtain ⟨a1, a2, _⟩ := key a ha
    obtain ⟨b1, b2, _⟩ := key b hb
    exact hab (Prod.ext (by omega) (by omega))
  have := nodup_length_le w _ hm (by
    intro x hx
    obtain ⟨s, hs, rfl⟩ := List.mem_map.1 hx
    have := key s hs
    omega)
  simpa using this

/-! ### C113: knapsack.cpp -/

/-- C113: everything the search of knapsack.cpp reports is a packing with its profit. -/
theorem knap_search_sound (hw : ∀ i, 0 ≤ k.w i) (hp : ∀ i, 0 ≤ k.p i) (hI : 0 < k.I) (hc : 0 ≤ k.capa) {w dfuel fuel : Nat} {lim : Nat → Bool}
    {s : BB.BS (Nat × Int)} (h : BB.search k.mdl w dfuel lim fuel (-2147483647) = some s) : ∀ x, x ∈ s.sols → k.Packing x.2 x.1 := by
  intro x hx
  exact (k.sol_iff hw hI hc _ _).1 ((BB.search_sound (k.layered hp hI (Int.le_refl _)) rfl h).1 x hx)

/-- C113: the search ends, whatever the width. -/
theorem knap_search_ends (hp : ∀ i, 0 ≤ k.p i) (hI : 0 < k.I) (w : Nat) {dfuel : Nat} (hf : k.I + 2 ≤ dfuel) (lim : Nat → Bool) :
    ∃ N, ∀ fuel, N < fuel → ∃ s, BB.search k.mdl w dfuel lim fuel (-2147483647) = some s ∧ (s.stopped = true ∨ Heap.empty s.pq = true) :=
  BB.search_ends (k.layered hp hI (Int.le_refl _)) rfl (k.rankBound hp hI) w hf lim

theorem Knap.answer (hw : ∀ i, 0 ≤ k.w i) (hI : 0 < k.I) (hc : 0 ≤ k.capa) {p : Int} {inc : List Int}
    (h1 : ∀ ls c, Sol k.mdl ls c → k.mdl.sense.betterEQ p c = true)
    (h2 : Sol k.mdl inc p ∨ (p = -2147483647 ∧ ∀ ls c, Sol k.mdl ls c → k.mdl.sense.better c (-2147483647) = false)) :
    k.Best p ∧ k.Packing inc p := by
  have hle : ∀ xs c, k.Packing xs c → c ≤ p := by
    intro xs c hx
    have := h1 _ _ ((k.sol_iff hw hI hc _ _).2 hx)
    simpa [Knap.mdl, Sense.betterEQ] using this
  rcases h2 with h2 | ⟨h2, _⟩
  · have := (k.sol_iff hw hI hc _ _).1 h2
    exact ⟨⟨⟨_, this⟩, hle⟩, this⟩
  · have := hle _ _ (k.packing_zero hc)
    omega

theorem Knap.worst (hw : ∀ i, 0 ≤ k.w i) (hp : ∀ i, 0 ≤ k.p i) (hI : 0 < k.I) (hc : 0 ≤ k.capa) (hP : k.sumP k.I 0 ≤ 2147483647) :
    k.mdl.loc = none → ∀ ls c, Sol k.mdl ls c → k.mdl.sense.betterEQ k.mdl.sense.worst0 c = true := by
  intro _ ls c hs
  obtain ⟨h1, h2, _, rfl⟩ := (k.sol_iff hw hI hc _ _).1 hs
  have := k.gain_le_sum hp ls 0 h2
  rw [h1] at this
  simp [Knap.mdl, Sense.betterEQ, Sense.worst0]; omega

/-- C113: with a width above the capacity the search ends with a best packing.  `hP`: the profits sum up to an `int`. -/
theorem knap_search_room (hw : ∀ i, 0 ≤ k.w i) (hp : ∀ i, 0 ≤ k.p i) (hI : 0 < k.I) (hc : 0 ≤ k.capa) (hP : k.sumP k.I 0 ≤ 2147483647)
    {w dfuel fuel : Nat} (hR : k.capa < w)
    {lim : Nat → Bool} {s : BB.BS (Nat × Int)} (h : BB.search k.mdl w dfuel lim fuel (-2147483647) = some s) (hns : s.stopped = false) :
    k.Best s.primal ∧ k.Packing s.inc s.primal := by
  obtain ⟨h1, h2⟩ := BB.search_room (k.layered hp hI (Int.le_refl _)) rfl (k.worst hw hp hI hc hP) (k.room hw hI hc hR) h hns
  exact k.answer hw hI hc h1 h2

/-- C113, for any width: if along the run nothing was dropped for a bad reason (`okLoop`), the search ends with a best
packing.  Missing: that nothing is dropped, which `knap_search_false` refutes. -/
theorem knap_search_partial (hw : ∀ i, 0 ≤ k.w i) (hp : ∀ i, 0 ≤ k.p i) (hI : 0 < k.I) (hc : 0 ≤ k.capa) (hP : k.sumP k.I 0 ≤ 2147483647)
    {w dfuel fuel : Nat} {lim : Nat → Bool} {s : BB.BS (Nat × Int)} (h : BB.search k.mdl w dfuel lim fuel (-2147483647) = some s)
    (hok : BB.okLoop k.mdl w dfuel lim fuel 0 (BB.init k.mdl w (-2147483647)) = true) (hns : s.stopped = false) :
    k.Best s.primal ∧ k.Packing s.inc s.primal := by
  obtain ⟨h1, h2⟩ := BB.search_answer_partial (k.layered hp hI (Int.le_refl _)) (by intro sd hsd; simp [Knap.mdl] at hsd)
    rfl (k.worst hw hp hI hc hP) h hok hns
  exact k.answer hw hI hc h1 h2

/-- Three items, capacity 62. -/
def k3 : Knap := ⟨3, 62, fun i => [1, 31, 37].getD i 0, fun i => [30, 5, 16].getD i 0⟩

/-- C113 is false for small widths: with width 1 the search ends with 16, although items 0 and 2 pack 46. -/
theorem knap_search_false : ∃ s, BB.search k3.mdl 1 10 (fun _ => false) 30 (-2147483647) = some s ∧ s.stopped = false ∧
    Heap.empty s.pq = true ∧ s.primal = 16 ∧ k3.Packing [1, 0, 1] 46 := by
  have hv : (BB.search k3.mdl 1 10 (fun _ => false) 30 (-2147483647)).map (fun s => (s.stopped, Heap.empty s.pq, s.primal)) =
      some (false, true, 16) := by decide +kernel
  simp only [Option.map_eq_some_iff] at hv
  obtain ⟨s, h1, h2⟩ := hv
  simp at h2
  exact ⟨s, h1, h2.1, h2.2.1, h2.2.2, ⟨rfl, by decide, by decide, by decide⟩⟩

/-- Five items and width 3: 51 instead of 58. -/
def k5 : Knap := ⟨5, 93, fun i => [46, 41, 17, 4, 59].getD i 0, fun i => [5, 3, 28, 18, 12].getD i 0⟩

theorem knap_search_false3 : ∃ s, BB.search k5.mdl 3 10 (fun _ => false) 60 (-2147483647) = some s ∧ s.stopped = false ∧
    Heap.empty s.pq = true ∧ s.primal = 51 ∧ k5.Packing [0, 0, 1, 1, 1] 58 := by
  have hv : (BB.search k5.mdl 3 10 (fun _ => false) 60 (-2147483647)).map (fun s => (s.stopped, Heap.empty s.pq, s.primal)) =
      some (false, true, 51) := by decide +kernel
  simp only [Option.map_eq_some_iff] at hv
  obtain ⟨s, h1, h2⟩ := hv
  simp at h2
  exact ⟨s, h1, h2.1, h2.2.1, h2.2.2, ⟨rfl, by decide, by decide, by decide⟩⟩

theorem k3_w : ∀ i, 0 ≤ k3.w i := by intro i; simp only [k3]; match i with | 0 | 1 | 2 => decide | n + 3 => simp
theorem k3_p : ∀ i, 0 ≤ k3.p i := by intro i; simp only [k3]; match i with | 0 | 1 | 2 => decide | n + 3 => simp

/-- The same instance at width 90. -/
example : ∃ s, BB.search k3.mdl 90 10 (fun _ => false) 30 (-2147483647) = some s ∧ s.primal = 46 ∧ k3.Best 46 := by
  have hv : (BB.search k3.mdl 90 10 (fun _ => false) 30 (-2147483647)).map (fun s => (s.stopped, s.primal)) = some (false, 46) := by decide +kernel
  simp only [Option.map_eq_some_iff] at hv
  obtain ⟨s, h1, h2⟩ := hv
  simp at h2
  have := (knap_search_room k3 k3_w k3_p (by decide) (by decide) (by decide) (by decide) h1 h2.1).1
  rw [h2.2] at this
  exact ⟨s, h1, h2.2, this⟩

/-- At width 2 its run drops nothing badly. -/
example : ∃ s, BB.search k3.mdl 2 10 (fun _ => false) 30 (-2147483647) = some s ∧ k3.Best s.primal := by
  have hv : (BB.search k3.mdl 2 10 (fun _ => false) 30 (-2147483647)).map (fun s => (s.stopped, s.primal)) = some (false, 46) := by decide +kernel
  simp only [Option.map_eq_some_iff] at hv
  obtain ⟨s, h1, h2⟩ := hv
  simp at h2
  exact ⟨s, h1, (knap_search_partial k3 k3_w k3_p (by decide) (by decide) (by decide) h1 (by decide +kernel) h2.1).1⟩

/-! ### C114: knapsack2.cpp -/

/-- What the engine needs to report packings only; nothing is asked of the local bound or of the order of the items. -/
theorem Knap.layeredN (hp : ∀ i, 0 ≤ k.p i) (fl : Int → Int → Int → Int) {s0 : Nat × Int} {v0 : Int} (h0 : s0.1 < k.I) (hc0 : 0 ≤ s0.2) (hv : 0 ≤ v0) :
    LayeredV (fun _ _ => False) (k.mdl2 fl) k.rank s0 v0 where
  sink := by simp [Knap.mdl2]
  ends := fun _ _ h => h.elim
  src := by simp [Knap.mdl2]; omega
  range := fun s v h => by
    have := (k.relx2 fl hp h0 hc0 h).2
    simp [Knap.mdl2, Sense.better, Sense.best0]; omega
  step := fun s v l s' h hst => by
    have hlt : s.1 < k.I := by
      rcases (k.relx2 fl hp h0 hc0 h).1 with x | x
      · exact x.1
      · have := hst.1; rw [x] at this; simp [Knap.mdl2] at this
    rcases k.step_ok hlt ((k.step2_iff fl).1 hst) with ⟨x, _⟩ | ⟨x, _⟩
    · left; rw [x]; simp [Knap.mdl2]
    · right; exact x
  merge := fun a b c va vb ra rb ha hb hr hm => by
    have la : a.1 < k.I := by
      rcases (k.relx2 fl hp h0 hc0 ra).1 with x | x
      · exact x.1
      · rw [x] at ha; simp [Knap.mdl2] at ha
    have hr : a.1 = b.1 := hr
    simp only [Knap.mdl2] at hm
    split at hm
    · simp at hm
      have h1 : c = (a.1, max a.2 b.2) := by rw [← hm, hr]; simp
      refine ⟨?_, ?_, fun _ h => h.elim, fun _ h => h.elim⟩
      · rw [h1]; simp [Knap.mdl2]; omega
      · rw [h1]; rfl
    · simp at hm
  local_ := fun _ _ _ _ _ _ _ h => h.elim
  dom := fun f hf a b va vb ra rb ha hr hd => by
    refine ⟨fun _ h => h.elim, fun hb => ?_⟩
    rcases hr with ⟨h1, _⟩ | ⟨p, vp, l, h1, h2, h3, h4⟩
    · rw [hb] at h1; simp [Knap.mdl2] at h1
    · have h4 : a.1 = p.1 + 1 := h4
      have lp : p.1 < k.I := by
        rcases (k.relx2 fl hp h0 hc0 h1).1 with x | x
        · exact x.1
        · have := h2.1; rw [x] at this; simp [Knap.mdl2] at this
      have la : a.1 < k.I := by
        rcases (k.relx2 fl hp h0 hc0 ra).1 with x | x
        · exact x.1
        · rw [x] at ha; simp [Knap.mdl2] at ha
      rcases k.step_ok lp ((k.step2_iff fl).1 h2) with ⟨_, x⟩ | ⟨_, x, _⟩
      · omega
      · simp [Knap.mdl2] at h3; omega

theorem Knap.famN (hp : ∀ i, 0 ≤ k.p i) (hI : 0 < k.I) (hc : 0 ≤ k.capa) (fl : Int → Int → Int → Int) :
    FamV (fun _ _ => False) (fun _ _ _ => False) (k.mdl2 fl) k.rank (fun _ => k.mdl2 fl) where
  same := fun _ => rfl
  sub := fun _ _ _ h => h
  keep := fun _ _ _ _ _ _ h => h.elim
  back := fun _ _ _ h => h.elim
  lay := fun _ s ls v hp' hq => by
    have := (k.layeredN hp fl (s0 := (k.mdl2 fl).sti) hI hc (Int.le_refl 0)).of_path hp' hq
    rwa [Int.zero_add] at this

theorem Knap.hp0 (k : Knap) (fl : Int → Int → Int → Int) {u : Int} (hu : 0 ≤ u) : (k.mdl2 fl).sense.betterEQ u (k.mdl2 fl).sense.best0 = true := by
  simp [Knap.mdl2, Sense.betterEQ, Sense.best0]; omega

theorem Knap.getUB_nonneg (hp : ∀ i, 0 ≤ k.p i) (hc : 0 ≤ k.capa) {u : Int} (h : k.getUB = some u) : 0 ≤ u := by
  obtain ⟨xs, _, h01, _, rfl⟩ := getUB_partial k hc h
  have key : ∀ (xs : List Int) (n : Nat), (∀ x, x ∈ xs → x = 0 ∨ x = 1) → 0 ≤ k.gain n xs := by
    intro xs
    induction xs with
    | nil => intro n _; exact Int.le_refl _
    | cons x xs ih =>
      intro n h
      have := ih (n + 1) (fun y hy => h y (by simp [hy]))
      have := hp n
      simp only [Knap.gain]
      rcases h x (by simp) with rfl | rfl <;> omega
  exact key _ _ h01

/-- C114: everything the search of knapsack2.cpp reports is a packing with its profit, better than the initial bound.
Any rounding of the local bound. -/
theorem knap2_search_sound (hw : ∀ i, 0 ≤ k.w i) (hp : ∀ i, 0 ≤ k.p i) (hI : 0 < k.I) (hc : 0 ≤ k.capa) (fl : Int → Int → Int → Int)
    {u : Int} (hu : k.getUB = some u) {w dfuel fuel : Nat} {lim : Nat → Bool} {s : BB.BS (Nat × Int)}
    (h : BB.search (k.mdl2 fl) w dfuel lim fuel u = some s) :
    (∀ x, x ∈ s.sols → k.Packing x.2 x.1) ∧ (s.sols ≠ [] → k.Packing s.inc s.primal) := by
  have := BB.searchT_sound (fun _ => k.famN hp hI hc fl) (k.layeredN hp fl (s0 := (k.mdl2 fl).sti) hI hc (Int.le_refl 0)) (k.hp0 fl (k.getUB_nonneg hp hc hu)) h
  exact ⟨fun x hx => (k.sol2_iff fl hw hI hc _ _).1 (this.1 x hx), fun hn => (k.sol2_iff fl hw hI hc _ _).1 (this.2 hn)⟩

/-- C114: the search ends, whatever the width. -/
theorem knap2_search_ends (hp : ∀ i, 0 ≤ k.p i) (hI : 0 < k.I) (hc : 0 ≤ k.capa) (fl : Int → Int → Int → Int) {u : Int} (hu : k.getUB = some u)
    (w : Nat) {dfuel : Nat} (hf : k.I + 2 ≤ dfuel) (lim : Nat → Bool) :
    ∃ N, ∀ fuel, N < fuel → ∃ s, BB.search (k.mdl2 fl) w dfuel lim fuel u = some s ∧ (s.stopped = true ∨ Heap.empty s.pq = true) :=
  BB.searchT_ends (fun _ => k.famN hp hI hc fl) (k.layeredN hp fl (s0 := (k.mdl2 fl).sti) hI hc (Int.le_refl 0)) (k.hp0 fl (k.getUB_nonneg hp hc hu))
    (fun x v h _ => by
      rcases (k.relx2 fl hp hI hc h).1 with hx | rfl
      · exact Nat.le_of_lt hx.1
      · exact Nat.le_refl _) w hf lim

theorem Knap.room2 (hw : ∀ i, 0 ≤ k.w i) (hI : 0 < k.I) (hc : 0 ≤ k.capa) (fl : Int → Int → Int → Int) {w : Nat} (h : k.capa < w) :
    Room (k.mdl2 fl) k.rank (k.mdl2 fl).sti w := by
  intro n L hn hL
  refine k.room hw hI hc h n L hn (fun s hs => ?_)
  obtain ⟨h1, h2, ls, c, hp⟩ := hL s hs
  exact ⟨h1, h2, ls, c, (k.path2_iff fl).1 hp⟩

/-- C114, what holds of the answer: with the local bound rounded exactly (or up) and a width above the capacity, the search
ends with the best profit, and its incumbent, if it found one, is a packing of that profit.  Missing: the bound as computed in
`double` (`local2_false`), other widths (`dominance2_false`). -/
theorem knap2_search_room_partial (hs : k.Sorted) (hI : 0 < k.I) (hc : 0 ≤ k.capa) {fl : Int → Int → Int → Int}
    (hfl : ∀ rc w p, 0 ≤ rc → rc < w → 0 ≤ p → floorQ rc w p ≤ fl rc w p) {u : Int} (hu : k.getUB = some u)
    {w dfuel fuel : Nat} (hR : k.capa < w) {lim : Nat → Bool} {s : BB.BS (Nat × Int)} (h : BB.search (k.mdl2 fl) w dfuel lim fuel u = some s)
    (hns : s.stopped = false) : k.Best s.primal ∧ (k.Packing s.inc s.primal ∨ s.primal = u) := by
  have hw : ∀ i, 0 ≤ k.w i := fun i => Int.le_of_lt (hs.w i)
  obtain ⟨h1, h2⟩ := BB.search_room (k.layered2 hs hfl hI hc (Int.le_refl 0)) (k.hp0 fl (k.getUB_nonneg hs.p hc hu))
    (fun hl => by simp [Knap.mdl2] at hl) (k.room2 hw hI hc fl hR) h hns
  have hle : ∀ xs c, k.Packing xs c → c ≤ s.primal := by
    intro xs c hx
    have := h1 _ _ ((k.sol2_iff fl hw hI hc _ _).2 hx)
    simpa [Knap.mdl2, Sense.betterEQ] using this
  rcases h2 with h2 | ⟨h2, _⟩
  · have := (k.sol2_iff fl hw hI hc _ _).1 h2
    exact ⟨⟨⟨_, this⟩, hle⟩, .inl this⟩
  · refine ⟨⟨?_, hle⟩, .inr h2⟩
    rw [h2]
    exact getUB_partial k hc hu

/-! ### The checker of knapsack2.cpp -/

/-- The callback of `Bounds` (examples/knapsack2.cpp:99-109) from item `i`: the value and the capacity left it prints; `none`
reads behind the incumbent.  The value is summed in a `double`, exactly below 2^53. -/
def Knap.chkLoop (k : Knap) (inc : List Int) : Nat → Nat → Int → Int → Option (Int × Int)
  | 0, _, v, rc => some (v, rc)
  | d + 1, i, v, rc =>
    match inc[i]? with
    | none => none
    | some x => if x ≠ 0 then k.chkLoop inc d (i + 1) (v + k.p i) (rc - k.w i) else k.chkLoop inc d (i + 1) v rc

/-- The whole loop. -/
def Knap.chk (k : Knap) (inc : List Int) : Option (Int × Int) := k.chkLoop inc k.I 0 0 k.capa

theorem Knap.chkLoop_eq (k : Knap) : ∀ (xs pre : List Int) (v rc : Int), (∀ x, x ∈ xs → x = 0 ∨ x = 1) →
    k.chkLoop (pre ++ xs) xs.length pre.length v rc = some (v + k.gain pre.length xs, rc - k.load pre.length xs) := by
  intro xs
  induction xs with
  | nil => intro pre v rc _; simp [Knap.chkLoop, Knap.gain, Knap.load]
  | cons x xs ih =>
    intro pre v rc h
    have hi : (pre ++ x :: xs)[pre.length]? = some x := by simp
    have h2 := fun v rc => ih (pre ++ [x]) v rc (fun y hy => h y (by simp [hy]))
    simp only [List.append_assoc, List.singleton_append, List.length_append, List.length_singleton] at h2
    simp only [List.length_cons, Knap.chkLoop, hi, Knap.gain, Knap.load]
    rcases h x (by simp) with rfl | rfl
    · rw [if_neg (by simp), h2]; simp
    · rw [if_pos (by decide), h2]
      congr 2 <;> omega

/-- C114: on a 0/1 vector of the right length the checker stays inside it, and prints a capacity left that is not negative
exactly when the vector is a packing, with its profit. -/
theorem knap2_checker {xs : List Int} (hl : xs.length = k.I) (h01 : ∀ x, x ∈ xs → x = 0 ∨ x = 1) :
    ∃ v rc, k.chk xs = some (v, rc) ∧ ∀ c, (k.Packing xs c ↔ 0 ≤ rc ∧ c = v) := by
  have := k.chkLoop_eq xs [] 0 k.capa h01
  simp only [List.nil_append, List.length_nil] at this
  refine ⟨_, _, by unfold Knap.chk; rw [← hl]; exact this, fun c => ?_⟩
  unfold Knap.Packing
  constructor
  · rintro ⟨_, _, h1, h2⟩; exact ⟨by omega, by omega⟩
  · rintro ⟨h1, h2⟩; exact ⟨hl, h01, by omega, by omega⟩

/-- C114: for every incumbent the search reports, the checker prints its value and a capacity left that is not negative. -/
theorem knap2_search_checked (hw : ∀ i, 0 ≤ k.w i) (hp : ∀ i, 0 ≤ k.p i) (hI : 0 < k.I) (hc : 0 ≤ k.capa) (fl : Int → Int → Int → Int)
    {u : Int} (hu : k.getUB = some u) {w dfuel fuel : Nat} {lim : Nat → Bool} {s : BB.BS (Nat × Int)}
    (h : BB.search (k.mdl2 fl) w dfuel lim fuel u = some s) : ∀ x, x ∈ s.sols → ∃ rc, 0 ≤ rc ∧ k.chk x.2 = some (x.1, rc) := by
  intro x hx
  have hP := (knap2_search_sound k hw hp hI hc fl hu h).1 x hx
  obtain ⟨v, rc, h1, h2⟩ := knap2_checker k hP.1 hP.2.1
  obtain ⟨h3, h4⟩ := (h2 _).1 hP
  exact ⟨rc, h3, by rw [h1, h4]⟩

/-- A search in `double` that reports incumbents: the seven-item instance at width 1. -/
example : ∃ s, BB.search (kd.mdl2 floorF) 1 200 (fun _ => false) 60 172 = some s ∧ s.sols ≠ [] ∧ kd.Packing s.inc s.primal := by
  have hv : (BB.search (kd.mdl2 floorF) 1 200 (fun _ => false) 60 172).map (fun s => s.sols.isEmpty) = some false := by decide +kernel
  simp only [Option.map_eq_some_iff] at hv
  obtain ⟨s, h1, h2⟩ := hv
  have hn : s.sols ≠ [] := by intro e; rw [e] at h2; simp at h2
  exact ⟨s, h1, hn, (knap2_search_sound kd (fun i => Int.le_of_lt (kd_sorted.w i)) kd_sorted.p (by decide) (by decide) floorF (by decide) h1).2 hn⟩

/-- The same instance at width 57, with the bound rounded exactly. -/
example : ∃ s, BB.search (kd.mdl2 floorQ) 57 200 (fun _ => false) 60 172 = some s ∧ s.primal = 224 ∧ kd.Best 224 := by
  have hv : (BB.search (kd.mdl2 floorQ) 57 200 (fun _ => false) 60 172).map (fun s => (s.stopped, s.primal)) = some (false, 224) := by decide +kernel
  simp only [Option.map_eq_some_iff] at hv
  obtain ⟨s, h1, h2⟩ := hv
  simp at h2
  have := (knap2_search_room_partial kd kd_sorted (by decide) (by decide) (fun _ _ _ _ _ _ => Int.le_refl _) (by decide) (by decide) h1 h2.1).1
  rw [h2.2] at this
  exact ⟨s, h1, h2.2, this⟩

example : kd.chk [1, 1, 0, 1, 0, 0, 0] = some (224, 0) ∧ kd.chk [1, 1, 1, 0, 0, 0, 0] = some (228, -1) := by decide

end Verif.Ex
