import Verif.Checkers
import Verif.Props.ColoringV
import Verif.Props.AnyLoc

/-!
# C132: the totals printed by the solution callbacks
-/
namespace Verif.Ex
open Verif.DD

/-! ### tsp_test4: tour length and number of hops -/

theorem checkStep_fold (t : Tsp4) (hd : t.Nonneg) : ∀ (p : List Nat) (a : Nat) (td : Int) (k : Nat), a < t.nv → (∀ i, i ∈ p → i < t.nv) →
    0 ≤ td → td + t.length a p ≤ 2147483647 →
    ∃ e : Int, (p.map (fun i : Nat => (i : Int))).foldlM t.checkStep ((a : Int), td, k) = some (e, td + t.length a p, k + p.length) := by
  intro p
  induction p with
  | nil => intro a td k _ _ _ _; exact ⟨a, by simp [Tsp4.length]⟩
  | cons b p ih =>
    intro a td k ha hp h0 hle
    have hb : b < t.nv := hp b (by simp)
    have h1 := hd a b ha hb
    have h2 := t.length_nonneg hd p b hb (fun i hi => hp i (by simp [hi]))
    rw [Tsp4.length] at hle ⊢
    have hs : t.checkStep ((a : Int), td, k) (b : Int) = some ((b : Int), td + t.d a b, k + 1) := by
      unfold Tsp4.checkStep
      rw [if_pos (by dsimp only; omega)]
      simp only [Int.toNat_natCast]
      unfold addI
      rw [if_pos (by omega)]
      rfl
    obtain ⟨e, he⟩ := ih b (td + t.d a b) (k + 1) hb (fun i hi => hp i (by simp [hi])) (by omega) (by omega)
    refine ⟨e, ?_⟩
    rw [List.map_cons, List.foldlM_cons, hs]
    simp only [Option.bind_eq_bind, Option.bind_some]
    rw [he, List.length_cons]
    simp only [Option.some.injEq, Prod.mk.injEq, true_and]
    omega

/-- C132: for a tour whose length is an `int` the callback of tsp_test4 prints this length and the number of
cities; no access leaves the matrix and no addition overflows. -/
theorem tsp4_checker (t : Tsp4) (hn : 1 ≤ t.nv) (hd : t.Nonneg) {ls : List Int} {c : Int} (h : t.Tour ls c) (hc : c ≤ 2147483647) :
    t.checker ls = some (c, t.nv) := by
  obtain ⟨p, rfl, h3, h4, rfl⟩ := h
  have hperm : p.Perm ((List.range t.nv).erase 0) := by
    rw [List.perm_ext_iff_of_nodup h3 (List.Nodup.erase _ List.nodup_range)]
    intro i
    rw [h4, List.Nodup.mem_erase_iff List.nodup_range, List.mem_range]
    exact ⟨fun h => ⟨h.2, h.1⟩, fun h => ⟨h.2, h.1⟩⟩
  have hl : p.length = t.nv - 1 := by
    rw [hperm.length_eq, List.length_erase_of_mem (by rw [List.mem_range]; omega), List.length_range]
  obtain ⟨e, he⟩ := checkStep_fold t hd (p ++ [0]) 0 0 0 (by omega) (fun i hi => by
    rcases List.mem_append.1 hi with hi | hi
    · exact ((h4 i).1 hi).1
    · simp at hi; omega) (Int.le_refl 0) (by omega)
  unfold Tsp4.checker
  rw [show ((0 : Int), (0 : Int), (0 : Nat)) = (((0 : Nat) : Int), (0 : Int), (0 : Nat)) from rfl, he]
  simp only [Option.map_some, Int.zero_add, Nat.zero_add, List.length_append, List.length_singleton, hl]
  rw [Nat.sub_add_cancel hn]

/-- C132: on every solution that the search of tsp_test4 reports, the callback prints the primal bound as the
length, and the number of cities; whatever the undefined bound at the root. -/
theorem tsp4_checker_search (t : Tsp4) {J : Int} (hn : 1 ≤ t.nv) (hd : t.Nonneg) {D : Int} (hD : t.Bnd D)
    {w dfuel fuel : Nat} {lim : Nat → Bool} {s : BB.BS Tsp4S} (h : BB.search (t.mdl J) w dfuel lim fuel 2147483647 = some s) :
    ∀ x, x ∈ s.sols → t.checker x.2 = some (x.1, t.nv) := by
  intro x hx
  obtain ⟨h1, h2⟩ := (tspv_search_sound t (u := 0) (J := J) hn hd hD w dfuel fuel lim).1 _ (.inl rfl) s h
  refine tsp4_checker t hn hd (h1 x hx) ?_
  have := (List.pairwise_cons.1 h2).1 x.1 (List.mem_map_of_mem hx)
  omega

/-! ### Colouring: the histogram -/

/-- Keys strictly increasing. -/
def KeysUp (h : List (Int × Int)) : Prop := h.Pairwise fun a b => a.1 < b.1

theorem mget_none {k : Int} : ∀ {h : List (Int × Int)}, (∀ e, e ∈ h → k < e.1) → mget h k = none := by
  intro h
  induction h with
  | nil => intro _; rfl
  | cons e h ih =>
    intro hk
    obtain ⟨a, x⟩ := e
    have := hk (a, x) (by simp)
    rw [mget, if_neg (by dsimp only at this; omega), ih (fun e he => hk e (by simp [he]))]

theorem mput_keys {k n : Int} : ∀ {h : List (Int × Int)} {e : Int × Int}, e ∈ mput h k n → e = (k, n) ∨ e ∈ h := by
  intro h
  induction h with
  | nil => intro e he; simp [mput] at he; exact .inl he
  | cons a h ih =>
    intro e he
    obtain ⟨a, x⟩ := a
    rw [mput] at he
    split at he
    · rcases List.mem_cons.1 he with he | he
      · exact .inl he
      · exact .inr he
    · split at he
      · rcases List.mem_cons.1 he with he | he
        · exact .inl he
        · exact .inr (by simp [he])
      · rcases List.mem_cons.1 he with he | he
        · exact .inr (by simp [he])
        · rcases ih he with he | he
          · exact .inl he
          · exact .inr (by simp [he])

theorem mput_up {k n : Int} : ∀ {h : List (Int × Int)}, KeysUp h → KeysUp (mput h k n) := by
  intro h
  induction h with
  | nil => intro _; simp [mput, KeysUp]
  | cons a h ih =>
    intro hu
    obtain ⟨a, x⟩ := a
    obtain ⟨h1, h2⟩ := List.pairwise_cons.1 hu
    dsimp only at h1
    rw [mput]
    split
    · refine List.pairwise_cons.2 ⟨fun e he => ?_, hu⟩
      rcases List.mem_cons.1 he with rfl | he
      · assumption
      · have := h1 e he
        dsimp only
        omega
    · split
      · rename_i e
        subst e
        exact List.pairwise_cons.2 ⟨h1, h2⟩
      · refine List.pairwise_cons.2 ⟨fun e he => ?_, ih h2⟩
        rcases mput_keys he with rfl | he
        · dsimp only; omega
        · exact h1 e he

theorem mget_mput {k n : Int} : ∀ {h : List (Int × Int)}, KeysUp h → ∀ j, mget (mput h k n) j = if j = k then some n else mget h j := by
  intro h
  induction h with
  | nil =>
    intro _ j
    rw [mput]
    by_cases e : j = k
    · subst e; simp [mget]
    · simp [mget, e]
      exact fun h => e h.symm
  | cons a h ih =>
    intro hu j
    obtain ⟨a, x⟩ := a
    obtain ⟨h1, h2⟩ := List.pairwise_cons.1 hu
    rw [mput]
    split
    · rw [mget]
      by_cases e : j = k
      · subst e; simp
      · rw [if_neg (fun h => e h.symm), if_neg e]
    · split
      · rename_i e
        subst e
        rw [mget, mget]
        by_cases e : j = a
        · subst e; simp
        · rw [if_neg (fun h => e h.symm), if_neg e, if_neg (fun h => e h.symm)]
      · rename_i e1
        rw [mget, mget, ih h2]
        by_cases e : a = j
        · subst e
          simp [e1]
        · rw [if_neg e, if_neg e]

/-- A map is given by its values. -/
theorem mget_ext : ∀ {h g : List (Int × Int)}, KeysUp h → KeysUp g → (∀ k, mget h k = mget g k) → h = g := by
  intro h
  induction h with
  | nil =>
    intro g _ _ e
    cases g with
    | nil => rfl
    | cons b g =>
      obtain ⟨b, y⟩ := b
      have := e b
      simp [mget] at this
  | cons a h ih =>
    intro g hu gu e
    obtain ⟨a, x⟩ := a
    obtain ⟨h1, h2⟩ := List.pairwise_cons.1 hu
    cases g with
    | nil =>
      have := e a
      simp [mget] at this
    | cons b g =>
      obtain ⟨b, y⟩ := b
      obtain ⟨g1, g2⟩ := List.pairwise_cons.1 gu
      dsimp only at h1 g1
      have hab : a = b := by
        apply Classical.byContradiction
        intro hne
        rcases Int.lt_or_gt_of_ne hne with hlt | hlt
        · have := e a
          rw [mget, if_pos rfl, mget, if_neg (fun h => hne h.symm), mget_none (fun e he => by have := g1 e he; omega)] at this
          cases this
        · have := e b
          rw [mget, if_neg hne, mget, if_pos rfl, mget_none (fun e he => by have := h1 e he; omega)] at this
          cases this
      subst hab
      have hxy := e a
      rw [mget, if_pos rfl, mget, if_pos rfl, Option.some.injEq] at hxy
      subst hxy
      refine congrArg _ (ih h2 g2 fun k => ?_)
      by_cases hk : k = a
      · subst hk
        rw [mget_none (fun e he => h1 e he), mget_none (fun e he => g1 e he)]
      · have := e k
        rwa [mget, if_neg (fun h => hk h.symm), mget, if_neg (fun h => hk h.symm)] at this

/-- What a map of tallies of the list `l` holds. -/
def Tally (l : List Int) (h : List (Int × Int)) : Prop :=
  KeysUp h ∧ ∀ k, mget h k = if k ∈ l then some (l.count k : Int) else none

theorem Tally.step {l : List Int} {h : List (Int × Int)} (H : Tally l h) (k : Int) : Tally (l ++ [k]) (tally h k) := by
  refine ⟨mput_up H.1, fun j => ?_⟩
  unfold tally
  rw [mget_mput H.1, List.count_append]
  by_cases e : j = k
  · subst e
    rw [if_pos rfl, if_pos (show j ∈ l ++ [j] by simp), H.2 j]
    by_cases hm : j ∈ l
    · simp [hm]
    · rw [if_neg hm, List.count_eq_zero.2 hm]
      simp
  · rw [if_neg e, H.2 j]
    have hc : List.count j [k] = 0 := List.count_eq_zero.2 (by simp [e])
    rw [hc]
    by_cases hm : j ∈ l
    · simp [hm]
    · rw [if_neg hm, if_neg (by simp [hm, e])]

theorem hist_tally (inc : List Int) : ∀ K, K ≤ inc.length → ∃ h, hist K inc = some h ∧ Tally (inc.take K) h := by
  intro K
  induction K with
  | zero => intro _; exact ⟨[], rfl, List.Pairwise.nil, fun k => by simp [mget]⟩
  | succ K ih =>
    intro hK
    obtain ⟨h, h1, h2⟩ := ih (by omega)
    refine ⟨tally h inc[K], ?_, ?_⟩
    · unfold hist at h1 ⊢
      rw [List.range_succ, List.foldlM_append, h1]
      simp [List.getElem?_eq_getElem (show K < inc.length by omega)]
    · rw [List.take_add_one, List.getElem?_eq_getElem (show K < inc.length by omega)]
      exact h2.step _

/-- C132: the printed histogram lists, by increasing colour, exactly the colours in use, each with the number of
vertices that have it. -/
theorem hist_spec (inc : List Int) : ∃ h, hist inc.length inc = some h ∧ KeysUp h ∧
    ∀ k n, (k, n) ∈ h ↔ k ∈ inc ∧ n = inc.count k := by
  obtain ⟨h, h1, h2, h3⟩ := hist_tally inc inc.length (Nat.le_refl _)
  rw [List.take_length] at h3
  refine ⟨h, h1, h2, ?_⟩
  have key : ∀ {h : List (Int × Int)}, KeysUp h → ∀ k n, (k, n) ∈ h ↔ mget h k = some n := by
    intro h
    induction h with
    | nil => intro _ k n; simp [mget]
    | cons a h ih =>
      intro hu k n
      obtain ⟨a, x⟩ := a
      obtain ⟨u1, u2⟩ := List.pairwise_cons.1 hu
      rw [List.mem_cons, ih u2, mget]
      by_cases e : a = k
      · subst e
        rw [if_pos rfl, mget_none (fun e he => u1 e he)]
        simp [eq_comm]
      · rw [if_neg e]
        constructor
        · rintro (h | h)
          · exact absurd (congrArg Prod.fst h).symm e
          · exact h
        · exact .inr
  intro k n
  rw [key h2, h3]
  by_cases hm : k ∈ inc
  · simp [hm, eq_comm]
  · simp [hm]

theorem grow_all : ∀ (cs : List Nat) (k : Nat), Grow k cs → ∀ j, k < j → j ≤ top k cs → j ∈ cs := by
  intro cs
  induction cs with
  | nil => intro k _ j h1 h2; simp only [top] at h2; omega
  | cons c cs ih =>
    intro k hg j h1 h2
    obtain ⟨g1, g2⟩ := hg
    by_cases e : j = c
    · simp [e]
    · exact List.mem_cons_of_mem _ (ih _ g2 j (by omega) h2)

theorem sum_counts : ∀ (q : Nat) (cs : List Nat), (∀ c, c ∈ cs → 1 ≤ c ∧ c ≤ q) →
    ((List.range q).map fun j => cs.count (j + 1)).sum = cs.length := by
  intro q
  induction q with
  | zero =>
    intro cs h
    cases cs with
    | nil => rfl
    | cons c cs => have := h c (by simp); omega
  | succ q ih =>
    intro cs h
    have h1 := ih (cs.filter fun c => c ≤ q) (fun c hc => by
      rw [List.mem_filter] at hc
      exact ⟨(h c hc.1).1, by simpa using hc.2⟩)
    have h2 : ∀ j, j < q → (cs.filter fun c => c ≤ q).count (j + 1) = cs.count (j + 1) := by
      intro j hj
      rw [List.count_filter (by simp; omega)]
    rw [List.range_succ, List.map_append, List.sum_append, List.map_singleton, List.sum_singleton]
    rw [List.map_congr_left (fun j hj => h2 j (List.mem_range.1 hj))] at h1
    rw [h1]
    have : ∀ (cs : List Nat), (∀ c, c ∈ cs → 1 ≤ c ∧ c ≤ q + 1) → (cs.filter fun c => c ≤ q).length + cs.count (q + 1) = cs.length := by
      intro cs
      induction cs with
      | nil => intro _; rfl
      | cons c cs ih =>
        intro h
        have i1 := ih (fun c hc => h c (by simp [hc]))
        have i2 := h c (by simp)
        by_cases e : c = q + 1
        · subst e
          rw [List.filter_cons_of_neg (by simp), List.count_cons_self, List.length_cons]
          omega
        · rw [List.filter_cons_of_pos (by simp; omega), List.length_cons, List.length_cons,
            List.count_cons_of_ne e]
          omega
    exact this cs h

variable {t : Col} {U : Nat} {M : Option Int → Mdl ColS}

/-- C132: on every solution that the colouring programs report, of value `q`, the histogram has one entry for
each of the colours `1, ..., q`, in this order, with the number of vertices of that colour; no number is
0, and they add up to the number of vertices. -/
theorem colv_hist (hM : t.Progs U M) (hn : 1 ≤ t.K) {w dfuel fuel : Nat} {lim : Nat → Bool} {s : BB.BS ColS}
    (h : BB.searchP (M none) (fun p => M (some p)) w dfuel lim fuel 2147483647 = some s) :
    ∀ x, x ∈ s.sols → ∃ q : Nat, x.1 = q ∧
      hist t.K x.2 = some ((List.range q).map fun j => (((j + 1 : Nat) : Int), (x.2.count ((j + 1 : Nat) : Int) : Int))) ∧
      (∀ j, j < q → 1 ≤ x.2.count ((j + 1 : Nat) : Int)) ∧
      ((List.range q).map fun j => x.2.count ((j + 1 : Nat) : Int)).sum = t.K := by
  obtain ⟨V⟩ := hM.view
  intro x hx
  obtain ⟨cs, h1, ⟨h2, h2', _⟩, h3, _, h5⟩ := (V.sol_iff hn _ _).1 ((BB.searchP_sound (V.fam_ok hn) (V.layered_root hn) (by rw [V.sense]; rfl) h).1 x hx)
  have hcnt : ∀ j : Nat, x.2.count (j : Int) = cs.count j := by
    intro j
    rw [h1, List.count, List.countP_map, List.count]
    refine List.countP_congr fun y _ => ?_
    simp only [Function.comp, beq_iff_eq]
    omega
  have hmem : ∀ k : Int, k ∈ x.2 ↔ ∃ j : Nat, j < top 0 cs ∧ k = ((j + 1 : Nat) : Int) := by
    intro k
    rw [h1, List.mem_map]
    constructor
    · rintro ⟨c, hc, rfl⟩
      have := h2' c hc
      have := mem_le_top cs 0 c hc
      exact ⟨c - 1, by omega, by omega⟩
    · rintro ⟨j, hj, rfl⟩
      exact ⟨j + 1, grow_all cs 0 h3 _ (by omega) (by omega), rfl⟩
  have hpos : ∀ j, j < top 0 cs → 1 ≤ x.2.count ((j + 1 : Nat) : Int) := by
    intro j hj
    exact List.count_pos_iff.2 ((hmem _).2 ⟨j, hj, rfl⟩)
  refine ⟨top 0 cs, h5, ?_, hpos, ?_⟩
  · obtain ⟨g, g1, g2, g3⟩ := hist_tally x.2 x.2.length (Nat.le_refl _)
    rw [List.take_length] at g3
    have hl : x.2.length = t.K := by rw [h1, List.length_map, h2]
    rw [hl] at g1
    rw [g1, Option.some.injEq]
    have hup : ∀ q : Nat, KeysUp ((List.range q).map fun j => (((j + 1 : Nat) : Int), (x.2.count ((j + 1 : Nat) : Int) : Int))) := by
      intro q
      unfold KeysUp
      rw [List.pairwise_map]
      refine List.Pairwise.imp ?_ (List.pairwise_lt_range (n := q))
      intro a b hab
      dsimp only
      omega
    refine mget_ext g2 (hup _) fun k => ?_
    rw [g3]
    have hgen : ∀ q : Nat, mget ((List.range q).map fun j => (((j + 1 : Nat) : Int), (x.2.count ((j + 1 : Nat) : Int) : Int))) k =
        if ∃ j : Nat, j < q ∧ k = ((j + 1 : Nat) : Int) then some (x.2.count k : Int) else none := by
      have happ : ∀ (a b : List (Int × Int)), mget (a ++ b) k = (mget a k).or (mget b k) := by
        intro a b
        induction a with
        | nil => rfl
        | cons e a ih =>
          obtain ⟨e, n⟩ := e
          rw [List.cons_append, mget, mget]
          by_cases he : e = k
          · rw [if_pos he, if_pos he]; rfl
          · rw [if_neg he, if_neg he, ih]
      intro q
      induction q with
      | zero => simp [mget]
      | succ q ih =>
        rw [List.range_succ, List.map_append, happ, ih, List.map_singleton, mget, mget]
        by_cases h1 : ∃ j : Nat, j < q ∧ k = ((j + 1 : Nat) : Int)
        · obtain ⟨j, hj, hk⟩ := h1
          rw [if_pos (show ∃ j : Nat, j < q ∧ k = ((j + 1 : Nat) : Int) from ⟨j, hj, hk⟩),
            if_pos (show ∃ j : Nat, j < q + 1 ∧ k = ((j + 1 : Nat) : Int) from ⟨j, by omega, hk⟩)]
          rfl
        · rw [if_neg h1, Option.none_or]
          by_cases h2 : ((q + 1 : Nat) : Int) = k
          · rw [if_pos h2, if_pos ⟨q, by omega, h2.symm⟩, h2]
          · rw [if_neg h2, if_neg]
            rintro ⟨j, hj, hk⟩
            by_cases e : j = q
            · subst e; exact h2 hk.symm
            · exact h1 ⟨j, by omega, hk⟩
    rw [hgen]
    by_cases hk : k ∈ x.2
    · rw [if_pos hk, if_pos ((hmem k).1 hk)]
    · rw [if_neg hk, if_neg (fun h => hk ((hmem k).2 h))]
  · simp only [hcnt]
    rw [sum_counts _ _ (fun c hc => ⟨h2' c hc, mem_le_top cs 0 c hc⟩), h2]

/-! ### Examples -/

/-- A run of tsp_test4 on five cities and what its callback prints. -/
example : ∃ s, BB.search (q5.mdl 0) 2 30 (fun _ => false) 50 2147483647 = some s ∧ s.sols ≠ [] ∧
    ∀ x, x ∈ s.sols → q5.checker x.2 = some (x.1, 5) := by
  have hv : (BB.search (q5.mdl 0) 2 30 (fun _ => false) 50 2147483647).map (fun s => decide (s.sols = [])) = some false := by decide +kernel
  simp only [Option.map_eq_some_iff] at hv
  obtain ⟨s, h1, h2⟩ := hv
  exact ⟨s, h1, by simpa using h2, tsp4_checker_search q5 (by decide) q5_nonneg q5_bnd h1⟩

/-- An index outside the matrix, and a sum that is no `int`. -/
example : q5.checker [1, 7, 0] = none ∧ q5.checker [1, 2, 3, 4, 0] = some (17, 5) ∧
    (⟨2, fun _ _ => 2000000000⟩ : Tsp4).checker [1, 0] = none := by decide

/-- Runs of the three programs with two reported colourings, and their histograms. -/
example (M : Option Int → Mdl ColS) (hM : g5.Progs 4 M) : ∃ s,
    BB.searchP (M none) (fun p => M (some p)) 2 50 (fun _ => false) 50 2147483647 = some s ∧
    s.sols.map (fun x => hist g5.K x.2) = [some [(1, 2), (2, 2), (3, 1)], some [(1, 2), (2, 3)]] ∧
    ∀ x, x ∈ s.sols → ∃ q : Nat, x.1 = q ∧ ((List.range q).map fun j => x.2.count ((j + 1 : Nat) : Int)).sum = g5.K := by
  have hv : (BB.searchP (M none) (fun p => M (some p)) 2 50 (fun _ => false) 50 2147483647).map
      (fun s => s.sols.map (fun x => hist g5.K x.2)) = some [some [(1, 2), (2, 2), (3, 1)], some [(1, 2), (2, 3)]] := by
    cases hM with
    | coloring _ => decide +kernel
    | coloring2 _ => decide +kernel
    | coloring3 _ => decide +kernel
  simp only [Option.map_eq_some_iff] at hv
  obtain ⟨s, h1, h2⟩ := hv
  refine ⟨s, h1, h2, fun x hx => ?_⟩
  obtain ⟨q, a, _, _, b⟩ := colv_hist hM (by decide) h1 x hx
  exact ⟨q, a, b⟩

/-- A colour out of order, as no program reports it. -/
example : hist 3 [4, 2, 4] = some [(2, 1), (4, 2)] ∧ hist 4 [4, 2, 4] = none := by decide

end Verif.Ex
