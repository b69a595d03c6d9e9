import Verif.TspV
import Verif.Props.Tsp4
import Verif.Props.Wide
/-!
# C93, C94, C95: the other TSP examples and the searches of all of them
-/
namespace Verif.Ex
open Verif.DD

/-! ### The spanning-tree loop without the emptiness test -/

open Heap (mem_locs Live) in
theorem mst2Loop_spec {vm : Nat → Nat} {fu : Nat} {need : Int} : ∀ (n : Nat) (h : Heap.H GE) (u : UF.U) (ne : Nat) (l : Int) (E : List (Nat × Nat))
    (rt : Nat → Nat) (F : List GE), h.at_ ≤ n → Heap.Inv GE.ord h → UF.Inv u E rt → u.n < 2 ^ fu →
    (∀ e, e ∈ Heap.vals h → vm e.a < u.n ∧ vm e.b < u.n) → (∀ e, e ∈ F → e ∈ Heap.vals h) → UF.Ind (fun e : GE => (vm e.a, vm e.b)) E F →
    (need = ne + F.length → ∃ r, mst2Loop vm fu need n h u ne l = some r ∧ r ≤ l + wsum F) ∧
    (((ne : Int) + F.length < need ∧
      ∀ e, e ∈ Heap.vals h → UF.Conn (E ++ F.map (fun e : GE => (vm e.a, vm e.b))) (vm e.a) (vm e.b)) →
      mst2Loop vm fu need n h u ne l = none) := by
  intro n
  induction n with
  | zero =>
    intro h u ne l E rt F hat hi
    have := hi.wf.one_le
    omega
  | succ n ih =>
    intro h u ne l E rt F hat hi I hfu hran hF hind
    unfold mst2Loop
    by_cases c1 : (ne : Int) ≠ need
    · rw [if_pos c1]
      by_cases c2 : Heap.empty h = true
      · rw [if_pos c2]
        refine ⟨fun hneed => ?_, fun _ => rfl⟩
        exfalso
        cases F with
        | nil => simp at hneed; omega
        | cons f F =>
          have := hF f (by simp)
          simp [Heap.empty] at c2
          simp [Heap.vals, Heap.locs, Heap.size, c2] at this
      rw [if_neg c2]
      have h2 : 2 ≤ h.at_ := by
        have := hi.wf.one_le
        simp [Heap.empty] at c2; omega
      obtain ⟨w', o', l0, a1, a2, a3, a4, a5, a6⟩ := Heap.extractMax_spec swo_ge hi.wf hi.ordered h2
      generalize hx : Heap.extractMax GE.ord h = x at *
      have hv : ∀ e, e ∈ Heap.vals h ↔ ∃ k, Live h k ∧ h.val k = e := by
        intro e; simp only [Heap.vals, List.mem_map, mem_locs]
      have hv' : ∀ e, e ∈ Heap.vals x.1 ↔ ∃ k, (Live h k ∧ k ≠ l0) ∧ h.val k = e := by
        intro e; simp only [Heap.vals, List.mem_map, mem_locs, a4, a5]
      have hsub : ∀ e, e ∈ Heap.vals x.1 → e ∈ Heap.vals h := by
        intro e he
        obtain ⟨k, ⟨k1, _⟩, k3⟩ := (hv' e).1 he
        exact (hv e).2 ⟨k, k1, k3⟩
      have hspl : ∀ e, e ∈ Heap.vals h → e ≠ x.2 → e ∈ Heap.vals x.1 := by
        intro e he hne
        obtain ⟨k, k1, k3⟩ := (hv e).1 he
        exact (hv' e).2 ⟨k, ⟨k1, fun hk => hne (by rw [← k3, hk, a2])⟩, k3⟩
      have hmin : ∀ e, e ∈ Heap.vals h → x.2.w ≤ e.w := by
        intro e he
        obtain ⟨k, k1, k3⟩ := (hv e).1 he
        have := a3 k k1
        rw [k3, ← a2] at this
        simp [GE.ord] at this
        exact this
      have hx2 : x.2 ∈ Heap.vals h := (hv _).2 ⟨l0, a1, a2.symm⟩
      obtain ⟨r1, r2⟩ := hran _ hx2
      have hpos : ∀ (u : UF.U), UF.Inv u E rt → u.n < 2 ^ fu → ∀ a, a < u.n → u.n < 2 ^ fu * u.sz a := fun u I h a ha =>
        Nat.lt_of_lt_of_le h (Nat.le_mul_of_pos_right _ (I.pos a ha))
      obtain ⟨u1, e1, I1, n1, s1, _⟩ := UF.setFor_spec fu u (vm x.2.a) I r1 (hpos u I hfu _ r1)
      obtain ⟨u2, e2, I2, n2, s2, _⟩ := UF.setFor_spec fu u1 (vm x.2.b) I1 (by omega) (hpos u1 I1 (by omega) _ (by omega))
      dsimp only
      rw [e1]
      simp only [Option.bind_some]
      rw [e2]
      simp only [Option.bind_some]
      by_cases hr : rt (vm x.2.a) = rt (vm x.2.b)
      · rw [if_neg (by simpa using hr)]
        have hcn := (I.conn _ _ r1 r2).1 hr
        obtain ⟨q1, q2⟩ := ih x.1 u2 ne l E rt F (by omega) ⟨w', o'⟩ I2 (by omega) (fun e he => by rw [n2, n1]; exact hran e (hsub e he))
          (fun e he => hspl e (hF e he) (fun h => hind.not_conn e he (by rw [h]; exact hcn))) hind
        exact ⟨q1, fun h => q2 ⟨h.1, fun e he => h.2 e (hsub e he)⟩⟩
      · rw [if_pos (by simpa using hr)]
        have hcn : ¬ UF.Conn E (vm x.2.a) (vm x.2.b) := fun h => hr ((I.conn _ _ r1 r2).2 h)
        obtain ⟨u3, rt', m1, I3, n3, _⟩ := UF.merge_spec I2 (a := vm x.2.a) (b := vm x.2.b) (by omega) (by omega) (f := fu) (by omega)
        rw [m1]
        simp only [Option.bind_some]
        by_cases hne : F = []
        · subst hne
          refine ⟨fun h => ?_, fun h => ?_⟩
          · simp at h; exact absurd h.symm c1
          · have := h.2 _ hx2
            simp at this
            exact absurd this hcn
        obtain ⟨F1, f, F2, q1, q2, q3⟩ := hind.exchange (e := (vm x.2.a, vm x.2.b)) hne hcn
        have hfm : f ∈ F := by rw [q1]; simp
        have hlen : F.length = (F1 ++ F2).length + 1 := by rw [q1]; simp; omega
        obtain ⟨p1, p2⟩ := ih x.1 u3 (ne + 1) (l + x.2.w) (E ++ [(vm x.2.a, vm x.2.b)]) rt' (F1 ++ F2) (by omega) ⟨w', o'⟩ I3 (by omega)
          (fun e he => by rw [n3, n2, n1]; exact hran e (hsub e he)) (fun e he => by
            refine hspl e (hF e ?_) (fun h => q2.not_conn e he (by rw [h]; exact .edge (by simp)))
            rw [q1]
            rcases List.mem_append.1 he with h | h <;> simp [h]) q2
        constructor
        · intro h
          obtain ⟨r, g1, g2⟩ := p1 (by rw [h, hlen]; simp; omega)
          refine ⟨r, g1, ?_⟩
          have hw : wsum F = wsum (F1 ++ F2) + f.w := by rw [q1, wsum_app, wsum_app, wsum_cons]; omega
          have := hmin f (hF f hfm)
          omega
        · intro h
          refine p2 ⟨by have := h.1; rw [hlen] at this; simp at this ⊢; omega, fun e he => ?_⟩
          have h5 := q3 (h.2 _ hx2)
          exact (h5 _ _).2 (h.2 e (hsub e he))
    · rw [if_neg c1]
      have c1 : (ne : Int) = need := Decidable.not_not.1 c1
      refine ⟨fun h => ⟨l, rfl, ?_⟩, fun h => by have := h.1; omega⟩
      have : F = [] := List.length_eq_zero_iff.1 (by omega)
      subst this
      simp [wsum]

variable (t : Tsp4)

/-- The loop of tsp_test2 along a way: defined and below every simple way with the wanted number of arcs;
running out of arcs if a way through all the cities has fewer. -/
theorem Tsp4.mst2_way {V src sink hops : Nat} (hsrc : src < t.nv) {a : Nat} {p : List Nat} (hn : (a :: p).Nodup)
    (hm : ∀ i, i ∈ a :: p → i ∈ t.verts V src sink) :
    ((t.nv : Int) - hops = p.length → ∃ m, t.mst2 V src sink hops = some m ∧ m ≤ t.length a p) ∧
    ((p.length : Int) < (t.nv : Int) - hops → (∀ i, i ∈ t.verts V src sink → i ∈ a :: p) → t.mst2 V src sink hops = none) := by
  unfold Tsp4.mst2
  dsimp only
  have hne : t.verts V src sink ≠ [] := List.ne_nil_of_mem (t.mem_verts.2 ⟨hsrc, .inr (.inl rfl)⟩)
  generalize hts : t.verts V src sink = ts at *
  obtain ⟨h1, h2, h3⟩ := t.pq_spec hne
  obtain ⟨rt, I, hI⟩ := mkSets_inv ts UF.empty id UF.inv_empty
  have hI : (mkSets UF.empty ts).n = ts.length := by rw [hI]; simp [UF.empty]
  obtain ⟨g1, g2⟩ := mst2Loop_spec (vm := fun v => ts.idxOf v) (fu := ts.length) (need := (t.nv : Int) - hops) ((t.arcs ts).length + 1) (t.pq ts)
    (mkSets UF.empty ts) 0 0 [] rt (t.way a p) (by omega) h1 I (by rw [hI]; exact Nat.lt_two_pow_self)
    (fun e he => by
      have := t.mem_arcs.1 (h2.mem_iff.1 he)
      rw [hI]
      exact ⟨List.idxOf_lt_length_iff.2 this.1, List.idxOf_lt_length_iff.2 this.2.1⟩)
    (fun e he => h2.mem_iff.2 (t.way_mem p a ts hn hm e he))
    (by
      refine UF.ind_path (p.map fun v => ts.idxOf v) (ts.idxOf a) _ [] ?_ ?_ (fun _ _ e he => by simp at he)
      · exact t.way_ends (fun v => ts.idxOf v) p a
      · exact nodup_idx (a :: p) hm hn)
  rw [t.way_len] at g1 g2
  rw [t.way_w] at g1
  refine ⟨fun h => ?_, fun h h' => g2 ⟨by simpa using h, fun e he => ?_⟩⟩
  · obtain ⟨r, a1, a2⟩ := g1 (by simpa using h)
    exact ⟨r, a1, by omega⟩
  · have he := t.mem_arcs.1 (h2.mem_iff.1 he)
    rw [List.nil_append, t.way_ends (fun v => ts.idxOf v)]
    have hall : ∀ i, i ∈ ts → UF.Conn (UF.pairsOf ((a :: p).map fun v => ts.idxOf v)) (ts.idxOf a) (ts.idxOf i) := fun i hi =>
      conn_pairs (p.map fun v => ts.idxOf v) (ts.idxOf a) _ (fun e he => he) _ (by
        have := List.mem_map_of_mem (f := fun v => ts.idxOf v) (h' i hi)
        simpa using this)
    exact (hall e.a he.1).symm.trans (hall e.b he.2.1)

variable {J : Int}

/-- C94: tsp_test2, away from the root: the spanning-tree bound is defined and no completion beats it, for all
distances. -/
theorem tsp2_mst {x : Tsp4S} (hx : t.Ok x) (hx0 : x.e ≠ 0) {ls : List Int} {c : Int} (hp : Path (t.mdl J) x ls c (t.mdl J).stt) :
    ∃ m, t.mst2 x.A 0 x.e x.hops = some m ∧ m ≤ c := by
  have hlt := hx.hops
  obtain ⟨p, _, h2, h3, h4, rfl⟩ := (t.path_iff (t.nv - x.hops - 1) x ls c (by omega) hx).1 hp
  have h0p : 0 ∉ p := fun h => by have := (h4 0 h).2; rw [hx.depot] at this; simp at this
  have hep : x.e ∉ p := fun h => by have := (h4 _ h).2; rw [hx.cur] at this; simp at this
  refine (t.mst2_way (V := x.A) (src := 0) (sink := x.e) (hops := x.hops) (by omega) ?_ (fun i hi => ?_)).1 ?_
  · rw [← List.cons_append, List.nodup_append]
    refine ⟨List.nodup_cons.2 ⟨hep, h3⟩, by simp, fun a ha b hb hab => ?_⟩
    simp at hb
    subst hb
    subst hab
    rcases List.mem_cons.1 ha with h | h
    · exact hx0 h.symm
    · exact h0p h
  · rcases List.mem_cons.1 hi with rfl | hi
    · exact t.mem_verts.2 ⟨hx.lt, .inr (.inr rfl)⟩
    · rcases List.mem_append.1 hi with hi | hi
      · exact t.mem_verts.2 ⟨(h4 i hi).1, .inl (h4 i hi).2⟩
      · simp at hi; subst hi; exact t.mem_verts.2 ⟨by omega, .inr (.inl rfl)⟩
  · simp; omega

/-- C94 is false at the root of tsp_test2: on every instance the loop wants as many arcs as there are
cities, the tree has one fewer, and the heap is asked for an arc when it is empty. -/
theorem tsp2_mst_false (hn : 1 ≤ t.nv) (V : Nat) : t.mst2 V 0 0 0 = none := by
  cases hl : t.verts V 0 0 with
  | nil =>
    have : (0 : Nat) ∈ t.verts V 0 0 := t.mem_verts.2 ⟨by omega, .inr (.inl rfl)⟩
    rw [hl] at this; simp at this
  | cons a p =>
    have hnd := t.nodup_verts V 0 0
    refine (t.mst2_way (V := V) (src := 0) (sink := 0) (hops := 0) (by omega) (a := a) (p := p) (by rw [← hl]; exact hnd) (fun i hi => by rw [hl]; exact hi)).2
      ?_ (fun i hi => by rw [hl] at hi; exact hi)
    have : (t.verts V 0 0).length ≤ t.nv := by
      unfold Tsp4.verts
      exact Nat.le_trans (List.length_filter_le _ _) (by simp)
    rw [hl] at this
    simp at this ⊢
    omega

/-! ### The cheapest-arc bounds -/

theorem Tsp4.greedyC_way {ch : List Nat → Nat → Int} {V src sink hops : Nat} (hsrc : src < t.nv)
    (hch : ∀ ts i j, (∀ k, k ∈ ts → k < t.nv) → i ∈ ts → j ∈ ts → i ≠ j → ch ts i ≤ t.d i j) {p : List Nat} (hn : p.Nodup)
    (hm : ∀ i, i ∈ p → i ∈ t.verts V src sink ∧ i ≠ src) (hlen : t.nv - hops = p.length) :
    ∃ g, t.greedyC ch V src sink hops = some g ∧ ∀ (a : Nat) (q : List Nat), p = a :: q → g ≤ t.length a (q ++ [src]) := by
  unfold Tsp4.greedyC
  dsimp only
  have hms : src ∈ t.verts V src sink := t.mem_verts.2 ⟨hsrc, .inr (.inl rfl)⟩
  have hlt : ∀ k, k ∈ t.verts V src sink → k < t.nv := fun k hk => (t.mem_verts.1 hk).1
  generalize t.verts V src sink = ts at *
  obtain ⟨R, hR⟩ := perm_rest p (ts.filter fun i => decide (i ≠ src)) hn (fun i hi => by simpa using hm i hi)
  generalize hesd : (ts.filter fun i => decide (i ≠ src)).map (ch ts) = es
  have hes : es.Perm (p.map (ch ts) ++ R.map (ch ts)) := by
    rw [← hesd, ← List.map_append]; exact hR.map _
  have hle : t.nv - hops ≤ es.length := by rw [hes.length_eq]; simp; omega
  rw [if_pos hle]
  refine ⟨_, rfl, ?_⟩
  obtain ⟨s1, s2, _⟩ := MSort.mergeSort_sorts (le := fun a b : Int => a ≤ b) (cmp := fun a b : Int => decide (a < b))
    ⟨fun a b => by omega, fun a b c => by omega⟩ (fun a b => ⟨by simp; omega, by simp⟩) (fun i => es.getD i 0) es.length
  generalize MSort.mergeSort (fun a b : Int => decide (a < b)) (fun i => es.getD i 0) es.length = c at *
  rw [seg_self] at s1
  have h1 := take_sum_le (MSort.seg c 0 es.length) _ _ (seg_sorted c es.length es.length 0 (by omega) s2) (s1.trans hes)
  rw [List.length_map, ← hlen, seg_take c _ _ _ hle] at h1
  rw [foldl_add]
  simp only [Nat.zero_add] at h1
  intro a q hp
  have h2 : ∀ (q : List Nat) (a : Nat), (a :: q).Nodup → (∀ i, i ∈ a :: q → i ∈ ts ∧ i ≠ src) →
      ((a :: q).map (ch ts)).sum ≤ t.length a (q ++ [src]) := by
    intro q
    induction q with
    | nil =>
      intro a _ hm
      have := hch ts a src hlt (hm a (by simp)).1 hms (hm a (by simp)).2
      simp [Tsp4.length]; omega
    | cons b q ih =>
      intro a hn hm
      rw [List.nodup_cons] at hn
      have h1 := ih b hn.2 (fun i hi => hm i (List.mem_cons_of_mem _ hi))
      have h2 := hch ts a b hlt (hm a (by simp)).1 (hm b (by simp)).1 (fun h => hn.1 (by rw [h]; simp))
      rw [List.map_cons, List.sum_cons, List.cons_append, Tsp4.length]
      omega
  subst hp
  have := h2 q a hn hm
  have h1' : ((List.range (t.nv - hops)).map c).sum ≤ _ := h1
  omega

theorem Tsp4.greedyC_path {ch : List Nat → Nat → Int}
    (hch : ∀ ts i j, (∀ k, k ∈ ts → k < t.nv) → i ∈ ts → j ∈ ts → i ≠ j → ch ts i ≤ t.d i j)
    {x : Tsp4S} (hx : t.Ok x) (hx0 : x.e ≠ 0) {ls : List Int} {c : Int} (hp : Path (t.mdl J) x ls c (t.mdl J).stt) :
    ∃ g, t.greedyC ch x.A 0 x.e x.hops = some g ∧ g ≤ c := by
  have hlt := hx.hops
  obtain ⟨p, _, h2, h3, h4, rfl⟩ := (t.path_iff (t.nv - x.hops - 1) x ls c (by omega) hx).1 hp
  have h0p : 0 ∉ p := fun h => by have := (h4 0 h).2; rw [hx.depot] at this; simp at this
  have hep : x.e ∉ p := fun h => by have := (h4 _ h).2; rw [hx.cur] at this; simp at this
  obtain ⟨g, g1, g2⟩ := t.greedyC_way (V := x.A) (src := 0) (sink := x.e) (hops := x.hops) (by omega) hch (p := x.e :: p) (List.nodup_cons.2 ⟨hep, h3⟩)
    (fun i hi => by
      rcases List.mem_cons.1 hi with rfl | hi
      · exact ⟨t.mem_verts.2 ⟨hx.lt, .inr (.inr rfl)⟩, hx0⟩
      · exact ⟨t.mem_verts.2 ⟨(h4 i hi).1, .inl (h4 i hi).2⟩, fun h => h0p (h ▸ hi)⟩) (by simp; omega)
  exact ⟨g, g1, g2 x.e p rfl⟩

theorem Tsp4.greedyC_root {ch : List Nat → Nat → Int} (hn : 1 ≤ t.nv) (V : Nat) : t.greedyC ch V 0 0 0 = none := by
  unfold Tsp4.greedyC
  dsimp only
  rw [if_neg]
  rw [List.length_map]
  have hn' : ((t.verts V 0 0).filter fun i => decide (i ≠ 0)).Nodup := (t.nodup_verts V 0 0).filter _
  have h0 : (0 : Nat) ∉ (t.verts V 0 0).filter fun i => decide (i ≠ 0) := by simp
  obtain ⟨R, hR⟩ := perm_rest _ (List.range t.nv) (List.nodup_cons.2 ⟨h0, hn'⟩) (fun i hi => by
    rw [List.mem_range]
    rcases List.mem_cons.1 hi with rfl | hi
    · omega
    · exact (t.mem_verts.1 (List.mem_filter.1 hi).1).1)
  have := hR.length_eq
  simp only [List.length_cons, List.length_range, List.length_append] at this
  omega

theorem Tsp4.greedyC_end {ch : List Nat → Nat → Int} (V e : Nat) : t.greedyC ch V 0 e t.nv = some 0 := by
  unfold Tsp4.greedyC
  dsimp only
  rw [if_pos (by simp)]
  simp

/-- Dropping fractions lowers distances that are not negative. -/
theorem Tsp4.cheapestTw_le (hd : t.Nonneg) {u : Nat} (ts : List Nat) (i j : Nat) (hlt : ∀ k, k ∈ ts → k < t.nv) (hi : i ∈ ts)
    (h : j ∈ ts) (hij : i ≠ j) : t.cheapestTw u ts i ≤ t.d i j := by
  have tr : ∀ x : Int, 0 ≤ x → 0 ≤ x.tdiv u * u ∧ x.tdiv u * u ≤ x := by
    intro x hx
    rw [Int.tdiv_eq_ediv_of_nonneg hx]
    refine ⟨Int.mul_nonneg (Int.ediv_nonneg hx (Int.natCast_nonneg u)) (Int.natCast_nonneg u), ?_⟩
    by_cases hu : (u : Int) = 0
    · rw [hu]; simpa using hx
    · exact Int.ediv_mul_le _ hu
  have key : ∀ (l : List Nat) (r : Int), 0 ≤ r → (∀ j, j ∈ l → 0 ≤ t.d i j) →
      (l.foldl (fun r j => ((if r < t.d i j then r else t.d i j).tdiv u) * u) r ≤ r) ∧
      ∀ j, j ∈ l → l.foldl (fun r j => ((if r < t.d i j then r else t.d i j).tdiv u) * u) r ≤ t.d i j := by
    intro l
    induction l with
    | nil => intro r _ _; simp
    | cons x l ih =>
      intro r hr hl
      have hx := hl x (by simp)
      rw [List.foldl_cons]
      generalize hm : (if r < t.d i x then r else t.d i x) = m
      have h3 : 0 ≤ m ∧ m ≤ r ∧ m ≤ t.d i x := by rw [← hm]; split <;> omega
      obtain ⟨t1, t2⟩ := tr m h3.1
      obtain ⟨h1, h2⟩ := ih (m.tdiv u * u) t1 (fun j hj => hl j (by simp [hj]))
      refine ⟨by omega, fun j hj => ?_⟩
      rcases List.mem_cons.1 hj with rfl | hj
      · omega
      · exact h2 j hj
  exact (key _ _ (by omega) (fun k hk => hd i k (hlt i hi) (hlt k (List.mem_filter.1 hk).1))).2 j (by simp [h, hij])

/-- The loop of tsp_test3 leaves a distance, not `INF`, when there is another city. -/
theorem Tsp4.cheapest3_some {ts : List Nat} {i j : Nat} (h : j ∈ ts) (hij : i ≠ j) :
    ∃ v, t.cheapest3 ts i = some v ∧ v ≤ t.d i j := by
  have k1 : ∀ (l : List Nat) (v : Int), ∃ v', l.foldl (fun (r : Option Int) j => if i ≠ j then (match r with
      | none => some (t.d i j)
      | some v => if t.d i j < v then some (t.d i j) else some v) else r) (some v) = some v' ∧ v' ≤ v ∧ ∀ j, j ∈ l → i ≠ j → v' ≤ t.d i j := by
    intro l
    induction l with
    | nil => intro v; exact ⟨v, rfl, by omega, by simp⟩
    | cons x l ih =>
      intro v
      rw [List.foldl_cons]
      by_cases hx : i ≠ x
      · rw [if_pos hx]
        dsimp only
        by_cases hd : t.d i x < v
        · rw [if_pos hd]
          obtain ⟨v', a, b, c⟩ := ih (t.d i x)
          refine ⟨v', a, by omega, fun j hj hij => ?_⟩
          rcases List.mem_cons.1 hj with rfl | hj
          · exact b
          · exact c j hj hij
        · rw [if_neg hd]
          obtain ⟨v', a, b, c⟩ := ih v
          refine ⟨v', a, b, fun j hj hij => ?_⟩
          rcases List.mem_cons.1 hj with rfl | hj
          · omega
          · exact c j hj hij
      · rw [if_neg hx]
        obtain ⟨v', a, b, c⟩ := ih v
        refine ⟨v', a, b, fun j hj hij => ?_⟩
        rcases List.mem_cons.1 hj with rfl | hj
        · exact absurd hij hx
        · exact c j hj hij
  have k2 : ∀ (l : List Nat), j ∈ l → ∃ v', l.foldl (fun (r : Option Int) j => if i ≠ j then (match r with
      | none => some (t.d i j)
      | some v => if t.d i j < v then some (t.d i j) else some v) else r) none = some v' ∧ v' ≤ t.d i j := by
    intro l
    induction l with
    | nil => simp
    | cons x l ih =>
      intro hj
      rw [List.foldl_cons]
      by_cases hx : i ≠ x
      · rw [if_pos hx]
        dsimp only
        obtain ⟨v', a, b, c⟩ := k1 l (t.d i x)
        refine ⟨v', a, ?_⟩
        rcases List.mem_cons.1 hj with rfl | hj
        · exact b
        · exact c j hj hij
      · rw [if_neg hx]
        rcases List.mem_cons.1 hj with rfl | hj
        · exact absurd hij hx
        · exact ih hj
  exact k2 ts h

/-! ### One shape for the programs over the states of tsp_test4 -/

/-- The lambdas the programs share, with any merge and local bound. -/
def Tsp4.gen (t : Tsp4) (sm : Tsp4S → Tsp4S → Option Tsp4S) (lc : Option (Tsp4S → Ctx → Int)) : Mdl Tsp4S :=
  { t.mdl 0 with
    smf := sm
    loc := lc }

variable {sm : Tsp4S → Tsp4S → Option Tsp4S} {lc : Option (Tsp4S → Ctx → Int)}

theorem Tsp4.gen_path {x y : Tsp4S} {ls : List Int} {c : Int} : Path (t.gen sm lc) x ls c y ↔ Path (t.mdl J) x ls c y := by
  constructor
  · intro h
    induction h with
    | nil => exact .nil _
    | cons h _ ih => exact Path.cons (m := t.mdl J) h ih
  · intro h
    induction h with
    | nil => exact .nil _
    | cons h _ ih => exact Path.cons (m := t.gen sm lc) h ih

theorem Tsp4.gen_eqs {x : Tsp4S} : (t.gen sm lc).eqs x = (t.mdl J).eqs x := rfl

theorem Tsp4.gen_relx (hsm : ∀ a b c, sm a b = some c → a.e = b.e ∧ a.hops = b.hops ∧ c = ⟨a.A &&& b.A, a.e, a.hops⟩) {D : Int} (hD : t.Bnd D)
    {s0 x : Tsp4S} {v0 v : Int} (h0 : t.Ok s0) (hs0 : s0.e = 0 → s0.A = 1) (hv0 : v0 ≤ s0.hops * D)
    (h : Relx (t.gen sm lc) t.rank s0 v0 x v) : ((t.Ok x ∧ (x.e = 0 → x.A = 1)) ∨ x = (t.mdl 0).stt) ∧ v ≤ x.hops * D := by
  obtain ⟨d1, d2, _⟩ := hD
  have hf : ∀ {x : Tsp4S}, (t.gen sm lc).eqs x = false → x ≠ (t.mdl 0).stt := by
    intro x hx h
    rw [h] at hx
    simp [Tsp4.gen, Tsp4.mdl] at hx
  have mrg : ∀ {a b : Tsp4S}, t.Ok a ∧ (a.e = 0 → a.A = 1) → t.Ok b ∧ (b.e = 0 → b.A = 1) → a.e = b.e →
      t.Ok ⟨a.A &&& b.A, a.e, a.hops⟩ ∧ (a.e = 0 → a.A &&& b.A = 1) := by
    intro a b oa ob e1
    refine ⟨oa.1.merge ob.1 e1, fun h => ?_⟩
    rw [oa.2 h, ob.2 (e1 ▸ h)]; rfl
  induction h with
  | swap _ _ hsw _ ihsw => obtain rfl := (same_iff _ _).1 hsw; exact ihsw
  | root => exact ⟨.inl ⟨h0, hs0⟩, hv0⟩
  | @step x x' l v _ hst ih =>
    obtain ⟨i1, i3⟩ := ih
    have hx : t.Ok x := (i1.resolve_right (hf hst.1)).1
    have hlt := hx.hops
    have e1 : ((x.hops + 1 : Nat) : Int) * D = x.hops * D + D := by
      rw [Int.natCast_add, Int.add_mul]; simp
    rcases (t.step_iff (J := 0) hx).1 hst with ⟨h1, h2, h3⟩ | ⟨h1, i, h2, h3, h4, h7⟩
    · subst h3 h2
      refine ⟨.inr rfl, ?_⟩
      have := d2 x.e 0 hx.lt (by omega) (by have := hx.root; omega)
      show v + t.d x.e 0 ≤ ((t.nv : Nat) : Int) * D
      rw [h1, e1]
      omega
    · subst h7 h2
      refine ⟨.inl ⟨hx.step h1 h3 h4, fun h => ?_⟩, ?_⟩
      · dsimp only at h
        rw [h, hx.depot] at h4
        simp at h4
      · have := d2 x.e i hx.lt h3 (.inl fun h => by rw [← h, hx.cur] at h4; cases h4)
        show v + t.d x.e (i : Int).toNat ≤ ((x.hops + 1 : Nat) : Int) * D
        rw [e1, show ((i : Int)).toNat = i by omega]
        omega
  | @mergeL a b c v v' _ _ ha hb hr hm ih1 ih2 =>
    obtain ⟨e1, e2, rfl⟩ := hsm _ _ _ hm
    exact ⟨.inl (mrg (ih1.1.resolve_right (hf ha)) (ih2.1.resolve_right (hf hb)) e1), ih1.2⟩
  | @mergeR a b c v v' _ _ ha hb hr hm ih1 ih2 =>
    obtain ⟨e1, e2, rfl⟩ := hsm _ _ _ hm
    exact ⟨.inl (mrg (ih1.1.resolve_right (hf ha)) (ih2.1.resolve_right (hf hb)) e1), by dsimp only; rw [e2]; exact ih2.2⟩

/-- A merge that intersects keeps every completion of both states. -/
theorem Tsp4.gen_merge (hsm : ∀ a b c, sm a b = some c → a.e = b.e ∧ a.hops = b.hops ∧ c = ⟨a.A &&& b.A, a.e, a.hops⟩)
    {a b c : Tsp4S} (ha : t.Ok a) (hb : t.Ok b) (hm : sm a b = some c) {ls : List Int} {v : Int}
    (h : Path (t.gen sm lc) a ls v (t.mdl 0).stt ∨ Path (t.gen sm lc) b ls v (t.mdl 0).stt) : Path (t.gen sm lc) c ls v (t.mdl 0).stt := by
  obtain ⟨e1, e2, rfl⟩ := hsm _ _ _ hm
  have hc := ha.merge hb e1
  rcases h with hp | hp
  · exact t.gen_path.2 (t.mono (J := 0) ha hc (fun i hi => by rw [Nat.testBit_and, Bool.and_eq_true] at hi; exact hi.1) (t.gen_path.1 hp))
  · rw [e1, e2] at hc ⊢
    exact t.gen_path.2 (t.mono (J := 0) hb hc (fun i hi => by rw [Nat.testBit_and, Bool.and_eq_true] at hi; exact hi.2) (t.gen_path.1 hp))

/-- The local bound never exceeds a completion. -/
def Tsp4.Low (t : Tsp4) (lc : Option (Tsp4S → Ctx → Int)) : Prop :=
  ∀ f, lc = some f → ∀ x y c, ((t.Ok x ∧ (x.e = 0 → x.A = 1)) ∨ x = (t.mdl 0).stt) → Val (t.mdl 0) x c → f x y ≤ c

theorem Tsp4.gen_layered (hsm : ∀ a b c, sm a b = some c → a.e = b.e ∧ a.hops = b.hops ∧ c = ⟨a.A &&& b.A, a.e, a.hops⟩) (hlc : t.Low lc) {D : Int} (hD : t.Bnd D)
    {s0 : Tsp4S} {v0 : Int} (h0 : t.Ok s0) (hs0 : s0.e = 0 → s0.A = 1) (hv0 : v0 ≤ s0.hops * D) :
    Layered (t.gen sm lc) t.rank s0 v0 where
  sink := by simp [Tsp4.gen, Tsp4.mdl]
  src := t.eqs_false (J := 0) h0.hops
  range := fun x v h => by
    obtain ⟨h1, h3⟩ := t.gen_relx hsm hD h0 hs0 hv0 h
    obtain ⟨d1, _, d3⟩ := hD
    have hle : (x.hops : Int) ≤ t.nv := by
      rcases h1 with h | h
      · have := h.1.hops; omega
      · rw [h]; simp [Tsp4.mdl]
    have := Int.mul_le_mul_of_nonneg_right hle d1
    simp [Tsp4.gen, Tsp4.mdl, Sense.better, Sense.best0]; omega
  step := fun x v l x' h hst => by
    have hx : t.Ok x := by
      rcases (t.gen_relx hsm hD h0 hs0 hv0 h).1 with a | a
      · exact a.1
      · have := hst.1; rw [a] at this; simp [Tsp4.gen, Tsp4.mdl] at this
    rcases (t.step_iff (J := 0) hx).1 hst with ⟨_, _, h3⟩ | ⟨_, i, _, _, _, h7⟩
    · left; rw [h3]; simp [Tsp4.gen, Tsp4.mdl]
    · right; rw [h7]; rfl
  merge := fun a b c va vb ra rb ha hb hr hm => by
    have la : t.Ok a := ((t.gen_relx hsm hD h0 hs0 hv0 ra).1.resolve_right (fun x => by rw [x] at ha; simp [Tsp4.gen, Tsp4.mdl] at ha)).1
    have lb : t.Ok b := ((t.gen_relx hsm hD h0 hs0 hv0 rb).1.resolve_right (fun x => by rw [x] at hb; simp [Tsp4.gen, Tsp4.mdl] at hb)).1
    have hc : c = ⟨a.A &&& b.A, a.e, a.hops⟩ := (hsm _ _ _ hm).2.2
    refine ⟨t.eqs_false (J := 0) (by rw [hc]; exact la.hops), by rw [hc]; rfl, ?_, ?_⟩
    · rintro v ⟨ls, hp⟩
      exact ⟨v, ⟨ls, t.gen_merge hsm la lb hm (.inl hp)⟩, by rw [Sense.betterEQ_iff]; omega⟩
    · rintro v ⟨ls, hp⟩
      exact ⟨v, ⟨ls, t.gen_merge hsm la lb hm (.inr hp)⟩, by rw [Sense.betterEQ_iff]; omega⟩
  local_ := fun f hf x v y c hr hv => by
    obtain ⟨ls, hp⟩ := hv
    have := hlc f hf x y c (t.gen_relx hsm hD h0 hs0 hv0 hr).1 ⟨ls, t.gen_path.1 hp⟩
    simp [Tsp4.gen, Tsp4.mdl, Sense.betterEQ]
    omega
  dom := fun f hf => by simp [Tsp4.gen, Tsp4.mdl] at hf

/-- A bound that is below the completions away from the depot, is 0 at the end, and reads `J` at the
root. -/
theorem Tsp4.low_of {b : Tsp4S → Option Int} (hb : ∀ {x : Tsp4S} {ls : List Int} {c : Int}, t.Ok x → x.e ≠ 0 → Path (t.mdl 0) x ls c (t.mdl 0).stt → ∃ v, b x = some v ∧ v ≤ c)
    (hr : ∀ V, 1 ≤ t.nv → b ⟨V, 0, 0⟩ = none) (he : b (t.mdl 0).stt = some 0) (hJ : ∀ ls c, t.Tour ls c → J ≤ c) :
    t.Low (some fun x _ => (b x).getD J) := by
  intro f hf x y c hx hv
  cases hf
  obtain ⟨ls, hp⟩ := hv
  dsimp only
  rcases hx with ⟨ok, hA⟩ | rfl
  · by_cases h0 : x.e = 0
    · have hh := ok.root h0
      have hn : 1 ≤ t.nv := by have := ok.hops; omega
      have hxe : x = ⟨1, 0, 0⟩ := by
        cases x with
        | mk A e hops => dsimp only at *; rw [hA h0, h0, hh]
      subst hxe
      rw [hr 1 hn]
      exact hJ ls c ((t.sol_iff (J := 0) hn ls c).1 hp)
    · obtain ⟨v, h1, h2⟩ := hb ok h0 hp
      rw [h1]; exact h2
  · obtain ⟨_, e2, _⟩ := hp.of_terminal (by simp [Tsp4.mdl])
    rw [he, e2]; simp

/-- The programs over these states: tsp_test4, tsptw and tsp_test2. -/
def Tsp4.Progs (t : Tsp4) (u : Nat) (J : Int) (m : Mdl Tsp4S) : Prop := m = t.mdl J ∨ m = t.mdlTw u J ∨ m = t.mdl2 J

theorem Tsp4.Progs.gen {t : Tsp4} {u : Nat} {m : Mdl Tsp4S} (hm : t.Progs u J m) : ∃ sm lc, m = t.gen sm lc ∧
    ∀ a b c, sm a b = some c → a.e = b.e ∧ a.hops = b.hops ∧ c = ⟨a.A &&& b.A, a.e, a.hops⟩ := by
  have h2 : ∀ a b c : Tsp4S, (if a.e = b.e ∧ a.hops = b.hops then some (⟨a.A &&& b.A, a.e, a.hops⟩ : Tsp4S) else none) = some c →
      a.e = b.e ∧ a.hops = b.hops ∧ c = ⟨a.A &&& b.A, a.e, a.hops⟩ := by
    intro a b c h
    split at h
    · rename_i hc
      simp at h
      exact ⟨hc.1, hc.2, h.symm⟩
    · cases h
  rcases hm with rfl | rfl | rfl
  · exact ⟨_, _, rfl, fun a b c h => t.smf_some (J := J) h⟩
  · exact ⟨_, _, rfl, h2⟩
  · exact ⟨_, _, rfl, h2⟩

theorem Tsp4.Progs.low {t : Tsp4} {u : Nat} {m : Mdl Tsp4S} (hm : t.Progs u J m) (hd : t.Nonneg) (hJ : ∀ ls c, t.Tour ls c → J ≤ c) :
    t.Low m.loc := by
  rcases hm with rfl | rfl | rfl
  · refine t.low_of (b := t.bound) (fun ok h0 hp => tsp4_bound_partial t hd ok h0 hp) (fun V hn => ?_) (t.bound_stt 0) hJ
    unfold Tsp4.bound
    rw [t.greedy_root hn]
    cases t.mst V 0 0 0 <;> rfl
  · exact t.low_of (b := fun x => t.greedyC (t.cheapestTw u) x.A 0 x.e x.hops) (fun ok h0 hp => t.greedyC_path (t.cheapestTw_le hd) ok h0 hp)
      (fun V hn => t.greedyC_root hn V) (t.greedyC_end _ _) hJ
  · refine t.low_of (b := fun x => t.mst2 x.A 0 x.e x.hops) (fun ok h0 hp => tsp2_mst t ok h0 hp) (fun V hn => tsp2_mst_false t hn V) ?_ hJ
    show t.mst2 t.all 0 0 t.nv = some 0
    unfold Tsp4.mst2
    dsimp only
    unfold mst2Loop
    rw [if_neg]
    simp

theorem Tsp4.Progs.layered {t : Tsp4} {u : Nat} {m : Mdl Tsp4S} (hm : t.Progs u J m) (hd : t.Nonneg) {D : Int} (hD : t.Bnd D)
    (hJ : ∀ ls c, t.Tour ls c → J ≤ c) {s0 : Tsp4S} {v0 : Int} (h0 : t.Ok s0) (hs0 : s0.e = 0 → s0.A = 1) (hv0 : v0 ≤ s0.hops * D) :
    Layered m t.rank s0 v0 := by
  have hl := hm.low hd hJ
  obtain ⟨sm, lc, rfl, h2⟩ := hm.gen
  exact t.gen_layered h2 hl hD h0 hs0 hv0

/-- C93: the solutions of each of the three models are the tours. -/
theorem tspv_sol {u : Nat} {m : Mdl Tsp4S} (hm : t.Progs u J m) (hn : 1 ≤ t.nv) (ls : List Int) (c : Int) : Sol m ls c ↔ t.Tour ls c := by
  obtain ⟨sm, lc, rfl, _⟩ := hm.gen
  rw [← t.sol_iff (J := 0) hn]
  exact t.gen_path

/-- C93: merged states keep every completion of both states, at the same length. -/
theorem tspv_merge_valid {u : Nat} {m : Mdl Tsp4S} (hm : t.Progs u J m) {a b c : Tsp4S} (ha : t.Ok a) (hb : t.Ok b) (hc : m.smf a b = some c)
    {ls : List Int} {v : Int} (h : Path m a ls v m.stt ∨ Path m b ls v m.stt) : Path m c ls v m.stt := by
  obtain ⟨sm, lc, rfl, h2⟩ := hm.gen
  exact t.gen_merge h2 ha hb hc h

/-! ### tsp_test3 -/

/-- States of tsp_test3: both sets hold the depot and the current city; at least as many cities are on
some way as hops were made. -/
structure Tsp4.Ok3 (t : Tsp4) (x : Tsp3S) : Prop where
  ok : t.Ok ⟨x.A, x.e, x.hops⟩
  sub : ∀ i, x.A.testBit i = true → x.S.testBit i = true
  card : x.hops + 1 ≤ t.card x.S

theorem Tsp4.eqs3_false {x : Tsp3S} (hx : x.hops < t.nv) : (t.mdl3 J).eqs x = false := by simp [Tsp4.mdl3]; omega

/-- The cities the label generator leaves out. -/
def Tsp4.out3 (t : Tsp4) (x : Tsp3S) : Nat := if (t.card x.S : Int) - 1 = x.hops then x.S else x.A

theorem Tsp4.out3_sub {x : Tsp3S} (hx : t.Ok3 x) {i : Nat} (h : (t.out3 x).testBit i = false) : x.A.testBit i = false := by
  unfold Tsp4.out3 at h
  split at h
  · cases hA : x.A.testBit i with
    | false => rfl
    | true => rw [hx.sub i hA] at h; cases h
  · exact h

theorem Tsp4.step3_iff {x x' : Tsp3S} {l : Int} (hx : t.Ok3 x) :
    Step (t.mdl3 J) x l x' ↔ (t.nv = x.hops + 1 ∧ l = 0 ∧ x' = (t.mdl3 J).stt) ∨
      (x.hops + 1 < t.nv ∧ ∃ i : Nat, l = i ∧ i < t.nv ∧ (t.out3 x).testBit i = false ∧ x' = ⟨x.A ||| 2 ^ i, x.S ||| 2 ^ i, i, x.hops + 1⟩) := by
  have hlt : x.hops < t.nv := hx.ok.hops
  unfold Step
  rw [t.eqs3_false hlt]
  by_cases hc : x.hops + 1 ≥ t.nv
  · have hl : (t.mdl3 J).lgf x = [0] := by simp only [Tsp4.mdl3]; rw [if_pos hc]
    rw [hl, List.mem_singleton]
    constructor
    · rintro ⟨_, rfl, h⟩
      simp [Tsp4.mdl3] at h
      exact .inl ⟨by omega, rfl, h.symm⟩
    · rintro (⟨_, rfl, h⟩ | ⟨h, _⟩)
      · exact ⟨rfl, rfl, by rw [h]; rfl⟩
      · omega
  · have hl : (t.mdl3 J).lgf x = ((List.range t.nv).filter fun i => !(t.out3 x).testBit i).map (fun i : Nat => (i : Int)) := by
      simp only [Tsp4.mdl3, Tsp4.out3]
      rw [if_neg hc]
      split <;> rfl
    rw [hl, List.mem_map]
    have hi0 : ∀ i : Nat, (t.out3 x).testBit i = false → ¬ ((i : Int) = 0) := by
      intro i h h0
      have : i = 0 := by omega
      have h := t.out3_sub hx h
      rw [this] at h
      have := hx.ok.depot
      dsimp only at this
      rw [this] at h
      cases h
    constructor
    · rintro ⟨_, ⟨i, hi, rfl⟩, h⟩
      simp only [List.mem_filter, List.mem_range, Bool.not_eq_true'] at hi
      refine .inr ⟨by omega, i, rfl, hi.1, hi.2, ?_⟩
      simp only [Tsp4.mdl3] at h
      rw [if_neg (hi0 i hi.2)] at h
      simpa using h.symm
    · rintro (⟨h, _⟩ | ⟨_, i, rfl, h2, h3, h6⟩)
      · omega
      · refine ⟨rfl, ⟨i, ?_, rfl⟩, ?_⟩
        · simp only [List.mem_filter, List.mem_range, Bool.not_eq_true']
          exact ⟨h2, h3⟩
        · simp only [Tsp4.mdl3]
          rw [if_neg (hi0 i h3), h6]; simp

/-- Counting: a larger set has at least as many members, and no more only if it is no larger. -/
theorem Tsp4.card_mono {A B : Nat} (h : ∀ i, A.testBit i = true → B.testBit i = true) : t.card A ≤ t.card B := by
  unfold Tsp4.card
  exact List.countP_mono_left (fun i _ hi => h i hi)

theorem Tsp4.card_new {A B i : Nat} (h : ∀ i, A.testBit i = true → B.testBit i = true) (hi : i < t.nv) (h1 : A.testBit i = false) (h2 : B.testBit i = true) :
    t.card A + 1 ≤ t.card B := by
  unfold Tsp4.card
  have key : ∀ (L : List Nat), i ∈ L → L.countP (fun i => A.testBit i) + 1 ≤ L.countP (fun i => B.testBit i) := by
    intro L
    induction L with
    | nil => simp
    | cons x L ih =>
      intro hm
      rw [List.countP_cons, List.countP_cons]
      rcases List.mem_cons.1 hm with rfl | hm
      · have := List.countP_mono_left (l := L) (p := fun i => A.testBit i) (q := fun i => B.testBit i) (fun i _ hi => h i hi)
        rw [h1, h2]; simp; omega
      · have := ih hm
        cases hx : A.testBit x with
        | false => simp; omega
        | true => rw [h x hx]; simp; omega
  exact key _ (List.mem_range.2 hi)

theorem Tsp4.Ok3.step {t : Tsp4} {x : Tsp3S} (hx : t.Ok3 x) {i : Nat} (h1 : x.hops + 1 < t.nv) (h2 : i < t.nv) (h3 : (t.out3 x).testBit i = false) :
    t.Ok3 ⟨x.A ||| 2 ^ i, x.S ||| 2 ^ i, i, x.hops + 1⟩ := by
  refine ⟨hx.ok.step h1 h2 (t.out3_sub hx h3), fun j hj => ?_, ?_⟩
  · dsimp only at hj ⊢
    rw [Nat.testBit_or, Bool.or_eq_true] at hj ⊢
    exact hj.imp_left (hx.sub j)
  · dsimp only
    have hs : ∀ j, x.S.testBit j = true → (x.S ||| 2 ^ i).testBit j = true := fun j hj => by rw [Nat.testBit_or, hj]; rfl
    have hc := hx.card
    by_cases he : (t.card x.S : Int) - 1 = x.hops
    · unfold Tsp4.out3 at h3
      rw [if_pos he] at h3
      have := t.card_new hs h2 h3 (by rw [Nat.testBit_or, Nat.testBit_two_pow_self]; simp)
      omega
    · have := t.card_mono hs
      omega

/-- One state allows at least what another does: it has fewer cities on all ways and more on some. -/
structure Tsp3S.Looser (a b : Tsp3S) : Prop where
  e : a.e = b.e
  hops : a.hops = b.hops
  A : ∀ i, a.A.testBit i = true → b.A.testBit i = true
  S : ∀ i, b.S.testBit i = true → a.S.testBit i = true

theorem Tsp4.looser_out {a b : Tsp3S} (hb : t.Ok3 b) (h : a.Looser b) {i : Nat} (hi : i < t.nv) (ho : (t.out3 b).testBit i = false) :
    (t.out3 a).testBit i = false := by
  have hA := t.out3_sub hb ho
  have h1 := t.card_mono h.S
  have h2 := hb.card
  have h3 := h.hops
  unfold Tsp4.out3
  split
  · rename_i hc
    cases hs : a.S.testBit i with
    | false => rfl
    | true =>
      exfalso
      have heq : (t.card b.S : Int) - 1 = b.hops := by omega
      have hbs : b.S.testBit i = false := by
        unfold Tsp4.out3 at ho
        rwa [if_pos heq] at ho
      have := t.card_new h.S hi hbs hs
      omega
  · cases hs : a.A.testBit i with
    | false => rfl
    | true => rw [h.A i hs] at hA; cases hA

theorem Tsp4.looser_path {z : Tsp3S} : ∀ {b : Tsp3S} {ls : List Int} {c : Int}, Path (t.mdl3 J) b ls c z → z = (t.mdl3 J).stt →
    ∀ a, t.Ok3 a → t.Ok3 b → a.Looser b → Path (t.mdl3 J) a ls c z := by
  intro b ls c hp
  induction hp with
  | nil s =>
    intro hz a ha hb _
    have := hb.ok.hops
    rw [hz] at this
    simp [Tsp4.mdl3] at this
  | @cons s s' z l ls c hst hp ih =>
    intro hz a ha hb hl
    have hcost : (t.mdl3 J).stc s l = (t.mdl3 J).stc a l := by simp only [Tsp4.mdl3]; rw [hl.e]
    rw [hcost]
    rcases (t.step3_iff hb).1 hst with ⟨h1, h2, h3⟩ | ⟨h1, i, h2, h3, h4, h5⟩
    · refine Path.cons (s' := s') ?_ hp
      rw [t.step3_iff ha]
      exact .inl ⟨by rw [hl.hops]; exact h1, h2, h3⟩
    · have ho := t.looser_out hb hl h3 h4
      subst h5
      refine Path.cons ((t.step3_iff ha).2 (.inr ⟨by rw [hl.hops]; exact h1, i, h2, h3, ho, rfl⟩)) (ih hz _ (ha.step (by rw [hl.hops]; exact h1) h3 ho) (hb.step h1 h3 h4) ?_)
      refine ⟨rfl, by dsimp only; rw [hl.hops], fun j hj => ?_, fun j hj => ?_⟩
      · dsimp only at hj ⊢
        rw [Nat.testBit_or, Bool.or_eq_true] at hj ⊢
        exact hj.imp_left (hl.A j)
      · dsimp only at hj ⊢
        rw [Nat.testBit_or, Bool.or_eq_true] at hj ⊢
        exact hj.imp_left (hl.S j)

theorem Tsp4.smf3_some {a b c : Tsp3S} (hm : (t.mdl3 J).smf a b = some c) : a.e = b.e ∧ a.hops = b.hops ∧ c = ⟨a.A &&& b.A, a.S ||| b.S, a.e, a.hops⟩ := by
  simp only [Tsp4.mdl3] at hm
  split at hm
  · rename_i hc
    simp at hm
    exact ⟨hc.1, hc.2, hm.symm⟩
  · simp at hm

theorem Tsp4.Ok3.merge {t : Tsp4} {a b : Tsp3S} (ha : t.Ok3 a) (hb : t.Ok3 b) (he : a.e = b.e) : t.Ok3 ⟨a.A &&& b.A, a.S ||| b.S, a.e, a.hops⟩ := by
  refine ⟨ha.ok.merge hb.ok he, fun i hi => ?_, ?_⟩
  · dsimp only at hi ⊢
    rw [Nat.testBit_and, Bool.and_eq_true] at hi
    rw [Nat.testBit_or, ha.sub i hi.1]; rfl
  · dsimp only
    have := t.card_mono (A := a.S) (B := a.S ||| b.S) (fun i hi => by rw [Nat.testBit_or, hi]; rfl)
    have := ha.card
    omega

theorem Tsp4.looser_merge {a b : Tsp3S} (he : a.e = b.e) (hh : a.hops = b.hops) :
    (⟨a.A &&& b.A, a.S ||| b.S, a.e, a.hops⟩ : Tsp3S).Looser a ∧ (⟨a.A &&& b.A, a.S ||| b.S, a.e, a.hops⟩ : Tsp3S).Looser b := by
  refine ⟨⟨rfl, rfl, fun i hi => ?_, fun i hi => ?_⟩, ⟨he, hh, fun i hi => ?_, fun i hi => ?_⟩⟩ <;> dsimp only at hi ⊢
  · rw [Nat.testBit_and, Bool.and_eq_true] at hi; exact hi.1
  · rw [Nat.testBit_or, hi]; rfl
  · rw [Nat.testBit_and, Bool.and_eq_true] at hi; exact hi.2
  · rw [Nat.testBit_or, hi, Bool.or_true]

/-- C93: tsp_test3: merged states keep every completion of both states, at the same length, although the
labels of a state with few cities on some way leave those out. -/
theorem tsp3_merge_valid {a b c : Tsp3S} (ha : t.Ok3 a) (hb : t.Ok3 b) (hc : (t.mdl3 J).smf a b = some c)
    {ls : List Int} {v : Int} (h : Path (t.mdl3 J) a ls v (t.mdl3 J).stt ∨ Path (t.mdl3 J) b ls v (t.mdl3 J).stt) :
    Path (t.mdl3 J) c ls v (t.mdl3 J).stt := by
  obtain ⟨e1, e2, rfl⟩ := t.smf3_some hc
  obtain ⟨l1, l2⟩ := Tsp4.looser_merge e1 e2
  rcases h with h | h
  · exact t.looser_path h rfl _ (ha.merge hb e1) ha l1
  · exact t.looser_path h rfl _ (ha.merge hb e1) hb l2

/-- Completions in tsp_test3 are completions in tsp_test4. -/
theorem Tsp4.path3_to {J' : Int} {z : Tsp3S} : ∀ {x : Tsp3S} {ls : List Int} {c : Int}, Path (t.mdl3 J) x ls c z → z = (t.mdl3 J).stt → t.Ok3 x →
    Path (t.mdl J') ⟨x.A, x.e, x.hops⟩ ls c (t.mdl J').stt := by
  intro x ls c hp
  induction hp with
  | nil s =>
    intro hz hb
    have := hb.ok.hops
    rw [hz] at this
    simp [Tsp4.mdl3] at this
  | @cons s s' z l ls c hst hp ih =>
    intro hz hb
    rcases (t.step3_iff hb).1 hst with ⟨h1, h2, h3⟩ | ⟨h1, i, h2, h3, h4, h5⟩
    · subst h3
      subst hz
      obtain ⟨e1, e2, _⟩ := hp.of_terminal (by simp [Tsp4.mdl3])
      subst e1; subst e2
      exact Path.cons (m := t.mdl J') ((t.step_iff hb.ok (l := l) (x' := (t.mdl J').stt)).2 (.inl ⟨h1, h2, rfl⟩)) (Path.nil _)
    · subst h5
      exact Path.cons (m := t.mdl J') ((t.step_iff hb.ok).2 (.inr ⟨h1, i, h2, h3, t.out3_sub hb h4, rfl⟩)) (ih hz (hb.step h1 h3 h4))

theorem countP_or_le {α : Type} (p q : α → Bool) (L : List α) : L.countP (fun j => p j || q j) ≤ L.countP p + L.countP q := by
  induction L with
  | nil => simp
  | cons x L ih =>
    rw [List.countP_cons, List.countP_cons, List.countP_cons]
    cases p x <;> cases q x <;> simp <;> omega

/-- From states with one set for both and as many cities as hops, the completions are the same. -/
theorem Tsp4.path3_of {J' : Int} {z : Tsp4S} : ∀ {x : Tsp4S} {ls : List Int} {c : Int}, Path (t.mdl J') x ls c z → z = (t.mdl J').stt → t.Ok x →
    t.card x.A = x.hops + 1 → Path (t.mdl3 J) ⟨x.A, x.A, x.e, x.hops⟩ ls c (t.mdl3 J).stt := by
  intro x ls c hp
  induction hp with
  | nil s =>
    intro hz hb
    have := hb.hops
    rw [hz] at this
    simp [Tsp4.mdl] at this
  | @cons s s' z l ls c hst hp ih =>
    intro hz hb hk
    have h3 : t.Ok3 ⟨s.A, s.A, s.e, s.hops⟩ := ⟨hb, fun _ h => h, by dsimp only; omega⟩
    rcases (t.step_iff hb).1 hst with ⟨h1, h2, h3'⟩ | ⟨h1, i, h2, h3', h4, h5⟩
    · subst h3'
      subst hz
      obtain ⟨e1, e2, _⟩ := hp.of_terminal (by simp [Tsp4.mdl])
      subst e1; subst e2
      exact Path.cons (m := t.mdl3 J) ((t.step3_iff h3 (l := l) (x' := (t.mdl3 J).stt)).2 (.inl ⟨h1, h2, rfl⟩)) (Path.nil _)
    · subst h5
      have hout : t.out3 ⟨s.A, s.A, s.e, s.hops⟩ = s.A := by unfold Tsp4.out3; split <;> rfl
      refine Path.cons (m := t.mdl3 J) ((t.step3_iff h3).2 (.inr ⟨h1, i, h2, h3', by rw [hout]; exact h4, rfl⟩)) (ih hz (hb.step h1 h3' h4) ?_)
      dsimp only
      have hle : t.card (s.A ||| 2 ^ i) ≤ t.card s.A + 1 := by
        unfold Tsp4.card
        rw [show (fun j => (s.A ||| 2 ^ i).testBit j) = fun j => s.A.testBit j || (j == i) from funext fun j => by
          rw [Nat.testBit_or, Nat.testBit_two_pow]
          congr 1
          rw [Bool.eq_iff_iff, decide_eq_true_iff, beq_iff_eq]; exact eq_comm]
        have := countP_or_le (fun j => s.A.testBit j) (fun j => j == i) (List.range t.nv)
        have h1 : (List.range t.nv).countP (fun j => j == i) ≤ 1 := List.nodup_iff_count.1 (List.nodup_range (n := t.nv)) i
        omega
      have := t.card_new (A := s.A) (B := s.A ||| 2 ^ i) (i := i) (fun j hj => by rw [Nat.testBit_or, hj]; rfl) h3' h4 (by rw [Nat.testBit_or, Nat.testBit_two_pow_self]; simp)
      omega

theorem Tsp4.relx3 {D : Int} (hD : t.Bnd D) {s0 x : Tsp3S} {v0 v : Int} (h0 : t.Ok3 s0) (hs0 : s0.e = 0 → s0 = ⟨1, 1, 0, 0⟩) (hv0 : v0 ≤ s0.hops * D)
    (h : Relx (t.mdl3 J) t.rank3 s0 v0 x v) : ((t.Ok3 x ∧ (x.e = 0 → x = ⟨1, 1, 0, 0⟩)) ∨ x = (t.mdl3 J).stt) ∧ v ≤ x.hops * D := by
  obtain ⟨d1, d2, _⟩ := hD
  have hf : ∀ {x : Tsp3S}, (t.mdl3 J).eqs x = false → x ≠ (t.mdl3 J).stt := by
    intro x hx h
    rw [h] at hx
    simp [Tsp4.mdl3] at hx
  have mrg : ∀ {a b : Tsp3S}, t.Ok3 a ∧ (a.e = 0 → a = ⟨1, 1, 0, 0⟩) → t.Ok3 b ∧ (b.e = 0 → b = ⟨1, 1, 0, 0⟩) → a.e = b.e →
      t.Ok3 ⟨a.A &&& b.A, a.S ||| b.S, a.e, a.hops⟩ ∧ (a.e = 0 → (⟨a.A &&& b.A, a.S ||| b.S, a.e, a.hops⟩ : Tsp3S) = ⟨1, 1, 0, 0⟩) := by
    intro a b oa ob e1
    refine ⟨oa.1.merge ob.1 e1, fun h => ?_⟩
    rw [oa.2 h, ob.2 (e1 ▸ h)]; rfl
  induction h with
  | swap _ _ hsw _ ihsw => obtain rfl := (same_iff _ _).1 hsw; exact ihsw
  | root => exact ⟨.inl ⟨h0, hs0⟩, hv0⟩
  | @step x x' l v _ hst ih =>
    obtain ⟨i1, i3⟩ := ih
    have hx : t.Ok3 x := (i1.resolve_right (hf hst.1)).1
    have hlt : x.hops < t.nv := hx.ok.hops
    have hlte : x.e < t.nv := hx.ok.lt
    have e1 : ((x.hops + 1 : Nat) : Int) * D = x.hops * D + D := by
      rw [Int.natCast_add, Int.add_mul]; simp
    rcases (t.step3_iff hx).1 hst with ⟨h1, h2, h3⟩ | ⟨h1, i, h2, h3, h4, h7⟩
    · subst h3 h2
      refine ⟨.inr rfl, ?_⟩
      have := d2 x.e 0 hlte (by omega) (by have := hx.ok.root; dsimp only at this; omega)
      show v + t.d x.e 0 ≤ ((t.nv : Nat) : Int) * D
      rw [h1, e1]
      omega
    · subst h7 h2
      refine ⟨.inl ⟨hx.step h1 h3 h4, fun h => ?_⟩, ?_⟩
      · dsimp only at h
        have h5 := t.out3_sub hx h4
        rw [h] at h5
        have := hx.ok.depot
        dsimp only at this
        rw [this] at h5
        cases h5
      · have := d2 x.e i hlte h3 (.inl fun h => by have h5 := t.out3_sub hx h4; have h6 := hx.ok.cur; dsimp only at h6; rw [← h, h6] at h5; cases h5)
        show v + t.d x.e (i : Int).toNat ≤ ((x.hops + 1 : Nat) : Int) * D
        rw [e1, show ((i : Int)).toNat = i by omega]
        omega
  | @mergeL a b c v v' _ _ ha hb hr hm ih1 ih2 =>
    obtain ⟨e1, e2, rfl⟩ := t.smf3_some hm
    exact ⟨.inl (mrg (ih1.1.resolve_right (hf ha)) (ih2.1.resolve_right (hf hb)) e1), ih1.2⟩
  | @mergeR a b c v v' _ _ ha hb hr hm ih1 ih2 =>
    obtain ⟨e1, e2, rfl⟩ := t.smf3_some hm
    exact ⟨.inl (mrg (ih1.1.resolve_right (hf ha)) (ih2.1.resolve_right (hf hb)) e1), by dsimp only; rw [e2]; exact ih2.2⟩

theorem Tsp4.ok3_root (hn : 1 ≤ t.nv) : t.Ok3 ⟨1, 1, 0, 0⟩ := by
  refine ⟨t.ok_root hn, fun _ h => h, ?_⟩
  have := t.card_new (A := 0) (B := 1) (i := 0) (fun i h => by simp at h) (by omega) (by simp) (by simp)
  dsimp only; omega

/-- C93: the solutions of the model of tsp_test3 are the tours. -/
theorem tsp3_sol (hn : 1 ≤ t.nv) (ls : List Int) (c : Int) : Sol (t.mdl3 J) ls c ↔ t.Tour ls c := by
  rw [← t.sol_iff (J := 0) hn]
  constructor
  · intro h
    exact t.path3_to h rfl (t.ok3_root hn)
  · intro h
    refine t.path3_of h rfl (t.ok_root hn) ?_
    show t.card 1 = 1
    unfold Tsp4.card
    have a1 := List.nodup_iff_count.1 (List.nodup_range (n := t.nv)) 0
    have a2 := List.count_pos_iff.2 (List.mem_range.2 (show 0 < t.nv by omega))
    have : (fun i => Nat.testBit 1 i) = (· == 0) := by
      funext i
      cases i with
      | zero => rfl
      | succ i => simp [Nat.testBit_succ]
    rw [this]
    rw [List.count] at a1 a2
    omega

theorem Tsp4.cheapest3_le (ts : List Nat) (i j : Nat) (_ : ∀ k, k ∈ ts → k < t.nv) (_ : i ∈ ts) (h : j ∈ ts) (hij : i ≠ j) :
    (t.cheapest3 ts i).getD 0 ≤ t.d i j := by
  obtain ⟨v, h1, h2⟩ := t.cheapest3_some h hij
  rw [h1]; exact h2

/-- C94: tsp_test3, away from the root: the cheapest-arc bound is defined and no completion beats it, for
all distances. -/
theorem tsp3_greedy {x : Tsp3S} (hx : t.Ok3 x) (hx0 : x.e ≠ 0) {ls : List Int} {c : Int} (hp : Path (t.mdl3 J) x ls c (t.mdl3 J).stt) :
    ∃ g, t.greedyC (fun ts i => (t.cheapest3 ts i).getD 0) x.A 0 x.e x.hops = some g ∧ g ≤ c :=
  t.greedyC_path (J := 0) t.cheapest3_le hx.ok hx0 (t.path3_to hp rfl hx)

/-- C94: tsptw, away from the root: the cheapest-arc bound, which drops fractions, is defined and no
completion beats it. -/
theorem tsptw_greedy (hd : t.Nonneg) {u : Nat} {x : Tsp4S} (hx : t.Ok x) (hx0 : x.e ≠ 0) {ls : List Int} {c : Int}
    (hp : Path (t.mdlTw u J) x ls c (t.mdlTw u J).stt) : ∃ g, t.greedyC (t.cheapestTw u) x.A 0 x.e x.hops = some g ∧ g ≤ c :=
  t.greedyC_path (J := 0) (t.cheapestTw_le hd) hx hx0 (t.gen_path.1 hp)

/-- C94 is false at the root of tsptw and tsp_test3, as in tsp_test4: on every instance the sum reads a cell
that was never written. -/
theorem tsptw3_greedy_false (hn : 1 ≤ t.nv) (u : Nat) :
    t.greedyC (t.cheapestTw u) (t.mdlTw u J).sti.A 0 (t.mdlTw u J).sti.e (t.mdlTw u J).sti.hops = none ∧
    t.greedyC (fun ts i => (t.cheapest3 ts i).getD 0) (t.mdl3 J).sti.A 0 (t.mdl3 J).sti.e (t.mdl3 J).sti.hops = none :=
  ⟨t.greedyC_root hn 1, t.greedyC_root hn 1⟩

theorem Tsp4.layered3 {D : Int} (hD : t.Bnd D) (hJ : ∀ ls c, t.Tour ls c → J ≤ c) {s0 : Tsp3S} {v0 : Int} (h0 : t.Ok3 s0)
    (hs0 : s0.e = 0 → s0 = ⟨1, 1, 0, 0⟩) (hv0 : v0 ≤ s0.hops * D) : Layered (t.mdl3 J) t.rank3 s0 v0 where
  sink := by simp [Tsp4.mdl3]
  src := t.eqs3_false h0.ok.hops
  range := fun x v h => by
    obtain ⟨h1, h3⟩ := t.relx3 hD h0 hs0 hv0 h
    obtain ⟨d1, _, d3⟩ := hD
    have hle : (x.hops : Int) ≤ t.nv := by
      rcases h1 with h | h
      · have := h.1.ok.hops; dsimp only at this; omega
      · rw [h]; simp [Tsp4.mdl3]
    have := Int.mul_le_mul_of_nonneg_right hle d1
    simp [Tsp4.mdl3, Sense.better, Sense.best0]; omega
  step := fun x v l x' h hst => by
    have hx : t.Ok3 x := by
      rcases (t.relx3 hD h0 hs0 hv0 h).1 with a | a
      · exact a.1
      · have := hst.1; rw [a] at this; simp [Tsp4.mdl3] at this
    rcases (t.step3_iff hx).1 hst with ⟨_, _, h3⟩ | ⟨_, i, _, _, _, h7⟩
    · left; rw [h3]; simp [Tsp4.mdl3]
    · right; rw [h7]; rfl
  merge := fun a b c va vb ra rb ha hb hr hm => by
    have la : t.Ok3 a := ((t.relx3 hD h0 hs0 hv0 ra).1.resolve_right (fun x => by rw [x] at ha; simp [Tsp4.mdl3] at ha)).1
    have lb : t.Ok3 b := ((t.relx3 hD h0 hs0 hv0 rb).1.resolve_right (fun x => by rw [x] at hb; simp [Tsp4.mdl3] at hb)).1
    have hc := (t.smf3_some hm).2.2
    refine ⟨t.eqs3_false (by rw [hc]; exact la.ok.hops), by rw [hc]; rfl, ?_, ?_⟩
    · rintro v ⟨ls, hp⟩
      exact ⟨v, ⟨ls, tsp3_merge_valid t la lb hm (.inl hp)⟩, by rw [Sense.betterEQ_iff]; omega⟩
    · rintro v ⟨ls, hp⟩
      exact ⟨v, ⟨ls, tsp3_merge_valid t la lb hm (.inr hp)⟩, by rw [Sense.betterEQ_iff]; omega⟩
  local_ := fun f hf x v y c hr hv => by
    have hf : (fun (x : Tsp3S) (_ : Ctx) => (t.greedyC (fun ts i => (t.cheapest3 ts i).getD 0) x.A 0 x.e x.hops).getD J) = f := by
      simpa [Tsp4.mdl3] using hf
    subst hf
    obtain ⟨ls, hp⟩ := hv
    have key : (t.greedyC (fun ts i => (t.cheapest3 ts i).getD 0) x.A 0 x.e x.hops).getD J ≤ c := by
      rcases (t.relx3 hD h0 hs0 hv0 hr).1 with ⟨ok, hx⟩ | hx
      · by_cases hx0 : x.e = 0
        · have hn : 1 ≤ t.nv := by have := ok.ok.hops; omega
          have hxe := hx hx0
          subst hxe
          rw [t.greedyC_root hn]
          exact hJ ls c ((tsp3_sol t hn ls c).1 hp)
        · obtain ⟨g, g1, g2⟩ := tsp3_greedy t ok hx0 hp
          rw [g1]; exact g2
      · subst hx
        obtain ⟨_, e2, _⟩ := hp.of_terminal (by simp [Tsp4.mdl3])
        rw [show t.greedyC (fun ts i => (t.cheapest3 ts i).getD 0) (t.mdl3 J).stt.A 0 (t.mdl3 J).stt.e (t.mdl3 J).stt.hops = some 0 from t.greedyC_end _ _, e2]
        simp
    simp [Tsp4.mdl3, Sense.betterEQ]
    omega
  dom := fun f hf => by simp [Tsp4.mdl3] at hf

/-! ### The searches -/

/-- The length of a shortest tour. -/
def ShortestTour (Tour : List Int → Int → Prop) (p : Int) : Prop := (∃ ls, Tour ls p) ∧ ∀ ls c, Tour ls c → p ≤ c

/-- What the search theorems need of a program. -/
structure TspProg {σ : Type} [Same σ] (m : Mdl σ) (rank : σ → Nat) (N : Nat) (Tour : List Int → Int → Prop) : Prop where
  sense : m.sense = .min
  dom : m.sdom = none
  layered : Layered m rank m.sti 0
  ranks : RankBound m rank m.sti 0 N
  sol : ∀ ls c, Sol m ls c ↔ Tour ls c
  worst : m.loc = none → ∀ ls c, Tour ls c → -2147483647 ≤ c
  some_ : ∃ ls c, Tour ls c

namespace TspProg
variable {σ : Type} [Same σ] {m : Mdl σ} {rank : σ → Nat} {N : Nat} {Tour : List Int → Int → Prop} (P : TspProg m rank N Tour)
include P

theorem sound {w dfuel fuel : Nat} {lim : Nat → Bool} {s : BB.BS σ} (h : BB.search m w dfuel lim fuel 2147483647 = some s) :
    ∀ x, x ∈ s.sols → Tour x.2 x.1 :=
  fun x hx => (P.sol _ _).1 ((BB.search_sound P.layered (by rw [P.sense]; rfl) h).1 x hx)

theorem ends (w : Nat) {dfuel : Nat} (hf : N + 2 ≤ dfuel) (lim : Nat → Bool) :
    ∃ L, ∀ fuel, L < fuel → ∃ s, BB.search m w dfuel lim fuel 2147483647 = some s ∧ (s.stopped = true ∨ Heap.empty s.pq = true) :=
  BB.search_ends P.layered (by rw [P.sense]; rfl) P.ranks w hf lim

theorem answer {p : Int} {inc : List Int} (h1 : ∀ ls c, Sol m ls c → m.sense.betterEQ p c = true)
    (h2 : Sol m inc p ∨ (p = 2147483647 ∧ ∀ ls c, Sol m ls c → m.sense.better c 2147483647 = false)) : ShortestTour Tour p ∧ Tour inc p := by
  have hle : ∀ ls c, Tour ls c → p ≤ c := fun ls c ht => by
    have := h1 ls c ((P.sol _ _).2 ht)
    rw [P.sense] at this
    simpa [Sense.betterEQ] using this
  rcases h2 with h2 | ⟨h2, _⟩
  · have := (P.sol _ _).1 h2
    exact ⟨⟨⟨_, this⟩, hle⟩, this⟩
  · obtain ⟨ls, c, a⟩ := P.some_
    have := hle ls c a
    have := P.layered.range _ _ (Path.relx ((P.sol _ _).2 a) .root)
    rw [P.sense] at this
    simp [Sense.better, Sense.best0] at this
    omega

theorem hworst (hl : m.loc = none) (ls : List Int) (c : Int) (hs : Sol m ls c) : m.sense.betterEQ m.sense.worst0 c = true := by
  have := P.worst hl ls c ((P.sol _ _).1 hs)
  rw [P.sense]
  exact decide_eq_true this

theorem room {w dfuel fuel : Nat} (hR : Room m rank m.sti w) {lim : Nat → Bool} {s : BB.BS σ}
    (h : BB.search m w dfuel lim fuel 2147483647 = some s) (hns : s.stopped = false) : ShortestTour Tour s.primal ∧ Tour s.inc s.primal := by
  obtain ⟨h1, h2⟩ := BB.search_room P.layered (by rw [P.sense]; rfl) P.hworst hR h hns
  exact P.answer h1 h2

theorem okrun {w dfuel fuel : Nat} {lim : Nat → Bool} {s : BB.BS σ} (h : BB.search m w dfuel lim fuel 2147483647 = some s)
    (hok : BB.okLoop m w dfuel lim fuel 0 (BB.init m w 2147483647) = true) (hns : s.stopped = false) :
    ShortestTour Tour s.primal ∧ Tour s.inc s.primal := by
  obtain ⟨h1, h2⟩ := BB.search_answer_partial P.layered (fun sd hsd => by rw [P.dom] at hsd; cases hsd) (by rw [P.sense]; rfl) P.hworst h hok hns
  exact P.answer h1 h2

end TspProg

theorem Tsp4.tour_ex (t : Tsp4) : ∃ ls c, t.Tour ls c :=
  ⟨_, _, (List.range t.nv).erase 0, rfl, List.Nodup.erase _ List.nodup_range, fun i => by
    rw [List.Nodup.mem_erase_iff List.nodup_range, List.mem_range]
    exact ⟨fun h => ⟨h.2, h.1⟩, fun h => ⟨h.2, h.1⟩⟩, rfl⟩

theorem Tsp4.Progs.prog {t : Tsp4} {u : Nat} {m : Mdl Tsp4S} (hm : t.Progs u J m) (hn : 1 ≤ t.nv) (hd : t.Nonneg) {D : Int} (hD : t.Bnd D)
    (hJ : ∀ ls c, t.Tour ls c → J ≤ c) : TspProg m t.rank t.nv t.Tour := by
  have hl := hm.low hd hJ
  have hsol := tspv_sol t hm hn
  have hloc : m.loc ≠ none := by rcases hm with rfl | rfl | rfl <;> exact fun h => by cases h
  obtain ⟨sm, lc, rfl, h2⟩ := hm.gen
  have H := t.gen_layered h2 hl hD (v0 := 0) (t.ok_root hn) (fun _ => rfl) (by simp)
  refine ⟨rfl, rfl, H, fun x v hr hq => ?_, hsol, fun h => absurd h hloc, t.tour_ex⟩
  rcases (t.gen_relx h2 hD (v0 := 0) (t.ok_root hn) (fun _ => rfl) (by simp) hr).1 with h | h
  · exact Nat.le_of_lt h.1.hops
  · rw [h] at hq; simp [Tsp4.gen, Tsp4.mdl] at hq

theorem Tsp4.prog3 (hn : 1 ≤ t.nv) {D : Int} (hD : t.Bnd D) (hJ : ∀ ls c, t.Tour ls c → J ≤ c) : TspProg (t.mdl3 J) t.rank3 t.nv t.Tour := by
  refine ⟨rfl, rfl, t.layered3 hD hJ (s0 := ⟨1, 1, 0, 0⟩) (v0 := 0) (t.ok3_root hn) (fun _ => rfl) (by simp), fun x v hr hq => ?_, tsp3_sol t hn, (fun h => by cases h), t.tour_ex⟩
  rcases (t.relx3 hD (v0 := 0) (t.ok3_root hn) (fun _ => rfl) (by simp) hr).1 with h | h
  · exact Nat.le_of_lt h.1.ok.hops
  · rw [h] at hq; simp [Tsp4.mdl3] at hq

theorem Tsp.prog (t : Tsp) (hn : 1 < t.nv) {D : Int} (hD : t.Bnd D) (hlow : ∀ ls c, t.Tour ls c → -2147483647 ≤ c) : TspProg t.mdl t.rank t.nv t.Tour := by
  refine ⟨rfl, rfl, t.layered hD hn (s0 := ⟨0, 1, 0⟩) (v0 := 0) (by show 0 < _; omega) ⟨hn, fun _ => hn⟩ (by simp), fun x v hr hq => ?_, t.sol_iff hn, fun _ => hlow, ?_⟩
  · rcases (t.relx hD hn (s0 := ⟨0, 1, 0⟩) (v0 := 0) (by show 0 < _; omega) ⟨hn, fun _ => hn⟩ (by simp) hr).1 with h | h
    · exact Nat.le_of_lt h
    · rw [h] at hq; simp [Tsp.mdl] at hq
  · exact ⟨_, _, (List.range t.nv).erase 1, rfl, List.Nodup.erase _ List.nodup_range, fun i => by
      rw [List.Nodup.mem_erase_iff List.nodup_range, List.mem_range]
      exact ⟨fun h => ⟨h.2, h.1⟩, fun h => ⟨h.2, h.1⟩⟩, rfl⟩

/-- C94: whatever the width, the relaxed diagrams of tsptw, tsp_test2 and tsp_test3 are at most the length
of every tour shorter than the primal bound, if the value read at the root is. -/
theorem tspv_dual_partial {u : Nat} (hn : 1 ≤ t.nv) (hd : t.Nonneg) {D : Int} (hD : t.Bnd D) (hJ : ∀ ls c, t.Tour ls c → J ≤ c) {prim : Int} {w f : Nat}
    {ls : List Int} {c : Int} (hc : t.Tour ls c) (hp : c < prim) :
    (∀ m g, t.Progs u J m → relaxed m prim w f m.src0 = some g → g.bound g.trg ≤ c) ∧
    (∀ g, relaxed (t.mdl3 J) prim w f (t.mdl3 J).src0 = some g → g.bound g.trg ≤ c) := by
  constructor
  · intro m g hm h
    have P := hm.prog hn hd hD hJ
    have := relaxed_dual (r := m.src0) P.layered h ((P.sol ls c).2 hc) (by rw [P.sense]; simp [Mdl.src0, Sense.better]; omega)
    rw [P.sense] at this
    simp [Mdl.src0, Sense.betterEQ] at this
    omega
  · intro g h
    have P := t.prog3 hn hD hJ
    have := relaxed_dual (r := (t.mdl3 J).src0) P.layered h ((P.sol ls c).2 hc) (by rw [P.sense]; simp [Mdl.src0, Sense.better]; omega)
    rw [P.sense] at this
    simp [Mdl.src0, Sense.betterEQ] at this
    omega

/-- C95: with a width no layer exceeds, each of the four programs ends with a shortest tour, under the same
condition on the root. -/
theorem tspv_search_room_partial {u : Nat} (hn : 1 ≤ t.nv) (hd : t.Nonneg) {D : Int} (hD : t.Bnd D) (hJ : ∀ ls c, t.Tour ls c → J ≤ c)
    {w dfuel fuel : Nat} {lim : Nat → Bool} :
    (∀ m, t.Progs u J m → Room m t.rank m.sti w → ∀ s, BB.search m w dfuel lim fuel 2147483647 = some s → s.stopped = false →
      ShortestTour t.Tour s.primal ∧ t.Tour s.inc s.primal) ∧
    (Room (t.mdl3 J) t.rank3 (t.mdl3 J).sti w → ∀ s, BB.search (t.mdl3 J) w dfuel lim fuel 2147483647 = some s → s.stopped = false →
      ShortestTour t.Tour s.primal ∧ t.Tour s.inc s.primal) :=
  ⟨fun _ hm hR _ h hns => (hm.prog hn hd hD hJ).room hR h hns, fun hR _ h hns => (t.prog3 hn hD hJ).room hR h hns⟩

/-- C95, any width: if moreover along the run nothing was dropped for a bad reason, each of the four programs ends
with a shortest tour.  Missing: the other runs (`tspv_search_false`). -/
theorem tspv_search_partial {u : Nat} (hn : 1 ≤ t.nv) (hd : t.Nonneg) {D : Int} (hD : t.Bnd D) (hJ : ∀ ls c, t.Tour ls c → J ≤ c)
    {w dfuel fuel : Nat} {lim : Nat → Bool} :
    (∀ m, t.Progs u J m → ∀ s, BB.search m w dfuel lim fuel 2147483647 = some s →
      BB.okLoop m w dfuel lim fuel 0 (BB.init m w 2147483647) = true → s.stopped = false →
      ShortestTour t.Tour s.primal ∧ t.Tour s.inc s.primal) ∧
    (∀ s, BB.search (t.mdl3 J) w dfuel lim fuel 2147483647 = some s →
      BB.okLoop (t.mdl3 J) w dfuel lim fuel 0 (BB.init (t.mdl3 J) w 2147483647) = true → s.stopped = false →
      ShortestTour t.Tour s.primal ∧ t.Tour s.inc s.primal) :=
  ⟨fun _ hm _ h hok hns => (hm.prog hn hd hD hJ).okrun h hok hns, fun _ h hok hns => (t.prog3 hn hD hJ).okrun h hok hns⟩

/-- C95: everything the search of tsp.cpp reports is a tour with its length. -/
theorem tsp_search_sound (t : Tsp) (hn : 1 < t.nv) {D : Int} (hD : t.Bnd D) (hlow : ∀ ls c, t.Tour ls c → -2147483647 ≤ c)
    {w dfuel fuel : Nat} {lim : Nat → Bool} {s : BB.BS TspS} (h : BB.search t.mdl w dfuel lim fuel 2147483647 = some s) :
    ∀ x, x ∈ s.sols → t.Tour x.2 x.1 := (t.prog hn hD hlow).sound h

/-- C95: the search of tsp.cpp ends. -/
theorem tsp_search_ends (t : Tsp) (hn : 1 < t.nv) {D : Int} (hD : t.Bnd D) (hlow : ∀ ls c, t.Tour ls c → -2147483647 ≤ c)
    (w : Nat) {dfuel : Nat} (hf : t.nv + 2 ≤ dfuel) (lim : Nat → Bool) :
    ∃ L, ∀ fuel, L < fuel → ∃ s, BB.search t.mdl w dfuel lim fuel 2147483647 = some s ∧ (s.stopped = true ∨ Heap.empty s.pq = true) :=
  (t.prog hn hD hlow).ends w hf lim

/-- C95: with a width no layer exceeds, tsp.cpp ends with a shortest tour. -/
theorem tsp_search_room (t : Tsp) (hn : 1 < t.nv) {D : Int} (hD : t.Bnd D) (hlow : ∀ ls c, t.Tour ls c → -2147483647 ≤ c)
    {w dfuel fuel : Nat} (hR : Room t.mdl t.rank t.mdl.sti w) {lim : Nat → Bool} {s : BB.BS TspS}
    (h : BB.search t.mdl w dfuel lim fuel 2147483647 = some s) (hns : s.stopped = false) :
    ShortestTour t.Tour s.primal ∧ t.Tour s.inc s.primal := (t.prog hn hD hlow).room hR h hns

/-- C95, any width: if along the run nothing was dropped for a bad reason, tsp.cpp ends with a shortest tour.
Missing: the other runs (`tsp_search_false`). -/
theorem tsp_search_partial (t : Tsp) (hn : 1 < t.nv) {D : Int} (hD : t.Bnd D) (hlow : ∀ ls c, t.Tour ls c → -2147483647 ≤ c)
    {w dfuel fuel : Nat} {lim : Nat → Bool} {s : BB.BS TspS}
    (h : BB.search t.mdl w dfuel lim fuel 2147483647 = some s)
    (hok : BB.okLoop t.mdl w dfuel lim fuel 0 (BB.init t.mdl w 2147483647) = true) (hns : s.stopped = false) :
    ShortestTour t.Tour s.primal ∧ t.Tour s.inc s.primal := (t.prog hn hD hlow).okrun h hok hns

/-! ### Cases -/

/-- The distances of a table. -/
def tab (M : List (List Int)) (i j : Nat) : Int := (M.getD i []).getD j 0

/-- Five cities, distances not symmetric. -/
def q5a : Tsp4 := ⟨5, tab [[0,8,7,3,8],[4,0,3,9,1],[4,7,0,7,8],[7,4,3,0,5],[6,4,9,9,0]]⟩

/-- C95 is false for small widths: at width 3, with a harmless value at the root, tsptw and tsp_test3 end
with 20 on `q5a`, which has a tour of length 19. -/
theorem tspv_search_false :
    (∃ s, BB.search (q5a.mdlTw 1 0) 3 30 (fun _ => false) 50 2147483647 = some s ∧ s.stopped = false ∧ Heap.empty s.pq = true ∧ s.primal = 20) ∧
    (∃ s, BB.search (q5a.mdl3 0) 3 30 (fun _ => false) 50 2147483647 = some s ∧ s.stopped = false ∧ Heap.empty s.pq = true ∧ s.primal = 20) ∧
    q5a.Tour [3, 4, 1, 2, 0] 19 := by
  refine ⟨?_, ?_, [3, 4, 1, 2], by decide, by decide, ?_, by decide⟩
  · have hv : (BB.search (q5a.mdlTw 1 0) 3 30 (fun _ => false) 50 2147483647).map (fun s => (s.stopped, Heap.empty s.pq, s.primal)) =
        some (false, true, 20) := by decide +kernel
    simp only [Option.map_eq_some_iff] at hv
    obtain ⟨s, h1, h2⟩ := hv
    simp at h2
    exact ⟨s, h1, h2.1, h2.2.1, h2.2.2⟩
  · have hv : (BB.search (q5a.mdl3 0) 3 30 (fun _ => false) 50 2147483647).map (fun s => (s.stopped, Heap.empty s.pq, s.primal)) =
        some (false, true, 20) := by decide +kernel
    simp only [Option.map_eq_some_iff] at hv
    obtain ⟨s, h1, h2⟩ := hv
    simp at h2
    exact ⟨s, h1, h2.1, h2.2.1, h2.2.2⟩
  · intro i
    rw [show q5a.nv = 5 from rfl]
    simp only [List.mem_cons, List.not_mem_nil, or_false]
    omega

/-- Five cities, distances not symmetric. -/
def t5a : Tsp := ⟨5, tab [[0,4,8,5,9],[1,0,6,1,5],[9,3,0,5,9],[6,1,1,0,8],[6,4,5,1,0]]⟩

/-- C95 is false for small widths: at width 5 tsp.cpp ends with 20 on `t5a`, which has a tour of length 15. -/
theorem tsp_search_false :
    (∃ s, BB.search t5a.mdl 5 30 (fun _ => false) 50 2147483647 = some s ∧ s.stopped = false ∧ Heap.empty s.pq = true ∧ s.primal = 20) ∧
    t5a.Tour [0, 4, 3, 2, 1] 15 := by
  refine ⟨?_, [0, 4, 3, 2], by decide, by decide, ?_, by decide⟩
  · have hv : (BB.search t5a.mdl 5 30 (fun _ => false) 50 2147483647).map (fun s => (s.stopped, Heap.empty s.pq, s.primal)) =
        some (false, true, 20) := by decide +kernel
    simp only [Option.map_eq_some_iff] at hv
    obtain ⟨s, h1, h2⟩ := hv
    simp at h2
    exact ⟨s, h1, h2.1, h2.2.1, h2.2.2⟩
  · intro i
    rw [show t5a.nv = 5 from rfl]
    simp only [List.mem_cons, List.not_mem_nil, or_false]
    omega

/-- What the undefined root bound may do: with a large value there, all of these end without a tour. -/
theorem tspv_root_false :
    (BB.search (q5a.mdlTw 1 2147483647) 3 30 (fun _ => false) 50 2147483647).map (fun s => (s.sols, s.stopped, Heap.empty s.pq)) = some ([], false, true) ∧
    (BB.search (q5a.mdl2 2147483647) 3 30 (fun _ => false) 50 2147483647).map (fun s => (s.sols, s.stopped, Heap.empty s.pq)) = some ([], false, true) ∧
    (BB.search (q5a.mdl3 2147483647) 3 30 (fun _ => false) 50 2147483647).map (fun s => (s.sols, s.stopped, Heap.empty s.pq)) = some ([], false, true) :=
  ⟨by decide +kernel, by decide +kernel, by decide +kernel⟩

theorem Tsp4.length_nonneg (hd : t.Nonneg) : ∀ (p : List Nat) (a : Nat), a < t.nv → (∀ i, i ∈ p → i < t.nv) → 0 ≤ t.length a p := by
  intro p
  induction p with
  | nil => intro a _ _; simp [Tsp4.length]
  | cons b p ih =>
    intro a ha hp
    have := ih b (hp b (by simp)) (fun i hi => hp i (by simp [hi]))
    have := hd a b ha (hp b (by simp))
    simp only [Tsp4.length]; omega

theorem Tsp4.tour_nonneg (hn : 1 ≤ t.nv) (hd : t.Nonneg) (ls : List Int) (c : Int) (h : t.Tour ls c) : 0 ≤ c := by
  obtain ⟨p, _, _, h4, rfl⟩ := h
  refine t.length_nonneg hd _ 0 (by omega) (fun i hi => ?_)
  rcases List.mem_append.1 hi with hi | hi
  · exact ((h4 i).1 hi).1
  · simp at hi; omega

/-- The hypotheses hold on `q5` at width 2: the four programs end with the shortest tour. -/
example : ShortestTour q5.Tour 17 := by
  have hJ : ∀ ls c, q5.Tour ls c → (0 : Int) ≤ c := q5.tour_nonneg (by decide) q5_nonneg
  have hv : (BB.search (q5.mdlTw 1 0) 2 30 (fun _ => false) 50 2147483647).map (fun s => (s.stopped, s.primal)) = some (false, 17) := by decide +kernel
  simp only [Option.map_eq_some_iff] at hv
  obtain ⟨s, h1, h2⟩ := hv
  simp at h2
  have := ((tspv_search_partial q5 (u := 1) (by decide) q5_nonneg q5_bnd hJ).1 _ (.inr (.inl rfl)) s h1 (by decide +kernel) h2.1).1
  rwa [h2.2] at this

example : ShortestTour q5.Tour 17 := by
  have hJ : ∀ ls c, q5.Tour ls c → (0 : Int) ≤ c := q5.tour_nonneg (by decide) q5_nonneg
  have hv : (BB.search (q5.mdl2 0) 2 30 (fun _ => false) 50 2147483647).map (fun s => (s.stopped, s.primal)) = some (false, 17) := by decide +kernel
  simp only [Option.map_eq_some_iff] at hv
  obtain ⟨s, h1, h2⟩ := hv
  simp at h2
  have := ((tspv_search_partial q5 (u := 1) (by decide) q5_nonneg q5_bnd hJ).1 _ (.inr (.inr rfl)) s h1 (by decide +kernel) h2.1).1
  rwa [h2.2] at this

example : ShortestTour q5.Tour 17 := by
  have hJ : ∀ ls c, q5.Tour ls c → (0 : Int) ≤ c := q5.tour_nonneg (by decide) q5_nonneg
  have hv : (BB.search (q5.mdl3 0) 2 30 (fun _ => false) 50 2147483647).map (fun s => (s.stopped, s.primal)) = some (false, 17) := by decide +kernel
  simp only [Option.map_eq_some_iff] at hv
  obtain ⟨s, h1, h2⟩ := hv
  simp at h2
  have := ((tspv_search_partial q5 (u := 1) (by decide) q5_nonneg q5_bnd hJ).2 s h1 (by decide +kernel) h2.1).1
  rwa [h2.2] at this

/-- tsp.cpp on four cities at width 2. -/
example : ShortestTour t4.Tour 19 := by
  have hlow : ∀ ls c, t4.Tour ls c → (-2147483647 : Int) ≤ c := by
    rintro ls c ⟨p, _, _, h4, rfl⟩
    have key : ∀ (p : List Nat) (a : Nat), a < 4 → (∀ i, i ∈ p → i < 4) → 0 ≤ t4.length a p := by
      intro p
      induction p with
      | nil => intro a _ _; simp [Tsp.length]
      | cons b p ih =>
        intro a ha hp
        have := ih b (hp b (by simp)) (fun i hi => hp i (by simp [hi]))
        have h : ∀ i, i < 4 → ∀ j, j < 4 → 0 ≤ t4.d i j := by decide
        have := h a ha b (hp b (by simp))
        simp only [Tsp.length]; omega
    have := key (p ++ [1]) 1 (by decide) (fun i hi => by
      rcases List.mem_append.1 hi with hi | hi
      · exact ((h4 i).1 hi).1
      · simp at hi; omega)
    omega
  have hv : (BB.search t4.mdl 2 30 (fun _ => false) 50 2147483647).map (fun s => (s.stopped, s.primal)) = some (false, 19) := by decide +kernel
  simp only [Option.map_eq_some_iff] at hv
  obtain ⟨s, h1, h2⟩ := hv
  simp at h2
  have := (tsp_search_partial t4 (by decide) t4_bnd hlow h1 (by decide +kernel) h2.1).1
  rwa [h2.2] at this

/-- tsp_test3 on `q5`: the ways 0-1-3 and 0-2-3 merge at city 3; the completion of the first through cities 2 and 4
survives; the merged state knows more cities on some way than hops and falls back on the others. -/
example : let a : Tsp3S := ⟨1 ||| 2 ||| 8, 1 ||| 2 ||| 8, 3, 2⟩
    let b : Tsp3S := ⟨1 ||| 4 ||| 8, 1 ||| 4 ||| 8, 3, 2⟩
    let c : Tsp3S := ⟨1 ||| 8, 1 ||| 2 ||| 4 ||| 8, 3, 2⟩
    (q5.mdl3 0).smf a b = some c ∧ q5.Ok3 a ∧ q5.Ok3 b ∧ (q5.mdl3 0).lgf a = [2, 4] ∧ (q5.mdl3 0).lgf c = [1, 2, 4] ∧
    Path (q5.mdl3 0) a [2, 4, 0] 13 (q5.mdl3 0).stt ∧ Path (q5.mdl3 0) c [2, 4, 0] 13 (q5.mdl3 0).stt := by
  have sub : ∀ x, ∀ i, Nat.testBit x i = true → x.testBit i = true := fun _ _ h => h
  have ha : q5.Ok3 ⟨1 ||| 2 ||| 8, 1 ||| 2 ||| 8, 3, 2⟩ := ⟨⟨by decide, by decide, by decide, by decide, by decide⟩, sub _, by decide⟩
  have hb : q5.Ok3 ⟨1 ||| 4 ||| 8, 1 ||| 4 ||| 8, 3, 2⟩ := ⟨⟨by decide, by decide, by decide, by decide, by decide⟩, sub _, by decide⟩
  have hm : (q5.mdl3 0).smf ⟨1 ||| 2 ||| 8, 1 ||| 2 ||| 8, 3, 2⟩ ⟨1 ||| 4 ||| 8, 1 ||| 4 ||| 8, 3, 2⟩ = some ⟨1 ||| 8, 1 ||| 2 ||| 4 ||| 8, 3, 2⟩ := by decide
  have hp : Path (q5.mdl3 0) ⟨1 ||| 2 ||| 8, 1 ||| 2 ||| 8, 3, 2⟩ [2, 4, 0] 13 (q5.mdl3 0).stt :=
    q5.path3_of (J' := 0) (x := ⟨1 ||| 2 ||| 8, 3, 2⟩) ((q5.path_iff 2 ⟨1 ||| 2 ||| 8, 3, 2⟩ [2, 4, 0] 13 (by decide) ha.ok).2
      ⟨[2, 4], by decide, rfl, by decide, by decide, by decide⟩) rfl ha.ok (by decide)
  exact ⟨hm, ha, hb, by decide, by decide, hp, tsp3_merge_valid q5 ha hb hm (.inl hp)⟩

/-- tsptw with distances in halves: the cheapest arcs 2.5 and 1.5 count 2 and 1. -/
example : let t : Tsp4 := ⟨3, tab [[0,5,7],[9,0,5],[3,7,0]]⟩
    t.greedyC (t.cheapestTw 2) 3 0 1 1 = some 6 ∧ t.length 1 [2, 0] = 8 := by decide +kernel

end Verif.Ex
