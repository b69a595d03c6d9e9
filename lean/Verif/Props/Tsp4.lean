import Verif.Tsp4
import Verif.Props.Kruskal
import Verif.Props.Heap
import Verif.Props.MSort
import Verif.Props.Tsp
import Verif.Props.BB
/-!
# C76, C77: the TSP example with the spanning-tree and cheapest-arc bounds
-/
namespace Verif.Ex
open Verif.DD

/-! ### The spanning-tree loop -/

theorem swo_ge : Heap.SWO GE.ord :=
  ⟨fun a b h => by simp [GE.ord] at *; omega, fun a b c h1 h2 => by simp [GE.ord] at *; omega⟩

theorem insAll_eq : ∀ (xs : List GE) (h : Heap.H GE), insAll h xs = Heap.insertAll h xs := by
  intro xs
  induction xs with
  | nil => intro h; rfl
  | cons x xs ih => intro h; exact ih _

/-- Total weight. -/
def wsum (F : List GE) : Int := (F.map GE.w).sum

theorem wsum_app (F G : List GE) : wsum (F ++ G) = wsum F + wsum G := by simp [wsum]
theorem wsum_cons (f : GE) (F : List GE) : wsum (f :: F) = f.w + wsum F := by simp [wsum]

open Heap (mem_locs Live) in
theorem mstLoop_le {vm : Nat → Nat} {fu : Nat} {need : Int} : ∀ (n : Nat) (h : Heap.H GE) (u : UF.U) (ne : Nat) (l : Int) (E : List (Nat × Nat))
    (rt : Nat → Nat) (F : List GE), h.at_ ≤ n → Heap.Inv GE.ord h → UF.Inv u E rt → u.n < 2 ^ fu →
    (∀ e, e ∈ Heap.vals h → vm e.a < u.n ∧ vm e.b < u.n) → (∀ e, e ∈ F → e ∈ Heap.vals h) → UF.Ind (fun e : GE => (vm e.a, vm e.b)) E F →
    (need = ne + F.length ∨ ((ne : Int) + F.length ≤ need ∧
      ∀ e, e ∈ Heap.vals h → UF.Conn (E ++ F.map (fun e : GE => (vm e.a, vm e.b))) (vm e.a) (vm e.b))) →
    ∃ r, mstLoop vm fu need n h u ne l = some r ∧ r ≤ l + wsum F := by
  intro n
  induction n with
  | zero =>
    intro h u ne l E rt F hat hi
    have := hi.wf.one_le
    omega
  | succ n ih =>
    intro h u ne l E rt F hat hi I hfu hran hF hind hneed
    unfold mstLoop
    by_cases hc : (ne : Int) ≠ need ∧ Heap.empty h = false
    · rw [if_pos hc]
      obtain ⟨c1, c2⟩ := hc
      have h2 : 2 ≤ h.at_ := by
        have := hi.wf.one_le
        simp [Heap.empty] at c2; omega
      obtain ⟨w', o', l0, a1, a2, a3, a4, a5, a6⟩ := Heap.extractMax_spec swo_ge hi.wf hi.ordered h2
      generalize hx : Heap.extractMax GE.ord h = x at *
      have hv : ∀ e, e ∈ Heap.vals h ↔ ∃ k, Live h k ∧ h.val k = e := by
        intro e; simp only [Heap.vals, List.mem_map, mem_locs]
      have hv' : ∀ e, e ∈ Heap.vals x.1 ↔ ∃ k, (Live h k ∧ k ≠ l0) ∧ h.val k = e := by
        intro e; simp only [Heap.vals, List.mem_map, mem_locs, a4, a5]
      have hsub : ∀ e, e ∈ Heap.vals x.1 → e ∈ Heap.vals h := by
        intro e he
        obtain ⟨k, ⟨k1, _⟩, k3⟩ := (hv' e).1 he
        exact (hv e).2 ⟨k, k1, k3⟩
      have hspl : ∀ e, e ∈ Heap.vals h → e ≠ x.2 → e ∈ Heap.vals x.1 := by
        intro e he hne
        obtain ⟨k, k1, k3⟩ := (hv e).1 he
        exact (hv' e).2 ⟨k, ⟨k1, fun hk => hne (by rw [← k3, hk, a2])⟩, k3⟩
      have hmin : ∀ e, e ∈ Heap.vals h → x.2.w ≤ e.w := by
        intro e he
        obtain ⟨k, k1, k3⟩ := (hv e).1 he
        have := a3 k k1
        rw [k3, ← a2] at this
        simp [GE.ord] at this
        exact this
      have hx2 : x.2 ∈ Heap.vals h := (hv _).2 ⟨l0, a1, a2.symm⟩
      obtain ⟨r1, r2⟩ := hran _ hx2
      have hpos : ∀ (u : UF.U), UF.Inv u E rt → u.n < 2 ^ fu → ∀ a, a < u.n → u.n < 2 ^ fu * u.sz a := fun u I h a ha =>
        Nat.lt_of_lt_of_le h (Nat.le_mul_of_pos_right _ (I.pos a ha))
      obtain ⟨u1, e1, I1, n1, s1, _⟩ := UF.setFor_spec fu u (vm x.2.a) I r1 (hpos u I hfu _ r1)
      obtain ⟨u2, e2, I2, n2, s2, _⟩ := UF.setFor_spec fu u1 (vm x.2.b) I1 (by omega) (hpos u1 I1 (by omega) _ (by omega))
      dsimp only
      rw [e1]
      simp only [Option.bind_some]
      rw [e2]
      simp only [Option.bind_some]
      by_cases hr : rt (vm x.2.a) = rt (vm x.2.b)
      · rw [if_neg (by simpa using hr)]
        have hcn := (I.conn _ _ r1 r2).1 hr
        refine ih x.1 u2 ne l E rt F (by omega) ⟨w', o'⟩ I2 (by omega) (fun e he => by rw [n2, n1]; exact hran e (hsub e he)) ?_ hind ?_
        · intro e he
          exact hspl e (hF e he) (fun h => hind.not_conn e he (by rw [h]; exact hcn))
        · exact hneed.imp_right (fun h => ⟨h.1, fun e he => h.2 e (hsub e he)⟩)
      · rw [if_pos (by simpa using hr)]
        have hcn : ¬ UF.Conn E (vm x.2.a) (vm x.2.b) := fun h => hr ((I.conn _ _ r1 r2).2 h)
        obtain ⟨u3, rt', m1, I3, n3, _⟩ := UF.merge_spec I2 (a := vm x.2.a) (b := vm x.2.b) (by omega) (by omega) (f := fu) (by omega)
        rw [m1]
        simp only [Option.bind_some]
        have hne : F ≠ [] := by
          rintro rfl
          rcases hneed with h | h
          · simp at h; exact c1 h.symm
          · have := h.2 _ hx2
            simp at this
            exact hcn this
        obtain ⟨F1, f, F2, q1, q2, q3⟩ := hind.exchange (e := (vm x.2.a, vm x.2.b)) hne hcn
        have hfm : f ∈ F := by rw [q1]; simp
        have hlen : F.length = (F1 ++ F2).length + 1 := by rw [q1]; simp; omega
        obtain ⟨r, g1, g2⟩ := ih x.1 u3 (ne + 1) (l + x.2.w) (E ++ [(vm x.2.a, vm x.2.b)]) rt' (F1 ++ F2) (by omega) ⟨w', o'⟩ I3 (by omega)
          (fun e he => by rw [n3, n2, n1]; exact hran e (hsub e he)) (fun e he => by
            refine hspl e (hF e ?_) (fun h => q2.not_conn e he (by rw [h]; exact .edge (by simp)))
            rw [q1]
            rcases List.mem_append.1 he with h | h <;> simp [h]) q2 (by
              rcases hneed with h | h
              · left; rw [h, hlen]; simp; omega
              · right
                refine ⟨by have := h.1; rw [hlen] at this; simp at this ⊢; omega, fun e he => ?_⟩
                have h5 := q3 (h.2 _ hx2)
                exact (h5 _ _).2 (h.2 e (hsub e he)))
        refine ⟨r, g1, ?_⟩
        have hw : wsum F = wsum (F1 ++ F2) + f.w := by rw [q1, wsum_app, wsum_app, wsum_cons]; omega
        have := hmin f (hF f hfm)
        omega
    · rw [if_neg hc]
      refine ⟨l, rfl, ?_⟩
      have : F = [] := by
        by_cases h1 : (ne : Int) = need
        · have : F.length = 0 := by rcases hneed with h | ⟨h, _⟩ <;> omega
          exact List.length_eq_zero_iff.1 this
        · have h2 : Heap.empty h = true := by
            cases h3 : Heap.empty h with
            | true => rfl
            | false => exact absurd ⟨h1, h3⟩ hc
          cases F with
          | nil => rfl
          | cons f F =>
            have := hF f (by simp)
            simp [Heap.empty] at h2
            simp [Heap.vals, Heap.locs, Heap.size, h2] at this
      subst this
      simp [wsum]

/-! ### Sums of the smallest -/

theorem perm_sum {a b : List Int} (h : a.Perm b) : a.sum = b.sum := by
  induction h with
  | nil => rfl
  | cons x _ ih => simp [ih]
  | swap x y l => simp; omega
  | trans _ _ ih1 ih2 => exact ih1.trans ih2

theorem take_sum_le : ∀ (S M R : List Int), S.Pairwise (· ≤ ·) → S.Perm (M ++ R) → (S.take M.length).sum ≤ M.sum := by
  intro S
  induction S with
  | nil =>
    intro M R _ hp
    have := hp.length_eq
    simp at this
    rw [List.length_eq_zero_iff.1 (by omega : M.length = 0)]
    simp
  | cons x S ih =>
    intro M R hs hp
    rw [List.pairwise_cons] at hs
    have hx : x ∈ M ++ R := hp.mem_iff.1 (by simp)
    cases M with
    | nil => simp
    | cons m M =>
      by_cases hxm : x ∈ m :: M
      · have q := List.perm_cons_erase hxm
        have h2 : S.Perm ((m :: M).erase x ++ R) := (List.perm_cons x).1 (hp.trans (q.append_right R))
        have h3 := ih _ R hs.2 h2
        have h4 : (m :: M).length = ((m :: M).erase x).length + 1 := by rw [q.length_eq]; rfl
        have h5 : (m :: M).sum = x + ((m :: M).erase x).sum := by rw [perm_sum q]; simp
        rw [h4, List.take_succ_cons, List.sum_cons, h5]
        omega
      · have hxR : x ∈ R := (List.mem_append.1 hx).resolve_left hxm
        have q := List.perm_cons_erase hxR
        have h2 : S.Perm (M ++ m :: R.erase x) := by
          refine (List.perm_cons x).1 (hp.trans ?_)
          refine ((q.append_left (m :: M))).trans ?_
          refine (List.perm_middle (l₁ := m :: M)).trans ?_
          exact (List.perm_cons x).2 List.perm_middle.symm
        have h3 := ih M _ hs.2 h2
        have hm : m = x ∨ m ∈ S := by
          have := hp.mem_iff.2 (by simp : m ∈ m :: M ++ R)
          simpa using this
        have h5 : x ≤ m := by
          rcases hm with h | h
          · omega
          · exact hs.1 m h
        simp only [List.length_cons, List.take_succ_cons, List.sum_cons]
        omega

theorem perm_rest : ∀ (M L : List Nat), M.Nodup → M ⊆ L → ∃ R, L.Perm (M ++ R) := by
  intro M
  induction M with
  | nil => intro L _ _; exact ⟨L, List.Perm.refl _⟩
  | cons a M ih =>
    intro L hn hs
    rw [List.nodup_cons] at hn
    obtain ⟨R, h⟩ := ih (L.erase a) hn.2 (fun y hy => by
      have hya : y ≠ a := fun h => hn.1 (h ▸ hy)
      exact (List.mem_erase_of_ne hya).2 (hs (List.mem_cons_of_mem _ hy)))
    exact ⟨R, (List.perm_cons_erase (hs List.mem_cons_self)).trans (List.Perm.cons a h)⟩

theorem seg_take (c : Nat → Int) : ∀ (k n f : Nat), k ≤ n → (MSort.seg c f n).take k = (List.range k).map (fun i => c (f + i)) := by
  intro k
  induction k with
  | zero => intros; simp
  | succ k ih =>
    intro n f h
    cases n with
    | zero => omega
    | succ n =>
      rw [MSort.seg, List.take_succ_cons, ih n (f + 1) (by omega), List.range_succ_eq_map]
      simp only [List.map_cons, List.map_map, Nat.add_zero]
      congr 1
      refine List.map_congr_left (fun i _ => ?_)
      simp only [Function.comp]
      congr 1; omega

theorem seg_self (es : List Int) : MSort.seg (fun i => es.getD i 0) 0 es.length = es := by
  have := seg_take (fun i => es.getD i 0) es.length es.length 0 (Nat.le_refl _)
  have hl : ∀ (v : Nat → Int) n f, (MSort.seg v f n).length = n := by
    intro v n
    induction n with
    | zero => intro f; rfl
    | succ n ih => intro f; simp [MSort.seg, ih]
  rw [List.take_of_length_le (by rw [hl]; exact Nat.le_refl _)] at this
  rw [this]
  refine List.ext_getElem (by simp) (fun i h1 h2 => ?_)
  simp [h2]

theorem foldl_add (c : Nat → Int) : ∀ (l : List Nat) (a : Int), l.foldl (fun s i => s + c i) a = a + (l.map c).sum := by
  intro l
  induction l with
  | nil => intro a; simp
  | cons x l ih => intro a; rw [List.foldl_cons, ih]; simp; omega

theorem seg_sorted (c : Nat → Int) (n : Nat) : ∀ (k f : Nat), f + k = n → (∀ i j, i < j → j < n → c i ≤ c j) →
    (MSort.seg c f k).Pairwise (· ≤ ·) := by
  intro k
  induction k with
  | zero => intros; exact List.Pairwise.nil
  | succ k ih =>
    intro f h hs
    refine List.pairwise_cons.2 ⟨?_, ih (f + 1) (by omega) hs⟩
    have hm : ∀ (k g : Nat) x, x ∈ MSort.seg c g k → ∃ i, g ≤ i ∧ i < g + k ∧ x = c i := by
      intro k
      induction k with
      | zero => intro g x hx; simp [MSort.seg] at hx
      | succ k ih' =>
        intro g x hx
        rcases List.mem_cons.1 hx with h | h
        · exact ⟨g, by omega, by omega, h⟩
        · obtain ⟨i, a, b, c⟩ := ih' (g + 1) x h
          exact ⟨i, by omega, by omega, c⟩
    intro x hx
    obtain ⟨i, a, b, rfl⟩ := hm k (f + 1) x hx
    exact hs f i (by omega) (by omega)

variable (t : Tsp4)

/-- Length of the way from `e` through the listed cities. -/
def Tsp4.length (t : Tsp4) : Nat → List Nat → Int
  | _, [] => 0
  | e, i :: p => t.d e i + t.length i p

theorem Tsp4.mem_verts {V s k i : Nat} : i ∈ t.verts V s k ↔ i < t.nv ∧ (V.testBit i = false ∨ i = s ∨ i = k) := by
  simp [Tsp4.verts, or_assoc]

theorem Tsp4.nodup_verts (V s k : Nat) : (t.verts V s k).Nodup := List.nodup_range.filter _

theorem Tsp4.mem_arcs {ts : List Nat} {g : GE} : g ∈ t.arcs ts ↔ g.a ∈ ts ∧ g.b ∈ ts ∧ g.a ≠ g.b ∧ g.w = t.d g.a g.b := by
  simp only [Tsp4.arcs, List.mem_flatMap, List.mem_map, List.mem_filter, decide_eq_true_iff]
  constructor
  · rintro ⟨a, h1, b, ⟨h2, h3⟩, rfl⟩
    exact ⟨h1, h2, h3, rfl⟩
  · rintro ⟨h1, h2, h3, h4⟩
    exact ⟨g.a, h1, g.b, ⟨h2, h3⟩, by cases g; simp at h4; simp [h4]⟩

/-- The cheapest arc costs at most every arc. -/
theorem Tsp4.cheapest_le {ts : List Nat} {i j : Nat} (h : j ∈ ts) (hij : i ≠ j) : t.cheapest ts i ≤ t.d i j := by
  have key : ∀ (l : List Nat) (r : Int), (l.foldl (fun r j => if r < t.d i j then r else t.d i j) r ≤ r) ∧
      ∀ j, j ∈ l → l.foldl (fun r j => if r < t.d i j then r else t.d i j) r ≤ t.d i j := by
    intro l
    induction l with
    | nil => intro r; simp
    | cons x l ih =>
      intro r
      obtain ⟨h1, h2⟩ := ih (if r < t.d i x then r else t.d i x)
      rw [List.foldl_cons]
      have h3 : (if r < t.d i x then r else t.d i x) ≤ r ∧ (if r < t.d i x then r else t.d i x) ≤ t.d i x := by split <;> omega
      refine ⟨by omega, fun j hj => ?_⟩
      rcases List.mem_cons.1 hj with rfl | hj
      · omega
      · exact h2 j hj
  exact (key _ _).2 j (by simp [h, hij])

/-- The arcs along a way. -/
def Tsp4.way (t : Tsp4) : Nat → List Nat → List GE
  | _, [] => []
  | a, b :: p => ⟨a, b, t.d a b⟩ :: t.way b p

theorem Tsp4.way_w : ∀ (p : List Nat) (a : Nat), wsum (t.way a p) = t.length a p := by
  intro p
  induction p with
  | nil => intro a; rfl
  | cons b p ih => intro a; simp only [Tsp4.way, wsum_cons, Tsp4.length]; rw [ih]

theorem Tsp4.way_len : ∀ (p : List Nat) (a : Nat), (t.way a p).length = p.length := by
  intro p
  induction p with
  | nil => intro a; rfl
  | cons b p ih => intro a; simp [Tsp4.way, ih]

theorem Tsp4.way_ends (vm : Nat → Nat) : ∀ (p : List Nat) (a : Nat),
    (t.way a p).map (fun e : GE => (vm e.a, vm e.b)) = UF.pairsOf ((a :: p).map vm) := by
  intro p
  induction p with
  | nil => intro a; rfl
  | cons b p ih => intro a; simpa [Tsp4.way, UF.pairsOf] using ih b

theorem Tsp4.way_mem : ∀ (p : List Nat) (a : Nat) (ts : List Nat), (a :: p).Nodup → (∀ i, i ∈ a :: p → i ∈ ts) → ∀ g, g ∈ t.way a p → g ∈ t.arcs ts := by
  intro p
  induction p with
  | nil => intro a ts _ _ g hg; simp [Tsp4.way] at hg
  | cons b p ih =>
    intro a ts hn hm g hg
    rw [List.nodup_cons] at hn
    rcases List.mem_cons.1 hg with rfl | hg
    · exact t.mem_arcs.2 ⟨hm a (by simp), hm b (by simp), fun h => hn.1 (by rw [show a = b from h]; simp), rfl⟩
    · exact ih b ts hn.2 (fun i hi => hm i (List.mem_cons_of_mem _ hi)) g hg

theorem mkSets_inv : ∀ (ts : List Nat) (u : UF.U) (rt : Nat → Nat), UF.Inv u [] rt → ∃ rt', UF.Inv (mkSets u ts) [] rt' ∧ (mkSets u ts).n = u.n + ts.length := by
  intro ts
  induction ts with
  | nil => intro u rt I; exact ⟨rt, I, rfl⟩
  | cons x ts ih =>
    intro u rt I
    obtain ⟨rt', h1, h2⟩ := ih _ _ I.makeSet
    exact ⟨rt', h1, by rw [mkSets, h2]; simp [UF.makeSet]; omega⟩

theorem Tsp4.pq_spec {ts : List Nat} (hne : ts ≠ []) : Heap.Inv GE.ord (t.pq ts) ∧ (Heap.vals (t.pq ts)).Perm (t.arcs ts) ∧
    (t.pq ts).at_ = (t.arcs ts).length + 1 := by
  have hl : 1 ≤ ts.length * ts.length := by
    have : 1 ≤ ts.length := List.length_pos_iff.2 hne
    exact Nat.mul_le_mul this this
  obtain ⟨a, b, c⟩ := Heap.insertAll_spec (t.arcs ts) (Heap.WF_mk (⟨0, 0, 0⟩ : GE) _ hl)
  obtain ⟨s, o⟩ := Heap.buildHeap_spec swo_ge a
  unfold Tsp4.pq
  rw [insAll_eq]
  refine ⟨⟨s.wf, o⟩, ?_, ?_⟩
  · refine List.Perm.trans ?_ (b.trans ?_)
    · rw [Heap.vals, s.val]; exact (Heap.locs_perm a s.wf s.live).map _
    · simp [Heap.vals, Heap.locs, Heap.size, Heap.mk']
  · rw [s.at_eq, c]; show 1 + _ = _; omega

theorem idxOf_inj {ts : List Nat} {a b : Nat} (ha : a ∈ ts) (hb : b ∈ ts) (h : ts.idxOf a = ts.idxOf b) : a = b := by
  have h1 := List.getElem_idxOf (List.idxOf_lt_length_iff.2 ha)
  have h2 := List.getElem_idxOf (List.idxOf_lt_length_iff.2 hb)
  rw [← h1, ← h2]
  congr 1

theorem nodup_idx {ts : List Nat} : ∀ (q : List Nat), (∀ i, i ∈ q → i ∈ ts) → q.Nodup → (q.map (fun v => ts.idxOf v)).Nodup := by
  intro q
  induction q with
  | nil => intros; exact List.nodup_nil
  | cons a q ih =>
    intro hm hn
    rw [List.nodup_cons] at hn
    rw [List.map_cons, List.nodup_cons]
    refine ⟨fun h => ?_, ih (fun i hi => hm i (List.mem_cons_of_mem _ hi)) hn.2⟩
    obtain ⟨b, hb, he⟩ := List.mem_map.1 h
    have := idxOf_inj (hm b (List.mem_cons_of_mem _ hb)) (hm a (by simp)) he
    exact hn.1 (this ▸ hb)

theorem conn_pairs : ∀ (q : List Nat) (a : Nat) (E : List (Nat × Nat)), (∀ e, e ∈ UF.pairsOf (a :: q) → e ∈ E) → ∀ v, v ∈ a :: q → UF.Conn E a v := by
  intro q
  induction q with
  | nil => intro a E _ v hv; simp at hv; subst hv; exact .refl _
  | cons b q ih =>
    intro a E h v hv
    rcases List.mem_cons.1 hv with rfl | hv
    · exact .refl _
    · exact (UF.Conn.edge (h (a, b) (by simp [UF.pairsOf]))).trans (ih b E (fun e he => h e (by simp [UF.pairsOf, he])) v hv)

/-- The spanning-tree loop stays below every simple way with the wanted number of arcs, and below every
way through all the cities. -/
theorem Tsp4.mst_way {V src sink hops : Nat} (hsrc : src < t.nv) {a : Nat} {p : List Nat} (hn : (a :: p).Nodup)
    (hm : ∀ i, i ∈ a :: p → i ∈ t.verts V src sink)
    (hlen : (t.nv : Int) - hops = p.length ∨ ((p.length : Int) ≤ (t.nv : Int) - hops ∧ ∀ i, i ∈ t.verts V src sink → i ∈ a :: p)) :
    ∃ m, t.mst V src sink hops = some m ∧ m ≤ t.length a p := by
  unfold Tsp4.mst
  dsimp only
  have hne : t.verts V src sink ≠ [] := List.ne_nil_of_mem (t.mem_verts.2 ⟨hsrc, .inr (.inl rfl)⟩)
  generalize hts : t.verts V src sink = ts at *
  obtain ⟨h1, h2, h3⟩ := t.pq_spec hne
  obtain ⟨rt, I, hI⟩ := mkSets_inv ts UF.empty id UF.inv_empty
  have hI : (mkSets UF.empty ts).n = ts.length := by rw [hI]; simp [UF.empty]
  obtain ⟨r, g1, g2⟩ := mstLoop_le (vm := fun v => ts.idxOf v) (fu := ts.length) (need := (t.nv : Int) - hops) ((t.arcs ts).length + 1) (t.pq ts)
    (mkSets UF.empty ts) 0 0 [] rt (t.way a p) (by omega) h1 I (by rw [hI]; exact Nat.lt_two_pow_self)
    (fun e he => by
      have := t.mem_arcs.1 (h2.mem_iff.1 he)
      rw [hI]
      exact ⟨List.idxOf_lt_length_iff.2 this.1, List.idxOf_lt_length_iff.2 this.2.1⟩)
    (fun e he => h2.mem_iff.2 (t.way_mem p a ts hn hm e he))
    (by
      refine UF.ind_path (p.map fun v => ts.idxOf v) (ts.idxOf a) _ [] ?_ ?_ (fun _ _ e he => by simp at he)
      · exact t.way_ends (fun v => ts.idxOf v) p a
      · exact nodup_idx (a :: p) hm hn)
    (by
      rw [t.way_len]
      rcases hlen with h | ⟨h, h'⟩
      · left; simpa using h
      · right
        refine ⟨by simpa using h, fun e he => ?_⟩
        have he := t.mem_arcs.1 (h2.mem_iff.1 he)
        rw [List.nil_append, t.way_ends (fun v => ts.idxOf v)]
        have hall : ∀ i, i ∈ ts → UF.Conn (UF.pairsOf ((a :: p).map fun v => ts.idxOf v)) (ts.idxOf a) (ts.idxOf i) := fun i hi =>
          conn_pairs (p.map fun v => ts.idxOf v) (ts.idxOf a) _ (fun e he => he) _ (by
            have := List.mem_map_of_mem (f := fun v => ts.idxOf v) (h' i hi)
            simpa using this)
        exact (hall e.a he.1).symm.trans (hall e.b he.2.1))
  refine ⟨r, g1, ?_⟩
  rw [t.way_w] at g2
  omega

/-- The cheapest-arc sum stays below every way to `src` with the wanted number of arcs. -/
theorem Tsp4.greedy_way {V src sink hops : Nat} (hsrc : src < t.nv) {p : List Nat} (hn : p.Nodup)
    (hm : ∀ i, i ∈ p → i ∈ t.verts V src sink ∧ i ≠ src) (hlen : t.nv - hops = p.length) :
    ∃ g, t.greedy V src sink hops = some g ∧ ∀ (a : Nat) (q : List Nat), p = a :: q → g ≤ t.length a (q ++ [src]) := by
  unfold Tsp4.greedy
  dsimp only
  have hms : src ∈ t.verts V src sink := t.mem_verts.2 ⟨hsrc, .inr (.inl rfl)⟩
  generalize t.verts V src sink = ts at *
  obtain ⟨R, hR⟩ := perm_rest p (ts.filter fun i => decide (i ≠ src)) hn (fun i hi => by simpa using hm i hi)
  have hes : (t.edge ts src).Perm (p.map (t.cheapest ts) ++ R.map (t.cheapest ts)) := by
    rw [← List.map_append]; exact hR.map _
  have hle : t.nv - hops ≤ (t.edge ts src).length := by rw [hes.length_eq]; simp; omega
  rw [if_pos hle]
  refine ⟨_, rfl, ?_⟩
  generalize hesd : t.edge ts src = es at *
  obtain ⟨s1, s2, _⟩ := MSort.mergeSort_sorts (le := fun a b : Int => a ≤ b) (cmp := fun a b : Int => decide (a < b))
    ⟨fun a b => by omega, fun a b c => by omega⟩ (fun a b => ⟨by simp; omega, by simp⟩) (fun i => es.getD i 0) es.length
  generalize MSort.mergeSort (fun a b : Int => decide (a < b)) (fun i => es.getD i 0) es.length = c at *
  rw [seg_self] at s1
  have h1 := take_sum_le (MSort.seg c 0 es.length) _ _ (seg_sorted c es.length es.length 0 (by omega) s2) (s1.trans hes)
  rw [List.length_map, ← hlen, seg_take c _ _ _ hle] at h1
  rw [foldl_add]
  simp only [Nat.zero_add] at h1
  intro a q hp
  have h2 : ∀ (q : List Nat) (a : Nat), (a :: q).Nodup → (∀ i, i ∈ a :: q → i ∈ ts ∧ i ≠ src) →
      ((a :: q).map (t.cheapest ts)).sum ≤ t.length a (q ++ [src]) := by
    intro q
    induction q with
    | nil =>
      intro a _ hm
      have := t.cheapest_le hms (hm a (by simp)).2
      simp [Tsp4.length]; omega
    | cons b q ih =>
      intro a hn hm
      rw [List.nodup_cons] at hn
      have h1 := ih b hn.2 (fun i hi => hm i (List.mem_cons_of_mem _ hi))
      have h2 := t.cheapest_le (hm b (by simp)).1 (i := a) (fun h => hn.1 (by rw [h]; simp))
      rw [List.map_cons, List.sum_cons, List.cons_append, Tsp4.length]
      omega
  subst hp
  have := h2 q a hn hm
  have h1' : ((List.range (t.nv - hops)).map c).sum ≤ _ := h1
  omega

/-! ### The model -/

variable {J : Int}

/-- States in the middle of a way: the depot and the current city are visited, and only the root
stands at the depot. -/
structure Tsp4.Ok (t : Tsp4) (x : Tsp4S) : Prop where
  hops : x.hops < t.nv
  depot : x.A.testBit 0 = true
  cur : x.A.testBit x.e = true
  lt : x.e < t.nv
  root : x.e = 0 → x.hops = 0

theorem Tsp4.eqs_false {x : Tsp4S} (hx : x.hops < t.nv) : (t.mdl J).eqs x = false := by simp [Tsp4.mdl]; omega

theorem Tsp4.step_iff {x x' : Tsp4S} {l : Int} (hx : t.Ok x) :
    Step (t.mdl J) x l x' ↔ (t.nv = x.hops + 1 ∧ l = 0 ∧ x' = (t.mdl J).stt) ∨
      (x.hops + 1 < t.nv ∧ ∃ i : Nat, l = i ∧ i < t.nv ∧ x.A.testBit i = false ∧ x' = ⟨x.A ||| 2 ^ i, i, x.hops + 1⟩) := by
  have hlt := hx.hops
  unfold Step
  rw [t.eqs_false hlt]
  by_cases hc : x.hops + 1 ≥ t.nv
  · have hl : (t.mdl J).lgf x = [0] := by simp only [Tsp4.mdl]; rw [if_pos hc]
    rw [hl, List.mem_singleton]
    constructor
    · rintro ⟨_, rfl, h⟩
      simp [Tsp4.mdl] at h
      exact .inl ⟨by omega, rfl, h.symm⟩
    · rintro (⟨_, rfl, h⟩ | ⟨h, _⟩)
      · exact ⟨rfl, rfl, by rw [h]; rfl⟩
      · omega
  · have hl : (t.mdl J).lgf x = ((List.range t.nv).filter fun i => !x.A.testBit i).map (fun i : Nat => (i : Int)) := by
      simp only [Tsp4.mdl]; rw [if_neg hc]
    rw [hl, List.mem_map]
    have hi0 : ∀ i : Nat, x.A.testBit i = false → ¬ ((i : Int) = 0) := by
      intro i h h0
      have : i = 0 := by omega
      rw [this, hx.depot] at h
      simp at h
    constructor
    · rintro ⟨_, ⟨i, hi, rfl⟩, h⟩
      simp only [List.mem_filter, List.mem_range, Bool.not_eq_true'] at hi
      refine .inr ⟨by omega, i, rfl, hi.1, hi.2, ?_⟩
      simp only [Tsp4.mdl] at h
      rw [if_neg (hi0 i hi.2)] at h
      simpa using h.symm
    · rintro (⟨h, _⟩ | ⟨_, i, rfl, h2, h3, h6⟩)
      · omega
      · refine ⟨rfl, ⟨i, ?_, rfl⟩, ?_⟩
        · simp only [List.mem_filter, List.mem_range, Bool.not_eq_true']
          exact ⟨h2, h3⟩
        · simp only [Tsp4.mdl]
          rw [if_neg (hi0 i h3), h6]; simp

theorem Tsp4.Ok.step {t : Tsp4} {x : Tsp4S} (hx : t.Ok x) {i : Nat} (h1 : x.hops + 1 < t.nv) (h2 : i < t.nv) (h3 : x.A.testBit i = false) :
    t.Ok ⟨x.A ||| 2 ^ i, i, x.hops + 1⟩ :=
  ⟨h1, by rw [Nat.testBit_or, hx.depot]; rfl, by simp [Nat.testBit_or, Nat.testBit_two_pow_self], h2, fun h => by
    dsimp only at h
    rw [h, hx.depot] at h3
    simp at h3⟩

/-- The completions of a state: the depot comes last, cities not on all ways into it before, each at most once. -/
theorem Tsp4.path_iff : ∀ (k : Nat) (x : Tsp4S) (ls : List Int) (c : Int), t.nv = x.hops + 1 + k → t.Ok x →
    (Path (t.mdl J) x ls c (t.mdl J).stt ↔ ∃ p : List Nat, ls = (p ++ [0]).map (fun i : Nat => (i : Int)) ∧ p.length = k ∧ p.Nodup ∧
      (∀ i, i ∈ p → i < t.nv ∧ x.A.testBit i = false) ∧ c = t.length x.e (p ++ [0])) := by
  intro k
  induction k with
  | zero =>
    intro x ls c hk hx
    have hlt := hx.hops
    constructor
    · intro hp
      generalize hz : (t.mdl J).stt = z at hp
      cases hp with
      | nil => rw [← hz] at hlt; simp [Tsp4.mdl] at hlt
      | @cons _ x' _ l ls' v' hst hp' =>
        subst hz
        rcases (t.step_iff hx).1 hst with ⟨h1, h2, h3⟩ | ⟨h1, _⟩
        · subst h3 h2
          obtain ⟨e1, e2, _⟩ := hp'.of_terminal (by simp [Tsp4.mdl])
          subst e1; subst e2
          exact ⟨[], rfl, rfl, List.nodup_nil, fun i hi => by simp at hi, by simp [Tsp4.length, Tsp4.mdl]⟩
        · omega
    · rintro ⟨p, h1, h2, _, _, h5⟩
      have : p = [] := List.length_eq_zero_iff.1 h2
      subst this
      subst h1
      rw [h5]
      have := Path.cons (m := t.mdl J) ((t.step_iff hx (l := 0) (x' := (t.mdl J).stt)).2 (.inl ⟨by omega, rfl, rfl⟩)) (Path.nil _)
      simpa [Tsp4.length, Tsp4.mdl] using this
  | succ k ih =>
    intro x ls c hk hx
    have hlt := hx.hops
    constructor
    · intro hp
      generalize hz : (t.mdl J).stt = z at hp
      cases hp with
      | nil => rw [← hz] at hlt; simp [Tsp4.mdl] at hlt
      | @cons _ x' _ l ls' v' hst hp' =>
        subst hz
        rcases (t.step_iff hx).1 hst with ⟨h1, _⟩ | ⟨h1, i, h2, h3, h4, h7⟩
        · omega
        · subst h7 h2
          obtain ⟨p, q1, q2, q3, q4, q5⟩ := (ih ⟨x.A ||| 2 ^ i, i, x.hops + 1⟩ ls' v' (by dsimp only; omega) (hx.step h1 h3 h4)).1 hp'
          refine ⟨i :: p, by rw [q1]; simp, by simp [q2], ?_, ?_, ?_⟩
          · rw [List.nodup_cons]
            refine ⟨fun hi => ?_, q3⟩
            have := (q4 i hi).2
            rw [Nat.testBit_or, Nat.testBit_two_pow_self] at this
            simp at this
          · intro j hj
            rcases List.mem_cons.1 hj with rfl | hj
            · exact ⟨h3, h4⟩
            · obtain ⟨a, c⟩ := q4 j hj
              rw [Nat.testBit_or, Bool.or_eq_false_iff] at c
              exact ⟨a, c.1⟩
          · rw [q5]; simp [Tsp4.length, Tsp4.mdl]
    · rintro ⟨p, h1, h2, h3, h4, h5⟩
      cases p with
      | nil => simp at h2
      | cons i p =>
        obtain ⟨a, c'⟩ := h4 i List.mem_cons_self
        rw [List.nodup_cons] at h3
        have hq := (ih ⟨x.A ||| 2 ^ i, i, x.hops + 1⟩ ((p ++ [0]).map (fun i : Nat => (i : Int))) (t.length i (p ++ [0])) (by dsimp only; omega)
          (hx.step (by omega) a c')).2
          ⟨p, rfl, by simpa using h2, h3.2, fun j hj => by
            obtain ⟨q1, q3⟩ := h4 j (List.mem_cons_of_mem _ hj)
            refine ⟨q1, ?_⟩
            rw [Nat.testBit_or, q3, Nat.testBit_two_pow]
            have : i ≠ j := fun h => h3.1 (h ▸ hj)
            simp [this], rfl⟩
        have := Path.cons (m := t.mdl J) ((t.step_iff hx (l := i)).2 (.inr ⟨by omega, i, rfl, a, c', rfl⟩)) hq
        subst h1
        rw [h5]
        simpa [Tsp4.length, Tsp4.mdl] using this

theorem Tsp4.length_app : ∀ (p q : List Nat) (a : Nat), t.length a (p ++ q) = t.length a p + t.length (p.getLastD a) q := by
  intro p
  induction p with
  | nil => intro q a; simp [Tsp4.length]
  | cons b p ih =>
    intro q a
    rw [List.cons_append, Tsp4.length, Tsp4.length, ih]
    have : (b :: p).getLastD a = p.getLastD b := by cases p <;> rfl
    rw [this]; omega

/-- Distances between cities are not negative. -/
def Tsp4.Nonneg (t : Tsp4) : Prop := ∀ i j, i < t.nv → j < t.nv → 0 ≤ t.d i j

/-- C76: the spanning-tree bound: it ends with a value that no completion of the state beats.  This holds at
every state, merged or not, and at the root. -/
theorem tsp4_mst (hd : t.Nonneg) {x : Tsp4S} (hx : t.Ok x) {ls : List Int} {c : Int} (hp : Path (t.mdl J) x ls c (t.mdl J).stt) :
    ∃ m, t.mst x.A 0 x.e x.hops = some m ∧ m ≤ c := by
  have hlt := hx.hops
  obtain ⟨p, _, h2, h3, h4, rfl⟩ := (t.path_iff (t.nv - x.hops - 1) x ls c (by omega) hx).1 hp
  have h0p : 0 ∉ p := fun h => by have := (h4 0 h).2; rw [hx.depot] at this; simp at this
  have hep : x.e ∉ p := fun h => by have := (h4 _ h).2; rw [hx.cur] at this; simp at this
  have hmem : ∀ i, i ∈ p → i ∈ t.verts x.A 0 x.e := fun i hi => t.mem_verts.2 ⟨(h4 i hi).1, .inl (h4 i hi).2⟩
  have he : x.e ∈ t.verts x.A 0 x.e := t.mem_verts.2 ⟨hx.lt, .inr (.inr rfl)⟩
  have h0 : 0 ∈ t.verts x.A 0 x.e := t.mem_verts.2 ⟨by omega, .inr (.inl rfl)⟩
  by_cases hx0 : x.e = 0
  · have hh := hx.root hx0
    have hn : (x.e :: p).Nodup := List.nodup_cons.2 ⟨hep, h3⟩
    obtain ⟨m, m1, m2⟩ := t.mst_way (V := x.A) (src := 0) (sink := x.e) (hops := x.hops) (by omega) hn (fun i hi => by
        rcases List.mem_cons.1 hi with rfl | hi
        · exact he
        · exact hmem i hi) (.inr ⟨by omega, fun i hi => by
        refine nodup_full (x.e :: p) (List.range t.nv) hn (fun j hj => ?_) (by simp; omega) i (by
          rw [List.mem_range]; exact (t.mem_verts.1 hi).1)
        rw [List.mem_range]
        rcases List.mem_cons.1 hj with rfl | hj
        · exact hx.lt
        · exact (h4 j hj).1⟩)
    refine ⟨m, m1, ?_⟩
    rw [t.length_app]
    have : 0 ≤ t.d (p.getLastD x.e) 0 := by
      refine hd _ _ ?_ (by omega)
      rw [List.getLastD_eq_getLast?]
      cases hg : p.getLast? with
      | none => exact hx.lt
      | some z => exact (h4 z (List.mem_of_getLast? hg)).1
    simp only [Tsp4.length]
    omega
  · refine t.mst_way (V := x.A) (src := 0) (sink := x.e) (hops := x.hops) (by omega) ?_ (fun i hi => ?_) (.inl ?_)
    · rw [← List.cons_append, List.nodup_append]
      refine ⟨List.nodup_cons.2 ⟨hep, h3⟩, by simp, fun a ha b hb hab => ?_⟩
      simp at hb
      subst hb
      subst hab
      rcases List.mem_cons.1 ha with h | h
      · exact hx0 h.symm
      · exact h0p h
    · rcases List.mem_cons.1 hi with rfl | hi
      · exact he
      · rcases List.mem_append.1 hi with hi | hi
        · exact hmem i hi
        · simp at hi; subst hi; exact h0
    · simp; omega

/-- C77: the cheapest-arc bound away from the root: it is defined and no completion beats it, for all
distances. -/
theorem tsp4_greedy {x : Tsp4S} (hx : t.Ok x) (hx0 : x.e ≠ 0) {ls : List Int} {c : Int} (hp : Path (t.mdl J) x ls c (t.mdl J).stt) :
    ∃ g, t.greedy x.A 0 x.e x.hops = some g ∧ g ≤ c := by
  have hlt := hx.hops
  obtain ⟨p, _, h2, h3, h4, rfl⟩ := (t.path_iff (t.nv - x.hops - 1) x ls c (by omega) hx).1 hp
  have h0p : 0 ∉ p := fun h => by have := (h4 0 h).2; rw [hx.depot] at this; simp at this
  have hep : x.e ∉ p := fun h => by have := (h4 _ h).2; rw [hx.cur] at this; simp at this
  obtain ⟨g, g1, g2⟩ := t.greedy_way (V := x.A) (src := 0) (sink := x.e) (hops := x.hops) (by omega) (p := x.e :: p) (List.nodup_cons.2 ⟨hep, h3⟩)
    (fun i hi => by
      rcases List.mem_cons.1 hi with rfl | hi
      · exact ⟨t.mem_verts.2 ⟨hx.lt, .inr (.inr rfl)⟩, hx0⟩
      · exact ⟨t.mem_verts.2 ⟨(h4 i hi).1, .inl (h4 i hi).2⟩, fun h => h0p (h ▸ hi)⟩) (by simp; omega)
  exact ⟨g, g1, g2 x.e p rfl⟩

theorem Tsp4.greedy_root (hn : 1 ≤ t.nv) (V : Nat) : t.greedy V 0 0 0 = none := by
  unfold Tsp4.greedy
  dsimp only
  rw [if_neg]
  have h1 : (t.edge (t.verts V 0 0) 0).length < t.nv := by
    unfold Tsp4.edge
    rw [List.length_map]
    have hn' : ((t.verts V 0 0).filter fun i => decide (i ≠ 0)).Nodup := (t.nodup_verts V 0 0).filter _
    have h0 : (0 : Nat) ∉ (t.verts V 0 0).filter fun i => decide (i ≠ 0) := by simp
    obtain ⟨R, hR⟩ := perm_rest _ (List.range t.nv) (List.nodup_cons.2 ⟨h0, hn'⟩) (fun i hi => by
      rw [List.mem_range]
      rcases List.mem_cons.1 hi with rfl | hi
      · omega
      · exact (t.mem_verts.1 (List.mem_filter.1 hi).1).1)
    have := hR.length_eq
    simp only [List.length_cons, List.length_range, List.length_append] at this
    omega
  omega

/-- C77 is false at the root: on every instance the sum reads a cell that was never written. -/
theorem tsp4_greedy_false (hn : 1 ≤ t.nv) : t.bound (t.mdl J).sti = none := by
  unfold Tsp4.bound
  have : t.greedy (t.mdl J).sti.A 0 (t.mdl J).sti.e (t.mdl J).sti.hops = none := t.greedy_root hn 1
  rw [this]
  cases t.mst (t.mdl J).sti.A 0 (t.mdl J).sti.e (t.mdl J).sti.hops <;> rfl

/-! ### The engine's hypotheses -/

/-- Fewer visited cities allow the same completions. -/
theorem Tsp4.mono {x : Tsp4S} (hx : t.Ok x) {B : Nat} (hy : t.Ok ⟨B, x.e, x.hops⟩) (hB : ∀ i, B.testBit i = true → x.A.testBit i = true)
    {ls : List Int} {c : Int} (hp : Path (t.mdl J) x ls c (t.mdl J).stt) : Path (t.mdl J) ⟨B, x.e, x.hops⟩ ls c (t.mdl J).stt := by
  have hlt := hx.hops
  obtain ⟨p, h1, h2, h3, h4, h5⟩ := (t.path_iff (t.nv - x.hops - 1) x ls c (by omega) hx).1 hp
  refine (t.path_iff (t.nv - x.hops - 1) _ ls c (by dsimp only; omega) hy).2 ⟨p, h1, h2, h3, fun i hi => ⟨(h4 i hi).1, ?_⟩, h5⟩
  cases hb : B.testBit i with
  | false => rfl
  | true => have := hB i hb; rw [(h4 i hi).2] at this; simp at this

theorem Tsp4.Ok.merge {t : Tsp4} {a b : Tsp4S} (ha : t.Ok a) (hb : t.Ok b) (he : a.e = b.e) : t.Ok ⟨a.A &&& b.A, a.e, a.hops⟩ :=
  ⟨ha.hops, by rw [Nat.testBit_and, ha.depot, hb.depot]; rfl, by
    dsimp only
    rw [Nat.testBit_and, ha.cur, he, hb.cur]; rfl, ha.lt, ha.root⟩

theorem Tsp4.smf_some {a b c : Tsp4S} (hm : (t.mdl J).smf a b = some c) : a.e = b.e ∧ a.hops = b.hops ∧ c = ⟨a.A &&& b.A, a.e, a.hops⟩ := by
  simp only [Tsp4.mdl] at hm
  split at hm
  · rename_i hc
    simp at hm
    exact ⟨hc.1, hc.2.1, hm.symm⟩
  · simp at hm

/-- C76: the merge is a valid relaxation: a merged state keeps every completion of both states, at the same
length. -/
theorem tsp4_merge_valid {a b c : Tsp4S} (ha : t.Ok a) (hb : t.Ok b) (hm : (t.mdl J).smf a b = some c) {ls : List Int} {v : Int}
    (h : Path (t.mdl J) a ls v (t.mdl J).stt ∨ Path (t.mdl J) b ls v (t.mdl J).stt) : Path (t.mdl J) c ls v (t.mdl J).stt := by
  obtain ⟨e1, e2, rfl⟩ := t.smf_some hm
  have hc := ha.merge hb e1
  rcases h with hp | hp
  · exact t.mono ha hc (fun i hi => by rw [Nat.testBit_and, Bool.and_eq_true] at hi; exact hi.1) hp
  · rw [e1, e2] at hc ⊢
    exact t.mono hb hc (fun i hi => by rw [Nat.testBit_and, Bool.and_eq_true] at hi; exact hi.2) hp

/-- Distances between two different cities are at most `D` (from the only city to itself if there is one). -/
def Tsp4.Bnd (t : Tsp4) (D : Int) : Prop := 0 ≤ D ∧ (∀ i j, i < t.nv → j < t.nv → i ≠ j ∨ t.nv = 1 → t.d i j ≤ D) ∧ (t.nv : Int) * D < 2147483647

theorem Tsp4.relx {D : Int} (hD : t.Bnd D) {s0 x : Tsp4S} {v0 v : Int} (h0 : t.Ok s0) (hv0 : v0 ≤ s0.hops * D)
    (h : Relx (t.mdl J) t.rank s0 v0 x v) : ((t.Ok x ∧ (x.e = 0 → x = s0)) ∨ x = (t.mdl J).stt) ∧ v ≤ x.hops * D := by
  obtain ⟨d1, d2, _⟩ := hD
  induction h with
  | swap _ _ hsw _ ihsw => obtain rfl := (same_iff _ _).1 hsw; exact ihsw
  | root => exact ⟨.inl ⟨h0, fun _ => rfl⟩, hv0⟩
  | @step x x' l v _ hst ih =>
    obtain ⟨i1, i3⟩ := ih
    have hx : t.Ok x := by
      rcases i1 with a | a
      · exact a.1
      · have := hst.1; rw [a] at this; simp [Tsp4.mdl] at this
    have hlt := hx.hops
    have e1 : ((x.hops + 1 : Nat) : Int) * D = x.hops * D + D := by
      rw [Int.natCast_add, Int.add_mul]; simp
    rcases (t.step_iff hx).1 hst with ⟨h1, h2, h3⟩ | ⟨h1, i, h2, h3, h4, h7⟩
    · subst h3 h2
      refine ⟨.inr rfl, ?_⟩
      have := d2 x.e 0 hx.lt (by omega) (by have := hx.root; omega)
      show v + t.d x.e 0 ≤ ((t.nv : Nat) : Int) * D
      rw [h1, e1]
      omega
    · subst h7 h2
      refine ⟨.inl ⟨hx.step h1 h3 h4, fun h => ?_⟩, ?_⟩
      · dsimp only at h
        rw [h, hx.depot] at h4
        simp at h4
      · have := d2 x.e i hx.lt h3 (.inl fun h => by rw [← h, hx.cur] at h4; cases h4)
        show v + t.d x.e (i : Int).toNat ≤ ((x.hops + 1 : Nat) : Int) * D
        rw [e1, show ((i : Int)).toNat = i by omega]
        omega
  | @mergeL a b c v v' _ _ ha hb hr hm ih1 ih2 =>
    obtain ⟨e1, e2, rfl⟩ := t.smf_some hm
    have oa := ih1.1.resolve_right (fun x => by rw [x] at ha; simp [Tsp4.mdl] at ha)
    have ob := ih2.1.resolve_right (fun x => by rw [x] at hb; simp [Tsp4.mdl] at hb)
    refine ⟨.inl ⟨oa.1.merge ob.1 e1, fun h => ?_⟩, ih1.2⟩
    dsimp only at h
    have q1 := oa.2 h
    have q2 := ob.2 (e1 ▸ h)
    rw [q1, q2, Nat.and_self]
  | @mergeR a b c v v' _ _ ha hb hr hm ih1 ih2 =>
    obtain ⟨e1, e2, rfl⟩ := t.smf_some hm
    have oa := ih1.1.resolve_right (fun x => by rw [x] at ha; simp [Tsp4.mdl] at ha)
    have ob := ih2.1.resolve_right (fun x => by rw [x] at hb; simp [Tsp4.mdl] at hb)
    refine ⟨.inl ⟨oa.1.merge ob.1 e1, fun h => ?_⟩, by dsimp only; rw [e2]; exact ih2.2⟩
    dsimp only at h
    have q1 := oa.2 h
    have q2 := ob.2 (e1 ▸ h)
    rw [q1, q2, Nat.and_self]

theorem Tsp4.bound_stt (J : Int) : t.bound (t.mdl J).stt = some 0 := by
  have h1 : t.mst t.all 0 0 t.nv = some 0 := by
    unfold Tsp4.mst
    dsimp only
    unfold mstLoop
    rw [if_neg]
    rintro ⟨h, _⟩
    exact h (by simp)
  have h2 : t.greedy t.all 0 0 t.nv = some 0 := by
    unfold Tsp4.greedy
    dsimp only
    rw [if_pos (by simp)]
    simp
  unfold Tsp4.bound
  show (t.mst t.all 0 0 t.nv).bind _ = _
  rw [h1]
  show (t.greedy t.all 0 0 t.nv).map _ = _
  rw [h2]; rfl

/-- C76, C77: the local bound is valid wherever it is defined, and it is defined at every state but the root. -/
theorem tsp4_bound_partial (hd : t.Nonneg) {x : Tsp4S} (hx : t.Ok x) (hx0 : x.e ≠ 0) {ls : List Int} {c : Int}
    (hp : Path (t.mdl J) x ls c (t.mdl J).stt) : ∃ b, t.bound x = some b ∧ b ≤ c := by
  obtain ⟨m, m1, m2⟩ := tsp4_mst t hd hx hp
  obtain ⟨g, g1, g2⟩ := tsp4_greedy t hx hx0 hp
  refine ⟨max m g, ?_, by omega⟩
  unfold Tsp4.bound
  rw [m1, g1]; rfl

/-- The model meets the engine's hypotheses from every state away from the root; from the root when
the value read there happens to be at most the length of every tour. -/
theorem Tsp4.layered {D : Int} (hD : t.Bnd D) (hd : t.Nonneg) {s0 : Tsp4S} {v0 : Int} (h0 : t.Ok s0) (hv0 : v0 ≤ s0.hops * D)
    (hJ : s0.e = 0 → ∀ c, Val (t.mdl J) s0 c → J ≤ c) : Layered (t.mdl J) t.rank s0 v0 where
  sink := by simp [Tsp4.mdl]
  src := t.eqs_false h0.hops
  range := fun x v h => by
    obtain ⟨h1, h3⟩ := t.relx hD h0 hv0 h
    obtain ⟨d1, _, d3⟩ := hD
    have hle : (x.hops : Int) ≤ t.nv := by
      rcases h1 with h | h
      · have := h.1.hops; omega
      · rw [h]; simp [Tsp4.mdl]
    have := Int.mul_le_mul_of_nonneg_right hle d1
    simp [Tsp4.mdl, Sense.better, Sense.best0]; omega
  step := fun x v l x' h hst => by
    have hx : t.Ok x := by
      rcases (t.relx hD h0 hv0 h).1 with a | a
      · exact a.1
      · have := hst.1; rw [a] at this; simp [Tsp4.mdl] at this
    rcases (t.step_iff hx).1 hst with ⟨_, _, h3⟩ | ⟨_, i, _, _, _, h7⟩
    · left; rw [h3]; simp [Tsp4.mdl]
    · right; rw [h7]; rfl
  merge := fun a b c va vb ra rb ha hb hr hm => by
    have la : t.Ok a := ((t.relx hD h0 hv0 ra).1.resolve_right (fun x => by rw [x] at ha; simp [Tsp4.mdl] at ha)).1
    have lb : t.Ok b := ((t.relx hD h0 hv0 rb).1.resolve_right (fun x => by rw [x] at hb; simp [Tsp4.mdl] at hb)).1
    have hc : c = ⟨a.A &&& b.A, a.e, a.hops⟩ := (t.smf_some hm).2.2
    refine ⟨t.eqs_false (by rw [hc]; exact la.hops), by rw [hc]; rfl, ?_, ?_⟩
    · rintro v ⟨ls, hp⟩
      exact ⟨v, ⟨ls, tsp4_merge_valid t la lb hm (.inl hp)⟩, by rw [Sense.betterEQ_iff]; omega⟩
    · rintro v ⟨ls, hp⟩
      exact ⟨v, ⟨ls, tsp4_merge_valid t la lb hm (.inr hp)⟩, by rw [Sense.betterEQ_iff]; omega⟩
  local_ := fun f hf x v y c hr hv => by
    have hf : (fun (x : Tsp4S) (_ : Ctx) => (t.bound x).getD J) = f := by simpa [Tsp4.mdl] using hf
    subst hf
    have key : (t.bound x).getD J ≤ c := by
      rcases (t.relx hD h0 hv0 hr).1 with ⟨ok, hx⟩ | hx
      · by_cases hx0 : x.e = 0
        · have hb : t.bound x = none := by
            unfold Tsp4.bound
            rw [hx0, ok.root hx0, t.greedy_root (by have := ok.hops; omega)]
            cases t.mst x.A 0 0 0 <;> rfl
          rw [hb]
          have := hx hx0
          subst this
          exact hJ hx0 c hv
        · obtain ⟨ls, hp⟩ := hv
          obtain ⟨b, b1, b2⟩ := tsp4_bound_partial t hd ok hx0 hp
          rw [b1]; exact b2
      · subst hx
        obtain ⟨ls, hp⟩ := hv
        obtain ⟨_, e2, _⟩ := hp.of_terminal (by simp [Tsp4.mdl])
        rw [t.bound_stt, e2]
        simp
    simp [Tsp4.mdl, Sense.betterEQ]
    omega
  dom := fun f hf => by simp [Tsp4.mdl] at hf

/-- A tour: every city but the depot exactly once, then back to the depot; with its length. -/
def Tsp4.Tour (t : Tsp4) (ls : List Int) (c : Int) : Prop :=
  ∃ p : List Nat, ls = (p ++ [0]).map (fun i : Nat => (i : Int)) ∧ p.Nodup ∧ (∀ i, i ∈ p ↔ i < t.nv ∧ i ≠ 0) ∧ c = t.length 0 (p ++ [0])

theorem Tsp4.ok_root (hn : 1 ≤ t.nv) : t.Ok ⟨1, 0, 0⟩ := ⟨by dsimp only; omega, by simp, by simp, by dsimp only; omega, fun _ => rfl⟩

/-- The solutions of the model are the tours. -/
theorem Tsp4.sol_iff (hn : 1 ≤ t.nv) (ls : List Int) (c : Int) : Sol (t.mdl J) ls c ↔ t.Tour ls c := by
  have h := t.path_iff (J := J) (t.nv - 1) ⟨1, 0, 0⟩ ls c (by dsimp only; omega) (t.ok_root hn)
  refine Iff.trans h ?_
  have hb : ∀ i, Nat.testBit 1 i = false ↔ i ≠ 0 := by
    intro i
    cases i with
    | zero => simp
    | succ i => simp [Nat.testBit_succ]
  unfold Tsp4.Tour
  constructor
  · rintro ⟨p, h1, h2, h3, h4, h5⟩
    refine ⟨p, h1, h3, fun i => ⟨fun hi => ⟨(h4 i hi).1, (hb i).1 (h4 i hi).2⟩, fun hi => ?_⟩, h5⟩
    refine nodup_full p ((List.range t.nv).erase 0) h3 (fun j hj => ?_) ?_ i ?_
    · rw [List.Nodup.mem_erase_iff List.nodup_range, List.mem_range]
      exact ⟨(hb j).1 (h4 j hj).2, (h4 j hj).1⟩
    · rw [List.length_erase_of_mem (by rw [List.mem_range]; omega), List.length_range, h2]
      exact Nat.le_refl _
    · rw [List.Nodup.mem_erase_iff List.nodup_range, List.mem_range]
      exact ⟨hi.2, hi.1⟩
  · rintro ⟨p, h1, h3, h4, h5⟩
    refine ⟨p, h1, ?_, h3, fun i hi => ⟨((h4 i).1 hi).1, (hb i).2 ((h4 i).1 hi).2⟩, h5⟩
    have hperm : p.Perm ((List.range t.nv).erase 0) := by
      rw [List.perm_ext_iff_of_nodup h3 (List.Nodup.erase _ List.nodup_range)]
      intro i
      rw [h4, List.Nodup.mem_erase_iff List.nodup_range, List.mem_range]
      exact ⟨fun h => ⟨h.2, h.1⟩, fun h => ⟨h.2, h.1⟩⟩
    rw [hperm.length_eq, List.length_erase_of_mem (by rw [List.mem_range]; omega), List.length_range]

/-- C76: with the engine: whatever the width, the relaxed diagram with these local bounds is at most the length of
every tour shorter than the primal bound, if the value read at the root is. -/
theorem tsp4_dual_partial {D : Int} (hD : t.Bnd D) (hd : t.Nonneg) (hn : 1 ≤ t.nv) (hJ : ∀ ls c, t.Tour ls c → J ≤ c) {prim : Int} {w f : Nat} {g : G Tsp4S}
    (h : relaxed (t.mdl J) prim w f (t.mdl J).src0 = some g) {ls : List Int} {c : Int} (hc : t.Tour ls c) (hp : c < prim) :
    g.bound g.trg ≤ c := by
  have H : Layered (t.mdl J) t.rank (t.mdl J).src0.st (t.mdl J).src0.bound := t.layered hD hd (s0 := ⟨1, 0, 0⟩) (v0 := 0) (t.ok_root hn) (by simp)
    (fun _ c ⟨ls, h⟩ => hJ ls c ((t.sol_iff hn ls c).1 h))
  have := relaxed_dual H h ((t.sol_iff hn ls c).2 hc) (by simp [Mdl.src0, Tsp4.mdl, Sense.better]; omega)
  simp [Mdl.src0, Tsp4.mdl, Sense.betterEQ] at this
  omega

/-- Five cities. -/
def q5 : Tsp4 := ⟨5, fun i j => (([[0,3,9,8,4],[3,0,5,9,7],[9,5,0,3,6],[8,9,3,0,2],[4,7,6,2,0]] : List (List Int)).getD i []).getD j 0⟩

theorem q5_bnd : q5.Bnd 9 := by
  have h : ∀ i, i < 5 → ∀ j, j < 5 → q5.d i j ≤ 9 := by decide
  exact ⟨by decide, fun i j hi hj _ => h i hi j hj, by decide⟩

theorem q5_nonneg : q5.Nonneg := by
  have h : ∀ i, i < 5 → ∀ j, j < 5 → 0 ≤ q5.d i j := by decide
  exact fun i j hi hj => h i hi j hj

theorem q5_tour : q5.Tour [1, 2, 3, 4, 0] 17 := by
  refine ⟨[1, 2, 3, 4], by decide, by decide, ?_, by decide⟩
  intro i
  rw [show q5.nv = 5 from rfl]
  simp only [List.mem_cons, List.not_mem_nil, or_false]
  omega

/-- At city 1 after one hop: spanning tree 12, cheapest arcs 10, best completion 14; the merged state with
cities 0, 1 known and two hops made gives 8. -/
example : q5.mst 3 0 1 1 = some 12 ∧ q5.greedy 3 0 1 1 = some 10 ∧ q5.bound ⟨3, 1, 1⟩ = some 12 ∧ q5.bound ⟨3, 1, 2⟩ = some 8 ∧
    q5.Ok ⟨3, 1, 1⟩ ∧ Path (q5.mdl 0) ⟨3, 1, 1⟩ [2, 3, 4, 0] 14 (q5.mdl 0).stt := by
  have ok : q5.Ok ⟨3, 1, 1⟩ := ⟨by decide, by decide, by decide, by decide, by decide⟩
  refine ⟨by decide +kernel, by decide +kernel, by decide +kernel, by decide +kernel, ok, ?_⟩
  exact (q5.path_iff 3 ⟨3, 1, 1⟩ [2, 3, 4, 0] 14 (by decide) ok).2 ⟨[2, 3, 4], by decide, rfl, by decide, by decide, by decide⟩

/-- With a harmless value at the root: the relaxed diagram of width 1 merges and stays below the tour. -/
example : ∃ g, relaxed (q5.mdl 0) 2147483647 1 10 (q5.mdl 0).src0 = some g ∧ g.exact = false ∧ g.bound g.trg ≤ 17 := by
  have hv : (relaxed (q5.mdl 0) 2147483647 1 10 (q5.mdl 0).src0).map (fun g => g.exact) = some false := by decide +kernel
  simp only [Option.map_eq_some_iff] at hv
  obtain ⟨g, h1, h2⟩ := hv
  have hlen : ∀ (p : List Nat) (a : Nat), a < 5 → (∀ i, i ∈ p → i < 5) → 0 ≤ q5.length a p := by
    intro p
    induction p with
    | nil => intro a _ _; simp [Tsp4.length]
    | cons b p ih =>
      intro a ha hp
      have := ih b (hp b (by simp)) (fun i hi => hp i (by simp [hi]))
      have := q5_nonneg a b ha (hp b (by simp))
      simp only [Tsp4.length]; omega
  exact ⟨g, h1, h2, tsp4_dual_partial q5 q5_bnd q5_nonneg (by decide) (fun ls c ⟨p, _, _, h4, h5⟩ => by
    rw [h5]
    refine hlen _ 0 (by decide) (fun i hi => ?_)
    rcases List.mem_append.1 hi with hi | hi
    · exact ((h4 i).1 hi).1
    · simp at hi; omega) h1 q5_tour (by decide)⟩

/-- C77: what the root may do to the search: with a large value in the cell never written, the search ends without a
tour although there is one. -/
theorem tsp4_search_false : ∃ s, BB.search (q5.mdl 2147483647) 2 50 (fun _ => false) 50 2147483647 = some s ∧ s.sols = [] ∧ s.stopped = false ∧
    Heap.empty s.pq = true ∧ q5.bound (q5.mdl 2147483647).sti = none ∧ q5.Tour [1, 2, 3, 4, 0] 17 := by
  have hv : (BB.search (q5.mdl 2147483647) 2 50 (fun _ => false) 50 2147483647).map (fun s => (s.sols, s.stopped, Heap.empty s.pq)) =
      some ([], false, true) := by decide +kernel
  simp only [Option.map_eq_some_iff] at hv
  obtain ⟨s, h1, h2⟩ := hv
  simp at h2
  exact ⟨s, h1, h2.1, h2.2.1, h2.2.2, tsp4_greedy_false q5 (by decide), q5_tour⟩

end Verif.Ex
