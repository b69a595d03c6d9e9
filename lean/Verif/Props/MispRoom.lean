import Verif.Props.Misp5S
/-!
# A width that is always enough for misp5.cpp
-/
namespace Verif.DD
variable {σ : Type}

/-- The states `k` steps away. -/
def ahead (m : Mdl σ) : Nat → σ → List σ
  | 0, s => [s]
  | k + 1, s => (m.lgf s).flatMap fun l => match m.stf s l with | some s' => ahead m k s' | none => []

theorem ahead_path {m : Mdl σ} {s t : σ} {ls : List Int} {c : Int} (h : Path m s ls c t) : t ∈ ahead m ls.length s := by
  induction h with
  | nil s => simp [ahead]
  | @cons s s' t l ls c hs _ ih =>
    rw [List.length_cons, ahead, List.mem_flatMap]
    exact ⟨l, hs.2.1, by rw [hs.2.2]; exact ih⟩

theorem flatMap_length_le {α β : Type} (f : α → List β) (b : Nat) (h : ∀ x, (f x).length ≤ b) : ∀ l : List α, (l.flatMap f).length ≤ l.length * b := by
  intro l
  induction l with
  | nil => simp
  | cons x l ih => have := h x; rw [List.flatMap_cons, List.length_append, List.length_cons, Nat.add_mul]; omega

theorem ahead_length {m : Mdl σ} {b : Nat} (h : ∀ s, (m.lgf s).length ≤ b) : ∀ (k : Nat) (s : σ), (ahead m k s).length ≤ b ^ k := by
  intro k
  induction k with
  | zero => intro s; simp [ahead]
  | succ k ih =>
    intro s
    rw [ahead, Nat.pow_succ']
    refine Nat.le_trans (flatMap_length_le _ (b ^ k) (fun l => ?_) _) (Nat.mul_le_mul_right _ (h s))
    cases m.stf s l with
    | some s' => exact ih s'
    | none => simp

end Verif.DD

namespace Verif.Ex
open Verif.DD
variable (g : Misp)

theorem Misp.path_open {x z : MispS} {ls : List Int} {c : Int} (h : Path g.mdl x ls c z) (hx : g.Live x) (hz : g.mdl.eqs z = false) :
    g.Live z ∧ z.n = x.n + ls.length := by
  induction h with
  | nil s => exact ⟨hx, rfl⟩
  | @cons x x' z l ls c hs hp ih =>
    obtain ⟨_, h2⟩ := (g.step_iff hx).1 hs
    rcases h2 with ⟨_, rfl⟩ | ⟨ho, rfl⟩
    · cases hp with
      | nil => rw [g.eqs_stt] at hz; simp at hz
      | cons hs' _ => have := hs'.1; rw [g.eqs_stt] at this; simp at this
    · obtain ⟨h1, h2⟩ := ih (hx.next ho) hz
      refine ⟨h1, ?_⟩
      rw [h2, List.length_cons]
      dsimp only
      omega

/-- In misp5.cpp layer `n` has at most 2^n states, one per choice made so far, and at most 2^(top-n), one per set of vertices
left: a width of 2^(top/2) leaves room for every layer. -/
theorem Misp.room (ht : 0 < g.top) {w : Nat} (h : 2 ^ (g.top / 2) ≤ w) : Room g.mdl g.rank g.mdl.sti w := by
  intro k L hn hL
  have key : ∀ s, s ∈ L → g.Live s ∧ s.n = k ∧ s ∈ ahead g.mdl k g.mdl.sti := by
    intro s hs
    obtain ⟨h1, h2, ls, c, hp⟩ := hL s hs
    obtain ⟨h3, h4⟩ := g.path_open hp (g.live0 ht) h1
    have h5 : s.n = k := h2
    have h6 : k = ls.length := by rw [← h5, h4]; show 0 + _ = _; omega
    exact ⟨h3, h5, h6 ▸ ahead_path hp⟩
  by_cases hk : k ≤ g.top / 2
  · have h1 := hn.length_le_of_subset (fun s hs => (key s hs).2.2)
    have h2 := ahead_length (m := g.mdl) (b := 2) (fun s => Nat.le_refl 2) k g.mdl.sti
    have h3 : 2 ^ k ≤ 2 ^ (g.top / 2) := Nat.pow_le_pow_right (by omega) hk
    omega
  · have hm : (L.map (fun s => s.sel / 2 ^ k)).Nodup := by
      unfold List.Nodup at hn ⊢
      rw [List.pairwise_map]
      refine List.Pairwise.imp_of_mem ?_ hn
      intro a b ha hb hab e
      obtain ⟨a1, a2, _⟩ := key a ha
      obtain ⟨b1, b2, _⟩ := key b hb
      refine hab ?_
      have hsel : a.sel = b.sel := by
        refine Nat.eq_of_testBit_eq (fun i => ?_)
        by_cases hi : i < k
        · have n1 : a.sel.testBit i = false := by
            cases hb : a.sel.testBit i with
            | false => rfl
            | true => have := a1.bits i hb; omega
          have n2 : b.sel.testBit i = false := by
            cases hb : b.sel.testBit i with
            | false => rfl
            | true => have := b1.bits i hb; omega
          rw [n1, n2]
        · have := congrArg (fun n => n.testBit (i - k)) e
          simp only [Nat.testBit_div_two_pow] at this
          rwa [show i - k + k = i by omega] at this
      have hl := a1.l
      have hl' := b1.l
      cases a; cases b
      simp only [MispS.mk.injEq]
      dsimp only at *
      exact ⟨hsel, by omega, by omega⟩
    have := nodup_length_le w _ hm (by
      intro x hx
      obtain ⟨s, hs, rfl⟩ := List.mem_map.1 hx
      obtain ⟨s1, s2, _⟩ := key s hs
      have hlt : s.sel < 2 ^ g.top := by
        refine Nat.lt_pow_two_of_testBit _ (fun i hi => ?_)
        cases hb : s.sel.testBit i with
        | false => rfl
        | true => have := s1.bits i hb; omega
      have hkt := s1.lt
      have h1 : s.sel / 2 ^ k < 2 ^ (g.top - k) := by
        rw [Nat.div_lt_iff_lt_mul (Nat.two_pow_pos k), ← Nat.pow_add, Nat.sub_add_cancel (by omega)]
        exact hlt
      have h2 : 2 ^ (g.top - k) ≤ 2 ^ (g.top / 2) := Nat.pow_le_pow_right (by omega) (by omega)
      omega)
    simpa using this

/-- C119: with a width of at least 2^(n/2) for n vertices, the search of misp5.cpp ends with a heaviest independent set. -/
theorem misp_search_width (hw : ∀ i, 0 ≤ g.w i) (ht : 0 < g.top) {w dfuel fuel : Nat} (hR : 2 ^ (g.top / 2) ≤ w)
    {lim : Nat → Bool} {s : BB.BS MispS} (h : BB.search g.mdl w dfuel lim fuel (-2147483647) = some s) (hns : s.stopped = false) :
    g.Heaviest01 s.primal ∧ g.Ind s.inc ∧ g.wt 0 s.inc = s.primal :=
  misp_search_room g hw ht (g.room ht hR) h hns

end Verif.Ex
