import Verif.Tsp
import Verif.Props.DD
/-!
# C62: the TSP example
-/
namespace Verif.Ex
open Verif.DD

variable (t : Tsp)

theorem Tsp.step_iff {x x' : TspS} {l : Int} (hx : x.hops < t.nv) :
    Step t.mdl x l x' ↔ (t.nv = x.hops + 1 ∧ l = 1 ∧ x' = t.mdl.stt) ∨
      (x.hops + 1 < t.nv ∧ ∃ i : Nat, l = i ∧ i < t.nv ∧ x.s.testBit i = false ∧ i ≠ 1 ∧ i ≠ x.e ∧ x' = ⟨x.s ||| 2 ^ i, i, x.hops + 1⟩) := by
  have h1 : t.mdl.eqs x = false := by simp [Tsp.mdl]; omega
  unfold Step
  rw [h1]
  by_cases hc : x.hops + 1 ≥ t.nv
  · have hl : t.mdl.lgf x = [1] := by simp only [Tsp.mdl]; rw [if_pos hc]
    rw [hl, List.mem_singleton]
    constructor
    · rintro ⟨_, rfl, h⟩
      simp [Tsp.mdl] at h
      exact .inl ⟨by omega, rfl, h.symm⟩
    · rintro (⟨_, rfl, h⟩ | ⟨h, _⟩)
      · exact ⟨rfl, rfl, by rw [h]; rfl⟩
      · omega
  · have hl : t.mdl.lgf x = (t.free x).map (fun i : Nat => (i : Int)) := by simp only [Tsp.mdl]; rw [if_neg hc]
    rw [hl, List.mem_map]
    constructor
    · rintro ⟨_, ⟨i, hi, rfl⟩, h⟩
      unfold Tsp.free at hi
      simp only [List.mem_filter, List.mem_range, Bool.and_eq_true, Bool.not_eq_true', decide_eq_true_iff] at hi
      refine .inr ⟨by omega, i, rfl, hi.1, hi.2.1.1, hi.2.1.2, hi.2.2, ?_⟩
      have h1 : ¬ ((i : Int) = 1) := by have := hi.2.1.2; omega
      simp only [Tsp.mdl] at h
      rw [if_neg h1] at h
      simpa using h.symm
    · rintro (⟨h, _⟩ | ⟨_, i, rfl, h2, h3, h4, h5, h6⟩)
      · omega
      · refine ⟨rfl, ⟨i, ?_, rfl⟩, ?_⟩
        · unfold Tsp.free
          simp only [List.mem_filter, List.mem_range, Bool.and_eq_true, Bool.not_eq_true', decide_eq_true_iff]
          exact ⟨h2, ⟨h3, h4⟩, h5⟩
        · have h1 : ¬ ((i : Int) = 1) := by omega
          simp only [Tsp.mdl]
          rw [if_neg h1, h6]; simp

/-- Fewer visited cities allow the same completions. -/
theorem Tsp.mono : ∀ {x : TspS} {ls : List Int} {c : Int} {z : TspS}, Path t.mdl x ls c z → z = t.mdl.stt → x.hops < t.nv → ∀ s',
    (∀ i, s'.testBit i = true → x.s.testBit i = true) → Path t.mdl ⟨s', x.e, x.hops⟩ ls c t.mdl.stt := by
  intro x ls c z h
  induction h with
  | nil s => intro hz hx; rw [hz] at hx; simp [Tsp.mdl] at hx
  | @cons x x' z l ls c hst hp ih =>
    intro hz hx s' hs
    rcases (t.step_iff hx).1 hst with ⟨h1, h2, h3⟩ | ⟨h1, i, h2, h3, h4, h5, h6, h7⟩
    · subst h3
      obtain ⟨e1, e2, _⟩ := hp.of_terminal (by simp [Tsp.mdl])
      subst e1; subst e2
      exact Path.cons (m := t.mdl) ((t.step_iff (x := ⟨s', x.e, x.hops⟩) hx).2 (.inl ⟨h1, h2, rfl⟩)) (Path.nil _)
    · subst h7
      have := ih hz h1 (s' ||| 2 ^ i) (fun j hj => by
        rw [Nat.testBit_or, Bool.or_eq_true] at hj ⊢
        exact hj.imp_left (hs j))
      refine Path.cons (m := t.mdl) ((t.step_iff (x := ⟨s', x.e, x.hops⟩) hx).2 (.inr ⟨h1, i, h2, h3, ?_, h5, h6, rfl⟩)) this
      cases hb : s'.testBit i with
      | false => rfl
      | true => rw [hs i hb] at h4; simp at h4

/-- C62: the merge is a valid relaxation, for all distances: a merged state keeps every completion of both
states, at the same length. -/
theorem tsp_merge_valid {a b c : TspS} (ha : a.hops < t.nv) (hb : b.hops < t.nv) (hm : t.mdl.smf a b = some c) {ls : List Int} {v : Int}
    (h : Path t.mdl a ls v t.mdl.stt ∨ Path t.mdl b ls v t.mdl.stt) : Path t.mdl c ls v t.mdl.stt := by
  simp only [Tsp.mdl] at hm
  split at hm
  · rename_i hc
    simp at hm
    subst hm
    rcases h with hp | hp
    · exact t.mono hp rfl ha _ (fun i hi => by rw [Nat.testBit_and, Bool.and_eq_true] at hi; exact hi.1)
    · have := t.mono hp rfl hb (a.s &&& b.s) (fun i hi => by rw [Nat.testBit_and, Bool.and_eq_true] at hi; exact hi.2)
      rwa [← hc.1, ← hc.2] at this
  · simp at hm

/-- Distances between two different cities are at most `D`. -/
def Tsp.Bnd (t : Tsp) (D : Int) : Prop := 0 ≤ D ∧ (∀ i j, i < t.nv → j < t.nv → i ≠ j → t.d i j ≤ D) ∧ (t.nv : Int) * D < 2147483647

theorem Tsp.relx {D : Int} (hD : t.Bnd D) (hn : 1 < t.nv) {s0 x : TspS} {v0 v : Int} (h0 : s0.hops < t.nv) (he : s0.e < t.nv ∧ (s0.e = 1 → s0.hops + 1 < t.nv))
    (hv0 : v0 ≤ s0.hops * D) (h : Relx t.mdl t.rank s0 v0 x v) : (x.hops < t.nv ∨ x = t.mdl.stt) ∧ x.e < t.nv ∧ v ≤ x.hops * D ∧ (x.e = 1 → x.hops < t.nv → x.hops + 1 < t.nv) := by
  obtain ⟨d1, d2, _⟩ := hD
  induction h with
  | swap _ _ hsw _ ihsw => obtain rfl := (same_iff _ _).1 hsw; exact ihsw
  | root => exact ⟨.inl h0, he.1, hv0, fun h _ => he.2 h⟩
  | @step x x' l v _ hst ih =>
    obtain ⟨i1, i2, i3, i4⟩ := ih
    have hx : x.hops < t.nv := by
      rcases i1 with a | a
      · exact a
      · have := hst.1; rw [a] at this; simp [Tsp.mdl] at this
    have e1 : ((x.hops + 1 : Nat) : Int) * D = x.hops * D + D := by
      rw [Int.natCast_add, Int.add_mul]; simp
    rcases (t.step_iff hx).1 hst with ⟨h1, h2, h3⟩ | ⟨h1, i, h2, h3, _, h5, h6, h7⟩
    · subst h3 h2
      refine ⟨.inr rfl, hn, ?_, fun _ h => absurd h (Nat.lt_irrefl _)⟩
      have := d2 x.e 1 i2 hn (fun h => by have := i4 h hx; omega)
      show v + t.d x.e 1 ≤ ((t.nv : Nat) : Int) * D
      rw [h1, e1]
      omega
    · subst h7 h2
      refine ⟨.inl h1, h3, ?_, fun h _ => absurd h h5⟩
      have := d2 x.e i i2 h3 (Ne.symm h6)
      show v + t.d x.e (i : Int).toNat ≤ ((x.hops + 1 : Nat) : Int) * D
      rw [e1, show ((i : Int)).toNat = i by omega]
      omega
  | @mergeL a b c v v' _ _ ha hb hr hm ih1 ih2 =>
    simp only [Tsp.mdl] at hm
    split at hm
    · simp at hm
      subst hm
      exact ⟨.inl (ih1.1.resolve_right (fun x => by rw [x] at ha; simp [Tsp.mdl] at ha)), ih1.2⟩
    · simp at hm
  | @mergeR a b c v v' _ _ ha hb hr hm ih1 ih2 =>
    simp only [Tsp.mdl] at hm
    split at hm
    · rename_i hc
      simp at hm
      subst hm
      exact ⟨.inl (ih1.1.resolve_right (fun x => by rw [x] at ha; simp [Tsp.mdl] at ha)), ih1.2.1, by dsimp only; rw [hc.2]; exact ih2.2.2.1, ih1.2.2.2⟩
    · simp at hm

/-- C62: the merge of the TSP example is a valid relaxation: the model meets the engine's
hypotheses, from every state with cities left. -/
theorem Tsp.layered {D : Int} (hD : t.Bnd D) (hn : 1 < t.nv) {s0 : TspS} {v0 : Int} (h0 : s0.hops < t.nv) (he : s0.e < t.nv ∧ (s0.e = 1 → s0.hops + 1 < t.nv))
    (hv0 : v0 ≤ s0.hops * D) : Layered t.mdl t.rank s0 v0 where
  sink := by simp [Tsp.mdl]
  src := by simp [Tsp.mdl]; omega
  range := fun x v h => by
    obtain ⟨h1, _, h3, _⟩ := t.relx hD hn h0 he hv0 h
    obtain ⟨d1, _, d3⟩ := hD
    have hle : (x.hops : Int) ≤ t.nv := by
      rcases h1 with h | h
      · omega
      · rw [h]; simp [Tsp.mdl]
    have := Int.mul_le_mul_of_nonneg_right hle d1
    simp [Tsp.mdl, Sense.better, Sense.best0]; omega
  step := fun x v l x' h hst => by
    have hx : x.hops < t.nv := by
      rcases (t.relx hD hn h0 he hv0 h).1 with a | a
      · exact a
      · have := hst.1; rw [a] at this; simp [Tsp.mdl] at this
    rcases (t.step_iff hx).1 hst with ⟨_, _, h3⟩ | ⟨_, i, _, _, _, _, _, h7⟩
    · left; rw [h3]; simp [Tsp.mdl]
    · right; rw [h7]; rfl
  merge := fun a b c va vb ra rb ha hb hr hm => by
    have la : a.hops < t.nv := (t.relx hD hn h0 he hv0 ra).1.resolve_right (fun x => by rw [x] at ha; simp [Tsp.mdl] at ha)
    have lb : b.hops < t.nv := (t.relx hD hn h0 he hv0 rb).1.resolve_right (fun x => by rw [x] at hb; simp [Tsp.mdl] at hb)
    simp only [Tsp.mdl] at hm
    split at hm
    · rename_i hc
      simp at hm
      subst hm
      refine ⟨by simp [Tsp.mdl]; omega, rfl, ?_, ?_⟩
      · rintro v ⟨ls, hp⟩
        exact ⟨v, ⟨ls, tsp_merge_valid t la lb (by simp only [Tsp.mdl]; rw [if_pos hc]) (.inl hp)⟩, by rw [Sense.betterEQ_iff]; omega⟩
      · rintro v ⟨ls, hp⟩
        exact ⟨v, ⟨ls, tsp_merge_valid t la lb (by simp only [Tsp.mdl]; rw [if_pos hc]) (.inr hp)⟩, by rw [Sense.betterEQ_iff]; omega⟩
    · simp at hm
  local_ := fun f hf => by simp [Tsp.mdl] at hf
  dom := fun f hf => by simp [Tsp.mdl] at hf

/-! ### What the solutions of the model are -/

/-- Length of the way from `e` through the listed cities. -/
def Tsp.length (t : Tsp) : Nat → List Nat → Int
  | _, [] => 0
  | e, i :: p => t.d e i + t.length i p

/-- A tour: every city but 1 exactly once, then back to 1; with its length. -/
def Tsp.Tour (t : Tsp) (ls : List Int) (c : Int) : Prop :=
  ∃ p : List Nat, ls = (p ++ [1]).map (fun i : Nat => (i : Int)) ∧ p.Nodup ∧ (∀ i, i ∈ p ↔ i < t.nv ∧ i ≠ 1) ∧ c = t.length 1 (p ++ [1])

theorem Tsp.path_iff : ∀ (k : Nat) (x : TspS) (ls : List Int) (c : Int), t.nv = x.hops + 1 + k → (x.e = 1 ∨ x.s.testBit x.e = true) →
    (Path t.mdl x ls c t.mdl.stt ↔ ∃ p : List Nat, ls = (p ++ [1]).map (fun i : Nat => (i : Int)) ∧ p.length = k ∧ p.Nodup ∧
      (∀ i, i ∈ p → i < t.nv ∧ i ≠ 1 ∧ x.s.testBit i = false) ∧ c = t.length x.e (p ++ [1])) := by
  intro k
  induction k with
  | zero =>
    intro x ls c hk hxe
    have hx : x.hops < t.nv := by omega
    constructor
    · intro hp
      generalize hz : t.mdl.stt = z at hp
      cases hp with
      | nil => rw [← hz] at hx; simp [Tsp.mdl] at hx
      | @cons _ x' _ l ls' v' hst hp' =>
        subst hz
        rcases (t.step_iff hx).1 hst with ⟨h1, h2, h3⟩ | ⟨h1, _⟩
        · subst h3 h2
          obtain ⟨e1, e2, _⟩ := hp'.of_terminal (by simp [Tsp.mdl])
          subst e1; subst e2
          exact ⟨[], rfl, rfl, List.nodup_nil, fun i hi => by simp at hi, by simp [Tsp.length, Tsp.mdl]⟩
        · omega
    · rintro ⟨p, h1, h2, _, _, h5⟩
      have : p = [] := List.length_eq_zero_iff.1 h2
      subst this
      subst h1
      rw [h5]
      have := Path.cons (m := t.mdl) ((t.step_iff hx (l := 1) (x' := t.mdl.stt)).2 (.inl ⟨by omega, rfl, rfl⟩)) (Path.nil _)
      simpa [Tsp.length, Tsp.mdl] using this
  | succ k ih =>
    intro x ls c hk hxe
    have hx : x.hops < t.nv := by omega
    constructor
    · intro hp
      generalize hz : t.mdl.stt = z at hp
      cases hp with
      | nil => rw [← hz] at hx; simp [Tsp.mdl] at hx
      | @cons _ x' _ l ls' v' hst hp' =>
        subst hz
        rcases (t.step_iff hx).1 hst with ⟨h1, _⟩ | ⟨h1, i, h2, h3, h4, h5, h6, h7⟩
        · omega
        · subst h7 h2
          obtain ⟨p, q1, q2, q3, q4, q5⟩ := (ih ⟨x.s ||| 2 ^ i, i, x.hops + 1⟩ ls' v' (by dsimp only; omega)
            (.inr (by rw [Nat.testBit_or, Nat.testBit_two_pow_self]; simp))).1 hp'
          refine ⟨i :: p, by rw [q1]; simp, by simp [q2], ?_, ?_, ?_⟩
          · rw [List.nodup_cons]
            refine ⟨fun hi => ?_, q3⟩
            have := (q4 i hi).2.2
            rw [Nat.testBit_or, Nat.testBit_two_pow_self] at this
            simp at this
          · intro j hj
            rcases List.mem_cons.1 hj with rfl | hj
            · exact ⟨h3, h5, h4⟩
            · obtain ⟨a, b, c⟩ := q4 j hj
              rw [Nat.testBit_or, Bool.or_eq_false_iff] at c
              exact ⟨a, b, c.1⟩
          · rw [q5]; simp [Tsp.length, Tsp.mdl]
    · rintro ⟨p, h1, h2, h3, h4, h5⟩
      cases p with
      | nil => simp at h2
      | cons i p =>
        obtain ⟨a, b, c'⟩ := h4 i List.mem_cons_self
        rw [List.nodup_cons] at h3
        have hne : i ≠ x.e := by
          intro hh
          rcases hxe with h | h
          · omega
          · rw [hh, h] at c'; simp at c'
        have hq := (ih ⟨x.s ||| 2 ^ i, i, x.hops + 1⟩ ((p ++ [1]).map (fun i : Nat => (i : Int))) (t.length i (p ++ [1])) (by dsimp only; omega)
          (.inr (by rw [Nat.testBit_or, Nat.testBit_two_pow_self]; simp))).2
          ⟨p, rfl, by simpa using h2, h3.2, fun j hj => by
            obtain ⟨q1, q2, q3⟩ := h4 j (List.mem_cons_of_mem _ hj)
            refine ⟨q1, q2, ?_⟩
            rw [Nat.testBit_or, q3, Nat.testBit_two_pow]
            have : i ≠ j := fun h => h3.1 (h ▸ hj)
            simp [this], rfl⟩
        have := Path.cons (m := t.mdl) ((t.step_iff hx (l := i)).2 (.inr ⟨by omega, i, rfl, a, c', b, hne, rfl⟩)) hq
        subst h1
        rw [h5]
        simpa [Tsp.length, Tsp.mdl] using this

theorem nodup_full : ∀ (p q : List Nat), p.Nodup → p ⊆ q → q.length ≤ p.length → ∀ x, x ∈ q → x ∈ p := by
  intro p
  induction p with
  | nil =>
    intro q _ _ hl x hx
    rw [List.length_eq_zero_iff.1 (Nat.le_zero.1 hl)] at hx
    exact hx
  | cons a p ih =>
    intro q hn hs hl x hx
    rw [List.nodup_cons] at hn
    by_cases hxa : x = a
    · rw [hxa]; exact List.mem_cons_self
    · refine List.mem_cons_of_mem _ (ih (q.erase a) hn.2 (fun y hy => ?_) ?_ x ((List.mem_erase_of_ne hxa).2 hx))
      · have hya : y ≠ a := fun h => hn.1 (h ▸ hy)
        exact (List.mem_erase_of_ne hya).2 (hs (List.mem_cons_of_mem _ hy))
      · rw [List.length_erase_of_mem (hs List.mem_cons_self)]
        simp at hl; omega

/-- The solutions of the model are the tours. -/
theorem Tsp.sol_iff (hn : 1 < t.nv) (ls : List Int) (c : Int) : Sol t.mdl ls c ↔ t.Tour ls c := by
  have h := t.path_iff (t.nv - 1) ⟨0, 1, 0⟩ ls c (by dsimp only; omega) (.inl rfl)
  refine Iff.trans h ?_
  unfold Tsp.Tour
  constructor
  · rintro ⟨p, h1, h2, h3, h4, h5⟩
    refine ⟨p, h1, h3, fun i => ⟨fun hi => ⟨(h4 i hi).1, (h4 i hi).2.1⟩, fun hi => ?_⟩, h5⟩
    -- a duplicate-free list of nv-1 cities other than 1 has them all
    refine nodup_full p ((List.range t.nv).erase 1) h3 (fun j hj => ?_) ?_ i ?_
    · rw [List.Nodup.mem_erase_iff List.nodup_range, List.mem_range]
      exact ⟨(h4 j hj).2.1, (h4 j hj).1⟩
    · rw [List.length_erase_of_mem (by rw [List.mem_range]; exact hn), List.length_range, h2]
      exact Nat.le_refl _
    · rw [List.Nodup.mem_erase_iff List.nodup_range, List.mem_range]
      exact ⟨hi.2, hi.1⟩
  · rintro ⟨p, h1, h3, h4, h5⟩
    refine ⟨p, h1, ?_, h3, fun i hi => ⟨((h4 i).1 hi).1, ((h4 i).1 hi).2, by simp⟩, h5⟩
    have hperm : p.Perm ((List.range t.nv).erase 1) := by
      rw [List.perm_ext_iff_of_nodup h3 (List.Nodup.erase _ List.nodup_range)]
      intro i
      rw [h4, List.Nodup.mem_erase_iff List.nodup_range, List.mem_range]
      exact ⟨fun h => ⟨h.2, h.1⟩, fun h => ⟨h.2, h.1⟩⟩
    rw [hperm.length_eq, List.length_erase_of_mem (by rw [List.mem_range]; exact hn), List.length_range]

/-- C62: with the engine: whatever the width, the relaxed diagram of the TSP model is at most the length of
every tour (shorter than the primal bound). -/
theorem tsp_dual {D : Int} (hD : t.Bnd D) (hn : 1 < t.nv) {prim : Int} {w f : Nat} {g : G TspS} (h : relaxed t.mdl prim w f t.mdl.src0 = some g)
    {ls : List Int} {c : Int} (hc : t.Tour ls c) (hp : c < prim) : g.bound g.trg ≤ c := by
  have H : Layered t.mdl t.rank t.mdl.src0.st t.mdl.src0.bound := t.layered hD hn (s0 := ⟨0, 1, 0⟩) (v0 := 0) (by dsimp only; omega) ⟨hn, fun _ => hn⟩ (by simp)
  have := relaxed_dual H h ((t.sol_iff hn ls c).2 hc) (by simp [Mdl.src0, Tsp.mdl, Sense.better]; omega)
  simp [Mdl.src0, Tsp.mdl, Sense.betterEQ] at this
  omega

/-- Four cities. -/
def t4 : Tsp := ⟨4, fun i j => (([[0,3,9,8],[3,0,5,9],[9,5,0,3],[8,9,3,0]] : List (List Int)).getD i []).getD j 0⟩

theorem t4_bnd : t4.Bnd 9 := by
  have h : ∀ i, i < 4 → ∀ j, j < 4 → t4.d i j ≤ 9 := by decide
  exact ⟨by decide, fun i j hi hj _ => h i hi j hj, by decide⟩

/-- A relaxed diagram that merges: its value 16 is below the length 19 of the shortest tour. -/
example : ∃ g, relaxed t4.mdl 2147483647 1 10 t4.mdl.src0 = some g ∧ g.exact = false ∧ g.bound g.trg = 16 ∧
    t4.Tour [0, 3, 2, 1] 19 := by
  have hv : (relaxed t4.mdl 2147483647 1 10 t4.mdl.src0).map (fun g => (g.exact, g.bound g.trg)) = some (false, 16) := by
    decide +kernel
  simp only [Option.map_eq_some_iff] at hv
  obtain ⟨g, h1, h2⟩ := hv
  simp at h2
  refine ⟨g, h1, h2.1, h2.2, [0, 3, 2], by decide, by decide, ?_, by decide⟩
  intro i
  rw [show t4.nv = 4 from rfl]
  simp only [List.mem_cons, List.not_mem_nil, or_false]
  omega

/-- The ways 1-0-3 and 1-2-3 merged at city 3: the completion through the remaining city survives. -/
example : t4.mdl.smf ⟨1 ||| 8, 3, 2⟩ ⟨4 ||| 8, 3, 2⟩ = some ⟨8, 3, 2⟩ ∧ Path t4.mdl ⟨1 ||| 8, 3, 2⟩ [2, 1] 8 t4.mdl.stt ∧
    Path t4.mdl ⟨8, 3, 2⟩ [2, 1] 8 t4.mdl.stt := by
  have h1 : t4.mdl.smf ⟨1 ||| 8, 3, 2⟩ ⟨4 ||| 8, 3, 2⟩ = some ⟨8, 3, 2⟩ := by decide
  have h2 : Path t4.mdl ⟨1 ||| 8, 3, 2⟩ [2, 1] 8 t4.mdl.stt :=
    (t4.path_iff 1 ⟨1 ||| 8, 3, 2⟩ [2, 1] 8 (by decide) (.inr (by decide))).2 ⟨[2], by decide, rfl, by decide, by decide, by decide⟩
  exact ⟨h1, h2, tsp_merge_valid t4 (by decide) (by decide) h1 (.inl h2)⟩

example : Layered t4.mdl t4.rank ⟨0, 1, 0⟩ 0 := t4.layered t4_bnd (by decide) (by decide) ⟨by decide, fun _ => by decide⟩ (by decide)

end Verif.Ex
