import Verif.TspToy
import Verif.Props.TspV
/-!
# C98: the first toy TSP example
-/
namespace Verif.Ex
open Verif.DD

variable (t : Toy) {ok : Nat → Nat → Bool}

theorem Toy.cs_nodup : t.cs.Nodup := List.nodup_range'

theorem Toy.mem_cs {i : Nat} : i ∈ t.cs ↔ 1 ≤ i ∧ i ≤ t.n := by
  unfold Toy.cs
  rw [List.mem_range'_1]
  omega

theorem Toy.cs_len : t.cs.length = t.n := List.length_range'

theorem Toy.step_iff {x x' : TspS} {l : Int} (hx : x.hops < t.n) :
    Step (t.mdl ok) x l x' ↔ (t.n = x.hops + 1 ∧ l = 1 ∧ x' = (t.mdl ok).stt) ∨
      (x.hops + 1 < t.n ∧ ∃ i : Nat, l = i ∧ i ∈ t.cs ∧ x.s.testBit i = false ∧ i ≠ 1 ∧ i ≠ x.e ∧ x' = ⟨x.s ||| 2 ^ i, i, x.hops + 1⟩) := by
  have h1 : (t.mdl ok).eqs x = false := by simp [Toy.mdl]; omega
  unfold Step
  rw [h1]
  by_cases hc : x.hops + 1 ≥ t.n
  · have hl : (t.mdl ok).lgf x = [1] := by simp only [Toy.mdl]; rw [if_pos hc]
    rw [hl, List.mem_singleton]
    constructor
    · rintro ⟨_, rfl, h⟩
      simp [Toy.mdl] at h
      exact .inl ⟨by omega, rfl, h.symm⟩
    · rintro (⟨_, rfl, h⟩ | ⟨h, _⟩)
      · exact ⟨rfl, rfl, by rw [h]; rfl⟩
      · omega
  · have hl : (t.mdl ok).lgf x = (t.free x).map (fun i : Nat => (i : Int)) := by simp only [Toy.mdl]; rw [if_neg hc]
    rw [hl, List.mem_map]
    constructor
    · rintro ⟨_, ⟨i, hi, rfl⟩, h⟩
      unfold Toy.free at hi
      simp only [List.mem_filter, Bool.and_eq_true, Bool.not_eq_true', decide_eq_true_iff] at hi
      refine .inr ⟨by omega, i, rfl, hi.1, hi.2.1.1, hi.2.1.2, hi.2.2, ?_⟩
      have h1 : ¬ ((i : Int) = 1) := by have := hi.2.1.2; omega
      simp only [Toy.mdl] at h
      rw [if_neg h1] at h
      simpa using h.symm
    · rintro (⟨h, _⟩ | ⟨_, i, rfl, h2, h3, h4, h5, h6⟩)
      · omega
      · refine ⟨rfl, ⟨i, ?_, rfl⟩, ?_⟩
        · unfold Toy.free
          simp only [List.mem_filter, Bool.and_eq_true, Bool.not_eq_true', decide_eq_true_iff]
          exact ⟨h2, ⟨h3, h4⟩, h5⟩
        · have h1 : ¬ ((i : Int) = 1) := by omega
          simp only [Toy.mdl]
          rw [if_neg h1, h6]; simp

/-- Fewer visited cities allow the same completions. -/
theorem Toy.mono : ∀ {x : TspS} {ls : List Int} {c : Int} {z : TspS}, Path (t.mdl ok) x ls c z → z = (t.mdl ok).stt → x.hops < t.n → ∀ s',
    (∀ i, s'.testBit i = true → x.s.testBit i = true) → Path (t.mdl ok) ⟨s', x.e, x.hops⟩ ls c (t.mdl ok).stt := by
  intro x ls c z h
  induction h with
  | nil s => intro hz hx; rw [hz] at hx; simp [Toy.mdl] at hx
  | @cons x x' z l ls c hst hp ih =>
    intro hz hx s' hs
    rcases (t.step_iff hx).1 hst with ⟨h1, h2, h3⟩ | ⟨h1, i, h2, h3, h4, h5, h6, h7⟩
    · subst h3
      obtain ⟨e1, e2, _⟩ := hp.of_terminal (by simp [Toy.mdl])
      subst e1; subst e2
      exact Path.cons (m := (t.mdl ok)) ((t.step_iff (x := ⟨s', x.e, x.hops⟩) hx).2 (.inl ⟨h1, h2, rfl⟩)) (Path.nil _)
    · subst h7
      have := ih hz h1 (s' ||| 2 ^ i) (fun j hj => by
        rw [Nat.testBit_or, Bool.or_eq_true] at hj ⊢
        exact hj.imp_left (hs j))
      refine Path.cons (m := (t.mdl ok)) ((t.step_iff (x := ⟨s', x.e, x.hops⟩) hx).2 (.inr ⟨h1, i, h2, h3, ?_, h5, h6, rfl⟩)) this
      cases hb : s'.testBit i with
      | false => rfl
      | true => rw [hs i hb] at h4; simp at h4

/-- C98: the merge is a valid relaxation, for all distances: a merged state keeps every completion of both
states, at the same length. -/
theorem toy_merge_valid {a b c : TspS} (ha : a.hops < t.n) (hb : b.hops < t.n) (hm : (t.mdl ok).smf a b = some c) {ls : List Int} {v : Int}
    (h : Path (t.mdl ok) a ls v (t.mdl ok).stt ∨ Path (t.mdl ok) b ls v (t.mdl ok).stt) : Path (t.mdl ok) c ls v (t.mdl ok).stt := by
  simp only [Toy.mdl] at hm
  split at hm
  · rename_i hc
    simp at hm
    subst hm
    rcases h with hp | hp
    · exact t.mono hp rfl ha _ (fun i hi => by rw [Nat.testBit_and, Bool.and_eq_true] at hi; exact hi.1)
    · have := t.mono hp rfl hb (a.s &&& b.s) (fun i hi => by rw [Nat.testBit_and, Bool.and_eq_true] at hi; exact hi.2)
      rwa [← hc.1, ← hc.2.1] at this
  · simp at hm

/-- Distances are at most `D`. -/
def Toy.Bnd (t : Toy) (D : Int) : Prop := 0 ≤ D ∧ (∀ i j, i ∈ t.cs → j ∈ t.cs → t.d i j ≤ D) ∧ (t.n : Int) * D < 2147483647

theorem Toy.relx {D : Int} (hD : t.Bnd D) (hn : 1 < t.n) {s0 x : TspS} {v0 v : Int} (h0 : s0.hops < t.n) (he : s0.e ∈ t.cs)
    (hv0 : v0 ≤ s0.hops * D) (h : Relx (t.mdl ok) t.rank s0 v0 x v) : (x.hops < t.n ∨ x = (t.mdl ok).stt) ∧ x.e ∈ t.cs ∧ v ≤ x.hops * D := by
  obtain ⟨d1, d2, _⟩ := hD
  induction h with
  | swap _ _ hsw _ ihsw => obtain rfl := (same_iff _ _).1 hsw; exact ihsw
  | root => exact ⟨.inl h0, he, hv0⟩
  | @step x x' l v _ hst ih =>
    obtain ⟨i1, i2, i3⟩ := ih
    have hx : x.hops < t.n := by
      rcases i1 with a | a
      · exact a
      · have := hst.1; rw [a] at this; simp [Toy.mdl] at this
    have e1 : ((x.hops + 1 : Nat) : Int) * D = x.hops * D + D := by
      rw [Int.natCast_add, Int.add_mul]; simp
    rcases (t.step_iff hx).1 hst with ⟨h1, h2, h3⟩ | ⟨h1, i, h2, h3, _, _, _, h7⟩
    · subst h3 h2
      have h1c : 1 ∈ t.cs := t.mem_cs.2 ⟨Nat.le_refl 1, by omega⟩
      refine ⟨.inr rfl, h1c, ?_⟩
      have := d2 x.e 1 i2 h1c
      show v + t.d x.e 1 ≤ ((t.n : Nat) : Int) * D
      rw [h1, e1]
      omega
    · subst h7 h2
      refine ⟨.inl h1, h3, ?_⟩
      have := d2 x.e i i2 h3
      show v + t.d x.e (i : Int).toNat ≤ ((x.hops + 1 : Nat) : Int) * D
      rw [e1, show ((i : Int)).toNat = i by omega]
      omega
  | @mergeL a b c v v' _ _ ha hb hr hm ih1 ih2 =>
    simp only [Toy.mdl] at hm
    split at hm
    · simp at hm
      subst hm
      exact ⟨.inl (ih1.1.resolve_right (fun x => by rw [x] at ha; simp [Toy.mdl] at ha)), ih1.2⟩
    · simp at hm
  | @mergeR a b c v v' _ _ ha hb hr hm ih1 ih2 =>
    simp only [Toy.mdl] at hm
    split at hm
    · rename_i hc
      simp at hm
      subst hm
      exact ⟨.inl (ih1.1.resolve_right (fun x => by rw [x] at ha; simp [Toy.mdl] at ha)), ih1.2.1, by dsimp only; rw [hc.2.1]; exact ih2.2.2⟩
    · simp at hm

/-- C98: the merge of the TSP example is a valid relaxation: the model meets the engine's
hypotheses, from every state with cities left. -/
theorem Toy.layered {D : Int} (hD : t.Bnd D) (hn : 1 < t.n) {s0 : TspS} {v0 : Int} (h0 : s0.hops < t.n) (he : s0.e ∈ t.cs)
    (hv0 : v0 ≤ s0.hops * D) : Layered (t.mdl ok) t.rank s0 v0 where
  sink := by simp [Toy.mdl]
  src := by simp [Toy.mdl]; omega
  range := fun x v h => by
    obtain ⟨h1, _, h3⟩ := t.relx hD hn h0 he hv0 h
    obtain ⟨d1, _, d3⟩ := hD
    have hle : (x.hops : Int) ≤ t.n := by
      rcases h1 with h | h
      · omega
      · rw [h]; simp [Toy.mdl]
    have := Int.mul_le_mul_of_nonneg_right hle d1
    simp [Toy.mdl, Sense.better, Sense.best0]; omega
  step := fun x v l x' h hst => by
    have hx : x.hops < t.n := by
      rcases (t.relx hD hn h0 he hv0 h).1 with a | a
      · exact a
      · have := hst.1; rw [a] at this; simp [Toy.mdl] at this
    rcases (t.step_iff hx).1 hst with ⟨_, _, h3⟩ | ⟨_, i, _, _, _, _, _, h7⟩
    · left; rw [h3]; simp [Toy.mdl]
    · right; rw [h7]; rfl
  merge := fun a b c va vb ra rb ha hb hr hm => by
    have la : a.hops < t.n := (t.relx hD hn h0 he hv0 ra).1.resolve_right (fun x => by rw [x] at ha; simp [Toy.mdl] at ha)
    have lb : b.hops < t.n := (t.relx hD hn h0 he hv0 rb).1.resolve_right (fun x => by rw [x] at hb; simp [Toy.mdl] at hb)
    simp only [Toy.mdl] at hm
    split at hm
    · rename_i hc
      simp at hm
      subst hm
      refine ⟨by simp [Toy.mdl]; omega, rfl, ?_, ?_⟩
      · rintro v ⟨ls, hp⟩
        exact ⟨v, ⟨ls, toy_merge_valid t la lb (by simp only [Toy.mdl]; rw [if_pos hc]) (.inl hp)⟩, by rw [Sense.betterEQ_iff]; omega⟩
      · rintro v ⟨ls, hp⟩
        exact ⟨v, ⟨ls, toy_merge_valid t la lb (by simp only [Toy.mdl]; rw [if_pos hc]) (.inr hp)⟩, by rw [Sense.betterEQ_iff]; omega⟩
    · simp at hm
  local_ := fun f hf => by simp [Toy.mdl] at hf
  dom := fun f hf => by simp [Toy.mdl] at hf

/-! ### What the solutions of the model are -/

/-- Length of the way from `e` through the listed cities. -/
def Toy.length (t : Toy) : Nat → List Nat → Int
  | _, [] => 0
  | e, i :: p => t.d e i + t.length i p

/-- A tour: every city but 1 exactly once, then back to 1; with its length. -/
def Toy.Tour (t : Toy) (ls : List Int) (c : Int) : Prop :=
  ∃ p : List Nat, ls = (p ++ [1]).map (fun i : Nat => (i : Int)) ∧ p.Nodup ∧ (∀ i, i ∈ p ↔ i ∈ t.cs ∧ i ≠ 1) ∧ c = t.length 1 (p ++ [1])

theorem Toy.path_iff : ∀ (k : Nat) (x : TspS) (ls : List Int) (c : Int), t.n = x.hops + 1 + k → (x.e = 1 ∨ x.s.testBit x.e = true) →
    (Path (t.mdl ok) x ls c (t.mdl ok).stt ↔ ∃ p : List Nat, ls = (p ++ [1]).map (fun i : Nat => (i : Int)) ∧ p.length = k ∧ p.Nodup ∧
      (∀ i, i ∈ p → i ∈ t.cs ∧ i ≠ 1 ∧ x.s.testBit i = false) ∧ c = t.length x.e (p ++ [1])) := by
  intro k
  induction k with
  | zero =>
    intro x ls c hk hxe
    have hx : x.hops < t.n := by omega
    constructor
    · intro hp
      generalize hz : (t.mdl ok).stt = z at hp
      cases hp with
      | nil => rw [← hz] at hx; simp [Toy.mdl] at hx
      | @cons _ x' _ l ls' v' hst hp' =>
        subst hz
        rcases (t.step_iff hx).1 hst with ⟨h1, h2, h3⟩ | ⟨h1, _⟩
        · subst h3 h2
          obtain ⟨e1, e2, _⟩ := hp'.of_terminal (by simp [Toy.mdl])
          subst e1; subst e2
          exact ⟨[], rfl, rfl, List.nodup_nil, fun i hi => by simp at hi, by simp [Toy.length, Toy.mdl]⟩
        · omega
    · rintro ⟨p, h1, h2, _, _, h5⟩
      have : p = [] := List.length_eq_zero_iff.1 h2
      subst this
      subst h1
      rw [h5]
      have := Path.cons (m := (t.mdl ok)) ((t.step_iff hx (l := 1) (x' := (t.mdl ok).stt)).2 (.inl ⟨by omega, rfl, rfl⟩)) (Path.nil _)
      simpa [Toy.length, Toy.mdl] using this
  | succ k ih =>
    intro x ls c hk hxe
    have hx : x.hops < t.n := by omega
    constructor
    · intro hp
      generalize hz : (t.mdl ok).stt = z at hp
      cases hp with
      | nil => rw [← hz] at hx; simp [Toy.mdl] at hx
      | @cons _ x' _ l ls' v' hst hp' =>
        subst hz
        rcases (t.step_iff hx).1 hst with ⟨h1, _⟩ | ⟨h1, i, h2, h3, h4, h5, h6, h7⟩
        · omega
        · subst h7 h2
          obtain ⟨p, q1, q2, q3, q4, q5⟩ := (ih ⟨x.s ||| 2 ^ i, i, x.hops + 1⟩ ls' v' (by dsimp only; omega)
            (.inr (by rw [Nat.testBit_or, Nat.testBit_two_pow_self]; simp))).1 hp'
          refine ⟨i :: p, by rw [q1]; simp, by simp [q2], ?_, ?_, ?_⟩
          · rw [List.nodup_cons]
            refine ⟨fun hi => ?_, q3⟩
            have := (q4 i hi).2.2
            rw [Nat.testBit_or, Nat.testBit_two_pow_self] at this
            simp at this
          · intro j hj
            rcases List.mem_cons.1 hj with rfl | hj
            · exact ⟨h3, h5, h4⟩
            · obtain ⟨a, b, c⟩ := q4 j hj
              rw [Nat.testBit_or, Bool.or_eq_false_iff] at c
              exact ⟨a, b, c.1⟩
          · rw [q5]; simp [Toy.length, Toy.mdl]
    · rintro ⟨p, h1, h2, h3, h4, h5⟩
      cases p with
      | nil => simp at h2
      | cons i p =>
        obtain ⟨a, b, c'⟩ := h4 i List.mem_cons_self
        rw [List.nodup_cons] at h3
        have hne : i ≠ x.e := by
          intro hh
          rcases hxe with h | h
          · omega
          · rw [hh, h] at c'; simp at c'
        have hq := (ih ⟨x.s ||| 2 ^ i, i, x.hops + 1⟩ ((p ++ [1]).map (fun i : Nat => (i : Int))) (t.length i (p ++ [1])) (by dsimp only; omega)
          (.inr (by rw [Nat.testBit_or, Nat.testBit_two_pow_self]; simp))).2
          ⟨p, rfl, by simpa using h2, h3.2, fun j hj => by
            obtain ⟨q1, q2, q3⟩ := h4 j (List.mem_cons_of_mem _ hj)
            refine ⟨q1, q2, ?_⟩
            rw [Nat.testBit_or, q3, Nat.testBit_two_pow]
            have : i ≠ j := fun h => h3.1 (h ▸ hj)
            simp [this], rfl⟩
        have := Path.cons (m := (t.mdl ok)) ((t.step_iff hx (l := i)).2 (.inr ⟨by omega, i, rfl, a, c', b, hne, rfl⟩)) hq
        subst h1
        rw [h5]
        simpa [Toy.length, Toy.mdl] using this

/-- The solutions of the model are the tours. -/
theorem Toy.sol_iff (hn : 1 < t.n) (ls : List Int) (c : Int) : Sol (t.mdl ok) ls c ↔ t.Tour ls c := by
  have h1c : 1 ∈ t.cs := t.mem_cs.2 ⟨Nat.le_refl 1, by omega⟩
  have h := t.path_iff (ok := ok) (t.n - 1) ⟨0, 1, 0⟩ ls c (by dsimp only; omega) (.inl rfl)
  refine Iff.trans h ?_
  unfold Toy.Tour
  constructor
  · rintro ⟨p, h1, h2, h3, h4, h5⟩
    refine ⟨p, h1, h3, fun i => ⟨fun hi => ⟨(h4 i hi).1, (h4 i hi).2.1⟩, fun hi => ?_⟩, h5⟩
    -- a duplicate-free list of nv-1 cities other than 1 has them all
    refine nodup_full p ((t.cs).erase 1) h3 (fun j hj => ?_) ?_ i ?_
    · rw [List.Nodup.mem_erase_iff t.cs_nodup]
      exact ⟨(h4 j hj).2.1, (h4 j hj).1⟩
    · rw [List.length_erase_of_mem h1c, t.cs_len, h2]
      exact Nat.le_refl _
    · rw [List.Nodup.mem_erase_iff t.cs_nodup]
      exact ⟨hi.2, hi.1⟩
  · rintro ⟨p, h1, h3, h4, h5⟩
    refine ⟨p, h1, ?_, h3, fun i hi => ⟨((h4 i).1 hi).1, ((h4 i).1 hi).2, by simp⟩, h5⟩
    have hperm : p.Perm ((t.cs).erase 1) := by
      rw [List.perm_ext_iff_of_nodup h3 (List.Nodup.erase _ t.cs_nodup)]
      intro i
      rw [h4, List.Nodup.mem_erase_iff t.cs_nodup]
      exact ⟨fun h => ⟨h.2, h.1⟩, fun h => ⟨h.2, h.1⟩⟩
    rw [hperm.length_eq, List.length_erase_of_mem h1c, t.cs_len]

/-- C98: with the engine: whatever the width, the relaxed diagram of the TSP model is at most the length of
every tour (shorter than the primal bound). -/
theorem toy_dual {D : Int} (hD : t.Bnd D) (hn : 1 < t.n) {prim : Int} {w f : Nat} {g : G TspS} (h : relaxed (t.mdl ok) prim w f (t.mdl ok).src0 = some g)
    {ls : List Int} {c : Int} (hc : t.Tour ls c) (hp : c < prim) : g.bound g.trg ≤ c := by
  have H : Layered (t.mdl ok) t.rank (t.mdl ok).src0.st (t.mdl ok).src0.bound := t.layered hD hn (s0 := ⟨0, 1, 0⟩) (v0 := 0) (by dsimp only; omega) (t.mem_cs.2 ⟨Nat.le_refl 1, Nat.le_of_lt hn⟩) (by simp)
  have := relaxed_dual H h ((t.sol_iff hn ls c).2 hc) (by simp [Mdl.src0, Toy.mdl, Sense.better]; omega)
  simp [Mdl.src0, Toy.mdl, Sense.betterEQ] at this
  omega


theorem Toy.prog (hn : 1 < t.n) {D : Int} (hD : t.Bnd D) (hlow : ∀ ls c, t.Tour ls c → -2147483647 ≤ c) : TspProg (t.mdl ok) t.rank t.n t.Tour := by
  have h1c : 1 ∈ t.cs := t.mem_cs.2 ⟨Nat.le_refl 1, by omega⟩
  refine ⟨rfl, rfl, t.layered hD hn (s0 := ⟨0, 1, 0⟩) (v0 := 0) (by show 0 < _; omega) h1c (by simp), fun x v hr hq => ?_, t.sol_iff hn, fun _ => hlow, ?_⟩
  · rcases (t.relx hD hn (s0 := ⟨0, 1, 0⟩) (v0 := 0) (by show 0 < _; omega) h1c (by simp) hr).1 with h | h
    · exact Nat.le_of_lt h
    · rw [h] at hq; simp [Toy.mdl] at hq
  · exact ⟨_, _, t.cs.erase 1, rfl, List.Nodup.erase _ t.cs_nodup, fun i => by
      rw [List.Nodup.mem_erase_iff t.cs_nodup]
      exact ⟨fun h => ⟨h.2, h.1⟩, fun h => ⟨h.2, h.1⟩⟩, rfl⟩

end Verif.Ex
