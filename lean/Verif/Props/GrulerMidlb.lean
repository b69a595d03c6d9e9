import Verif.Props.GrulerMid
/-!
# C104, C105, C106: the Golomb ruler example with the smallest unused distance
-/
namespace Verif.Ex
open Verif.DD
variable (t : Gol)

/-! ### The next unused distance -/

theorem advLoop_spec (d : Nat) : ∀ (f s : Nat), s ≤ advLoop d f s ∧ advLoop d f s ≤ s + f ∧
    (∀ j, s ≤ j → j < advLoop d f s → d.testBit j = true) ∧ (advLoop d f s < s + f → d.testBit (advLoop d f s) = false) := by
  intro f
  induction f with
  | zero => intro s; exact ⟨Nat.le_refl _, by simp [advLoop], fun j h1 h2 => by simp [advLoop] at h2; omega, fun h => by simp [advLoop] at h⟩
  | succ f ih =>
    intro s
    by_cases hb : d.testBit s = true
    · obtain ⟨a, b, c, e⟩ := ih (s + 1)
      have hd : advLoop d (f + 1) s = advLoop d f (s + 1) := by rw [advLoop, if_pos hb]
      rw [hd]
      refine ⟨by omega, by omega, fun j h1 h2 => ?_, fun h => e (by omega)⟩
      by_cases hj : j = s
      · rw [hj]; exact hb
      · exact c j (by omega) h2
    · have hd : advLoop d (f + 1) s = s := by rw [advLoop, if_neg hb]
      rw [hd]
      exact ⟨Nat.le_refl _, by omega, fun j h1 h2 => by omega, fun _ => by simpa using hb⟩

/-- The loop stops at the first unused distance from where it starts. -/
theorem adv_spec (d s : Nat) : s ≤ adv d s ∧ d.testBit (adv d s) = false ∧ ∀ j, s ≤ j → j < adv d s → d.testBit j = true := by
  obtain ⟨a, b, c, e⟩ := advLoop_spec d (d.log2 + 1) s
  refine ⟨a, ?_, c⟩
  by_cases h : adv d s < s + (d.log2 + 1)
  · exact e h
  · refine Nat.testBit_lt_two_pow (Nat.lt_of_lt_of_le Nat.lt_log2_self (Nat.pow_le_pow_right (by decide) ?_))
    unfold adv at h ⊢
    omega

theorem adv_mono {d d' s s' : Nat} (hd : ∀ j, d.testBit j = true → d'.testBit j = true) (hs : s ≤ s') : adv d s ≤ adv d' s' := by
  obtain ⟨_, _, c⟩ := adv_spec d s
  obtain ⟨a', b', _⟩ := adv_spec d' s'
  by_cases h : adv d s ≤ adv d' s'
  · exact h
  · have := hd _ (c (adv d' s') (by omega) (by omega))
    rw [b'] at this; simp at this

/-! ### Steps -/

/-- The problem with the labels `P` allows after so many marks. -/
def Gol.subB (P : Nat → Int → Bool) : Mdl GolB := t.mdlB fun x l => decide (((x.g.e + x.sm : Nat) : Int) ≤ l) && P x.g.k l

/-- The limits of the generator that do not depend on the smallest unused distance. -/
def Gol.limR (p : Int) (k : Nat) (l : Int) : Bool :=
  decide (((k * (k - 1) / 2 : Nat) : Int) ≤ l ∧ ((if k + 1 < t.n then t.opt (k + 1) else t.opt k + 1 : Nat) : Int) ≤ l ∧ l ≤ t.ubMid p k)

/-- `Gol.can`, which looks at the number of marks only. -/
def Gol.canK (Q : Nat) (k : Nat) (l : Int) : Bool := decide (k < t.n / 2 → l + t.opt (t.n / 2 - k) ≤ Q)

theorem Gol.fullB_eq : t.fullB = t.subB fun _ _ => true := by
  simp [Gol.fullB, Gol.subB]

theorem Gol.midB_eq (p : Int) : t.midB p = t.subB (t.limR p) := by
  unfold Gol.midB Gol.subB
  congr 1
  funext x l
  rw [Bool.eq_iff_iff, Bool.and_eq_true]
  unfold Gol.limR Gol.lbB
  rw [decide_eq_true_iff, decide_eq_true_iff, decide_eq_true_iff]
  generalize (if x.g.k + 1 < t.n then t.opt (x.g.k + 1) else t.opt x.g.k + 1) = o
  generalize x.g.k * (x.g.k - 1) / 2 = q
  generalize x.g.e + x.sm = e
  omega

theorem Gol.subB_same (P : Nat → Int → Bool) : t.subB P = { t.fullB with lgf := (t.subB P).lgf, loc := (t.subB P).loc } := rfl

theorem Gol.subB_le {P Q : Nat → Int → Bool} (h : ∀ k l, P k l = true → Q k l = true) (s : GolB) (l : Int) :
    l ∈ (t.subB P).lgf s → l ∈ (t.subB Q).lgf s := by
  simp only [Gol.subB, Gol.mdlB, List.mem_filter, Bool.and_eq_true]
  rintro ⟨a, ⟨b, c⟩, d⟩
  exact ⟨a, ⟨b, h _ _ c⟩, d⟩

/-- Where a label leads. -/
def Gol.nextB (x : GolB) (c : Nat) : GolB :=
  if x.g.k + 1 = t.n then t.targetB
  else ⟨⟨x.g.m ||| 2 ^ c, diffs c x.g.m ||| x.g.d, x.g.k + 1, c⟩, adv (diffs c x.g.m ||| x.g.d) x.sm⟩

theorem Gol.nextB_g (x : GolB) (c : Nat) : (t.nextB x c).g = t.next x.g c := by
  unfold Gol.nextB Gol.next
  by_cases h : x.g.k + 1 = t.n
  · rw [if_pos h, if_pos h]; rfl
  · rw [if_neg h, if_neg h]

theorem GolB.legal_iff {x : GolB} {c : Nat} : x.legal c = true ↔ ∀ i, i ≤ c → x.g.m.testBit i = true → x.g.d.testBit (c - i) = false := by
  unfold GolB.legal
  rw [decide_eq_true_iff, Int.toNat_natCast]
  constructor
  · intro h i hi hm
    have hb : (diffs c x.g.m).testBit (c - i) = true := diffs_bit.2 ⟨i, hi, hm, rfl⟩
    have : (x.g.d &&& diffs c x.g.m).testBit (c - i) = false := by rw [h]; simp
    rw [Nat.testBit_and, hb, Bool.and_true] at this
    exact this
  · intro h
    refine Nat.eq_of_testBit_eq fun j => ?_
    rw [Nat.testBit_and, Nat.zero_testBit]
    cases hb : (diffs c x.g.m).testBit j with
    | false => simp
    | true =>
      obtain ⟨i, a, b, e⟩ := diffs_bit.1 hb
      rw [← e, h i a b]; rfl

theorem Gol.stepB_iff {P : Nat → Int → Bool} {x x' : GolB} {l : Int} : Step (t.subB P) x l x' ↔
    x.g.k ≠ t.n ∧ ∃ c : Nat, l = c ∧ c ≤ t.L + 1 ∧ x.g.e + x.sm ≤ c ∧ P x.g.k c = true ∧ x.legal c = true ∧ x' = t.nextB x c := by
  have hstf : ∀ c : Nat, (t.subB P).stf x (c : Int) = some (t.nextB x c) := by
    intro c
    simp only [Gol.subB, Gol.mdlB, Gol.nextB, Int.toNat_natCast]
    by_cases hk : x.g.k + 1 = t.n
    · rw [if_pos hk, if_pos hk]
    · rw [if_neg hk, if_neg hk]
  have hq : (t.subB P).eqs x = false ↔ x.g.k ≠ t.n := by simp [Gol.subB, Gol.mdlB]
  have hl : l ∈ (t.subB P).lgf x ↔ ∃ c : Nat, l = c ∧ c ≤ t.L + 1 ∧ x.g.e + x.sm ≤ c ∧ P x.g.k c = true ∧ x.legal c = true := by
    simp only [Gol.subB, Gol.mdlB, List.mem_filter, List.mem_map, List.mem_range, Bool.and_eq_true, decide_eq_true_iff]
    constructor
    · rintro ⟨⟨i, hi, rfl⟩, ⟨a, b⟩, c⟩
      exact ⟨i, rfl, by omega, by omega, b, c⟩
    · rintro ⟨c, rfl, a, b, d, e⟩
      exact ⟨⟨c, by omega, rfl⟩, ⟨by omega, d⟩, e⟩
  unfold Step
  rw [hq, hl]
  constructor
  · rintro ⟨h, ⟨c, rfl, a, b, d, e⟩, g⟩
    rw [hstf] at g
    injection g with g
    exact ⟨h, c, rfl, a, b, d, e, g.symm⟩
  · rintro ⟨h, c, rfl, a, b, d, e, g⟩
    exact ⟨h, ⟨c, rfl, a, b, d, e⟩, by rw [hstf, g]⟩

/-! ### Without the smallest unused distance -/

/-- Forgetting it gives a step of the problem of examples/gruler.cpp. -/
theorem Gol.stepB_proj {P : Nat → Int → Bool} {x x' : GolB} {l : Int} (h1 : 1 ≤ x.sm) (h : Step (t.subB P) x l x') :
    Step (t.sub fun g => P g.k) x.g l x'.g ∧ 1 ≤ x'.sm := by
  obtain ⟨hk, c, rfl, a, b, d, e, rfl⟩ := (t.stepB_iff).1 h
  have hleg : Ex.legal x.g.m x.g.d c = true := Ex.legal_iff.2 fun i hi hm => GolB.legal_iff.1 e i (by omega) hm
  refine ⟨(t.sub_step).2 ⟨⟨by simpa [Gol.full, Gol.mdl] using hk, ?_, ?_⟩, d⟩, ?_⟩
  · simp only [Gol.full, Gol.mdl, List.mem_filter, List.mem_map, List.mem_range, decide_eq_true_iff]
    exact ⟨⟨c, by omega, rfl⟩, by omega⟩
  · rw [t.nextB_g]
    simp only [Gol.full, Gol.mdl, Int.toNat_natCast, Gol.next]
    rw [if_pos hleg]
    by_cases hk : x.g.k + 1 = t.n
    · rw [if_pos hk, if_pos hk]
    · rw [if_neg hk, if_neg hk]
  · unfold Gol.nextB
    by_cases hk : x.g.k + 1 = t.n
    · rw [if_pos hk]; show 1 ≤ t.L + 1; omega
    · rw [if_neg hk]
      exact Nat.le_trans h1 (adv_spec _ _).1

theorem Gol.pathB_proj {P : Nat → Int → Bool} {x y : GolB} {ls : List Int} {c : Int} (h : Path (t.subB P) x ls c y) (h1 : 1 ≤ x.sm) :
    Path (t.sub fun g => P g.k) x.g ls c y.g ∧ 1 ≤ y.sm := by
  induction h with
  | nil s => exact ⟨Path.nil _, h1⟩
  | cons hs _ ih =>
    obtain ⟨a, b⟩ := t.stepB_proj h1 hs
    obtain ⟨d, e⟩ := ih b
    exact ⟨Path.cons a d, e⟩

theorem Gol.smfB_some {P : Nat → Int → Bool} {a b c : GolB} (h : (t.subB P).smf a b = some c) :
    a.g.k = b.g.k ∧ a.g.e = b.g.e ∧ c = ⟨⟨a.g.m &&& b.g.m, a.g.d &&& b.g.d, a.g.k, a.g.e⟩, min a.sm b.sm⟩ := by
  simp only [Gol.subB, Gol.mdlB] at h
  by_cases hc : a.g.k = b.g.k ∧ a.g.e = b.g.e
  · rw [if_pos hc] at h
    injection h with h
    refine ⟨hc.1, hc.2, ?_⟩
    rw [← h, ← hc.2, Nat.min_self]
  · rw [if_neg hc] at h; simp at h

theorem Gol.smfB_proj {P : Nat → Int → Bool} {a b c : GolB} (h : (t.subB P).smf a b = some c) : t.full.smf a.g b.g = some c.g := by
  obtain ⟨e1, e2, rfl⟩ := t.smfB_some h
  simp only [Gol.full, Gol.mdl]
  rw [if_pos ⟨e1, e2⟩, ← e2, Nat.min_self]

theorem Gol.relxB_proj {P : Nat → Int → Bool} {x s0 : GolB} {v v0 : Int} (h : Relx (t.subB P) t.rankB s0 v0 x v) (h1 : 1 ≤ s0.sm) :
    Relx t.full t.rank s0.g v0 x.g v ∧ 1 ≤ x.sm := by
  have hq : ∀ a : GolB, (t.subB P).eqs a = false → t.full.eqs a.g = false := fun a h => h
  induction h with
  | swap _ _ hsw _ ihsw => obtain rfl := (same_iff _ _).1 hsw; exact ihsw
  | root => exact ⟨Relx.root, h1⟩
  | step _ hs ih =>
    obtain ⟨a, b⟩ := t.stepB_proj ih.2 hs
    exact ⟨ih.1.step ((t.sub_step).1 a).1, b⟩
  | mergeL _ _ q1 q2 hk hm ih1 ih2 =>
    refine ⟨ih1.1.mergeL ih2.1 (hq _ q1) (hq _ q2) hk (t.smfB_proj hm), ?_⟩
    obtain ⟨_, _, rfl⟩ := t.smfB_some hm
    have := ih1.2; have := ih2.2
    show 1 ≤ min _ _
    omega
  | mergeR _ _ q1 q2 hk hm ih1 ih2 =>
    refine ⟨ih1.1.mergeR ih2.1 (hq _ q1) (hq _ q2) hk (t.smfB_proj hm), ?_⟩
    obtain ⟨_, _, rfl⟩ := t.smfB_some hm
    have := ih1.2; have := ih2.2
    show 1 ≤ min _ _
    omega

/-! ### Forgetting allows more -/

/-- `x` forgets some of what `y` knows. -/
def GolB.Le (x y : GolB) : Prop := x.g.Le y.g ∧ x.sm ≤ y.sm ∧ (y.g.k = t.n → x = y)

theorem GolB.Le.step {P : Nat → Int → Bool} {x y y' : GolB} {l : Int} (h : GolB.Le t x y) (hy : Step (t.subB P) y l y') :
    ∃ x', Step (t.subB P) x l x' ∧ GolB.Le t x' y' ∧ (t.subB P).stc x l = (t.subB P).stc y l := by
  obtain ⟨⟨hk, he, hm, hd⟩, hs, _⟩ := h
  obtain ⟨hn, c, rfl, a, b, d, e, rfl⟩ := (t.stepB_iff).1 hy
  refine ⟨t.nextB x c, (t.stepB_iff).2 ⟨by omega, c, rfl, a, by omega, by rw [hk]; exact d, ?_, rfl⟩, ?_, ?_⟩
  · rw [GolB.legal_iff] at e ⊢
    intro i hi hmi
    have := e i hi (hm i hmi)
    cases hc : x.g.d.testBit (c - i) with
    | false => rfl
    | true => rw [hd _ hc] at this; simp at this
  · unfold Gol.nextB
    rw [hk]
    by_cases hn1 : y.g.k + 1 = t.n
    · rw [if_pos hn1, if_pos hn1]
      exact ⟨⟨rfl, rfl, fun _ h => h, fun _ h => h⟩, Nat.le_refl _, fun _ => rfl⟩
    · rw [if_neg hn1, if_neg hn1]
      have hdn : ∀ j, (diffs c x.g.m ||| x.g.d).testBit j = true → (diffs c y.g.m ||| y.g.d).testBit j = true := by
        intro j h
        simp only [Nat.testBit_or, Bool.or_eq_true] at h ⊢
        refine h.imp ?_ (hd j)
        intro h
        obtain ⟨i, a, b, c⟩ := diffs_bit.1 h
        exact diffs_bit.2 ⟨i, a, hm i b, c⟩
      refine ⟨⟨rfl, rfl, ?_, hdn⟩, adv_mono hdn hs, fun h => absurd h hn1⟩
      intro i h
      simp only [Nat.testBit_or, Bool.or_eq_true] at h ⊢
      exact h.imp_left (hm i)
  · simp only [Gol.subB, Gol.mdlB]; rw [he]

theorem GolB.Le.path {P : Nat → Int → Bool} {y z : GolB} {ls : List Int} {c : Int} (h : Path (t.subB P) y ls c z) :
    ∀ {x : GolB}, GolB.Le t x y → z = t.targetB → Path (t.subB P) x ls c t.targetB := by
  induction h with
  | nil s =>
    intro x hx hz
    subst hz
    rw [hx.2.2 rfl]; exact Path.nil _
  | cons hs _ ih =>
    intro x hx hz
    obtain ⟨x', h1, h2, h3⟩ := GolB.Le.step t hx hs
    have := Path.cons h1 (ih h2 hz)
    rwa [h3] at this

/-- C104: merging is a relaxation: what either open state can still do, the merged state can do at the same
cost, with any limits on the labels that depend on the number of marks only. -/
theorem midlb_merge_valid {P : Nat → Int → Bool} {a b c : GolB} (h : (t.subB P).smf a b = some c) (ho : a.g.k ≠ t.n) {v : Int}
    (hv : Val (t.subB P) a v ∨ Val (t.subB P) b v) : Val (t.subB P) c v := by
  obtain ⟨e1, e2, rfl⟩ := t.smfB_some h
  rcases hv with ⟨ls, hv⟩ | ⟨ls, hv⟩
  · refine ⟨ls, GolB.Le.path t hv ⟨⟨rfl, rfl, fun i h => ?_, fun i h => ?_⟩, Nat.min_le_left _ _, fun h => absurd h ho⟩ rfl⟩
    · simp only [Nat.testBit_and, Bool.and_eq_true] at h; exact h.1
    · simp only [Nat.testBit_and, Bool.and_eq_true] at h; exact h.1
  · refine ⟨ls, GolB.Le.path t hv ⟨⟨e1, e2, fun i h => ?_, fun i h => ?_⟩, Nat.min_le_right _ _, fun h => absurd (e1.trans h) ho⟩ rfl⟩
    · simp only [Nat.testBit_and, Bool.and_eq_true] at h; exact h.2
    · simp only [Nat.testBit_and, Bool.and_eq_true] at h; exact h.2

/-- The hypotheses of the engine: the generator shows `P`, and the completions within `Q` are looked after. -/
theorem Gol.subB_layered {P Q : Nat → Int → Bool} (hQP : ∀ k l, Q k l = true → P k l = true) (hL : t.L < 2147483646)
    {s0 : GolB} {v0 : Int} (h0 : t.Ok s0.g v0) (h1 : 1 ≤ s0.sm) (hq : t.fullB.eqs s0 = false) :
    LayeredV (Val (t.subB Q)) (t.subB P) t.rankB s0 v0 := by
  have L := t.layered (ub := none) hL h0 hq
  refine ⟨by simp [Gol.subB, Gol.mdlB, Gol.targetB, Gol.target], ?_, hq, fun s v h => L.range s.g v (t.relxB_proj h h1).1, ?_, ?_, ?_, ?_, Fair.ofEq⟩
  · intro s c h
    rcases val_closed _ s c h with x | ⟨l, s', c', h1, h2, h3⟩
    · exact .inl x
    · exact .inr ⟨l, s', c', step_sub (m := t.subB P) (m' := t.subB Q) rfl (t.subB_le hQP) h1, h2, h3⟩
  · intro s v l s' h hs
    obtain ⟨a, b⟩ := t.relxB_proj h h1
    exact L.step s.g v l s'.g a ((t.sub_step).1 (t.stepB_proj b hs).1).1
  · intro a b c va vb h1 h2 q1 q2 hk hm
    have ho : a.g.k ≠ t.n := by simpa [Gol.subB, Gol.mdlB] using q1
    refine ⟨?_, ?_, ?_, ?_⟩
    · obtain ⟨e1, e2, rfl⟩ := t.smfB_some hm
      exact q1
    · obtain ⟨e1, e2, rfl⟩ := t.smfB_some hm
      rfl
    · intro v hv
      exact ⟨v, midlb_merge_valid t (P := Q) hm ho (.inl hv), by rw [Sense.betterEQ_iff]; omega⟩
    · intro v hv
      exact ⟨v, midlb_merge_valid t (P := Q) hm ho (.inr hv), by rw [Sense.betterEQ_iff]; omega⟩
  · intro f hf; simp [Gol.subB, Gol.mdlB] at hf
  · intro f hf; simp [Gol.subB, Gol.mdlB] at hf

/-! ### States of rulers -/

/-- The last mark is a mark and none is beyond; the distances below `sm` are used and `sm` is not. -/
def Gol.Tight (x : GolB) : Prop :=
  x = t.targetB ∨ (x.g.k < t.n ∧ x.g.m.testBit x.g.e = true ∧ (∀ i, x.g.m.testBit i = true → i ≤ x.g.e) ∧
    (∀ j, 1 ≤ j → j < x.sm → x.g.d.testBit j = true) ∧ x.g.d.testBit x.sm = false)

theorem Gol.Tight.next {x : GolB} (h : t.Tight x) {c : Nat} (hk : x.g.k ≠ t.n) (hc : x.g.e < c) : t.Tight (t.nextB x c) := by
  rcases h with h | ⟨h1, h2, h3, h4, h5⟩
  · rw [h] at hk; exact absurd rfl hk
  · unfold Gol.nextB
    by_cases hn : x.g.k + 1 = t.n
    · rw [if_pos hn]; exact .inl rfl
    · rw [if_neg hn]
      obtain ⟨a, b, d⟩ := adv_spec (diffs c x.g.m ||| x.g.d) x.sm
      refine .inr ⟨by show x.g.k + 1 < t.n; omega, ?_, ?_, ?_, b⟩
      · show (x.g.m ||| 2 ^ c).testBit c = true
        simp [Nat.testBit_or]
      · intro i hi
        have hi : (x.g.m ||| 2 ^ c).testBit i = true := hi
        rw [Nat.testBit_or, Nat.testBit_two_pow, Bool.or_eq_true, decide_eq_true_iff] at hi
        show i ≤ c
        rcases hi with hi | hi
        · have := h3 i hi; omega
        · omega
      · intro j hj1 hj2
        by_cases hj : j < x.sm
        · show (diffs c x.g.m ||| x.g.d).testBit j = true
          rw [Nat.testBit_or, h4 j hj1 hj, Bool.or_true]
        · exact d j (by omega) hj2

theorem Gol.tight_root (hn : 2 ≤ t.n) : t.Tight t.fullB.sti := by
  refine .inr ⟨by show 1 < t.n; omega, by show Nat.testBit 1 0 = true; decide, ?_, ?_, Nat.zero_testBit 1⟩
  · intro i hi
    have hi : Nat.testBit 1 i = true := hi
    rw [show Nat.testBit 1 i = decide (0 = i) from Nat.testBit_two_pow (n := 0), decide_eq_true_iff] at hi
    show i ≤ 0
    omega
  · intro j h1 h2
    have h2 : j < 1 := h2
    omega

theorem Gol.tight_path {P : Nat → Int → Bool} {x y : GolB} {ls : List Int} {c : Int} (h : Path (t.subB P) x ls c y) (hx : t.Tight x) (h1 : 1 ≤ x.sm) :
    t.Tight y := by
  induction h with
  | nil s => exact hx
  | cons hs _ ih =>
    obtain ⟨hk, c, rfl, a, b, d, e, rfl⟩ := (t.stepB_iff).1 hs
    exact ih (hx.next t hk (by omega)) (t.stepB_proj h1 hs).2

/-- From a ruler's state, no completion is lost by starting at the smallest unused distance. -/
theorem Gol.lift {P : GolS → Int → Bool} {Q : Nat → Int → Bool} (hPQ : ∀ g l, P g l = true → Q g.k l = true) {g y : GolS} {ls : List Int} {c : Int}
    (h : Path (t.sub P) g ls c y) : ∀ {x : GolB}, x.g = g → t.Tight x → y = t.target → Path (t.subB Q) x ls c t.targetB := by
  induction h with
  | nil s =>
    intro x hx ht hy
    rcases ht with ht | ht
    · rw [ht]; exact Path.nil _
    · rw [hx, hy] at ht
      have := ht.1
      simp [Gol.target] at this
  | @cons g g' _ l _ _ hs _ ih =>
    intro x hx ht hy
    subst hx
    obtain ⟨a, b⟩ := (t.sub_step).1 hs
    have hk : x.g.k ≠ t.n := by simpa [Gol.full, Gol.mdl] using a.1
    rcases ht with ht | ht
    · rw [ht] at hk; exact absurd rfl hk
    · obtain ⟨c, rfl, a1, a2, a3, a4⟩ := (t.step_iff (ub := none) ht.1).1 a
      have hlt := a2.lt
      have hx' : (t.nextB x c).g = g' := by rw [t.nextB_g, a4]
      rw [Ex.legal_iff] at a3
      have hst : Step (t.subB Q) x (c : Int) (t.nextB x c) := by
        refine (t.stepB_iff).2 ⟨hk, c, rfl, a1, ?_, hPQ _ _ b, ?_, rfl⟩
        · by_cases hc : x.g.e + x.sm ≤ c
          · exact hc
          · have h1 := ht.2.2.2.1 (c - x.g.e) (by omega) (by omega)
            rw [a3 _ hlt ht.2.1] at h1
            simp at h1
        · rw [GolB.legal_iff]
          intro i hi hm
          have := ht.2.2.1 i hm
          exact a3 i (by omega) hm
      exact Path.cons hst (ih hx' (Gol.Tight.next t (.inr ht) hk hlt) hy)

/-- C104: the label sequences of the program, limits of the primal bound aside, are exactly the rulers with
`n` marks of length at most `L + 1`. -/
theorem midlb_sol (hn : 2 ≤ t.n) (ls : List Int) (c : Int) : Sol t.fullB ls c ↔
    ∃ ms : List Nat, ls = ms.map (fun i : Nat => (i : Int)) ∧ Golomb (0 :: ms) ∧ ms.length + 1 = t.n ∧
      c = ((ms.getLast?.getD 0 : Nat) : Int) ∧ c ≤ (t.L : Int) + 1 := by
  rw [← gruler_sol t hn]
  have e : t.fullB = t.subB fun _ _ => true := t.fullB_eq
  constructor
  · intro h
    have h : Path t.fullB t.fullB.sti ls c t.targetB := h
    rw [e] at h
    exact t.sub_path (t.pathB_proj h (Nat.le_refl 1)).1
  · intro h
    have h : Path t.full t.full.sti ls c t.target := h
    have h2 : Path (t.sub fun _ _ => true) t.full.sti ls c t.target := by
      have e : t.sub (fun _ _ => true) = t.full := by
        have e1 : (fun x => (t.full.lgf x).filter fun _ => true) = t.full.lgf := by
          funext x; rw [List.filter_eq_self]; simp
        simp only [Gol.sub, e1]
      rw [e]; exact h
    have := t.lift (Q := fun _ _ => true) (fun _ _ _ => rfl) h2 (x := t.fullB.sti) rfl (t.tight_root hn) rfl
    rw [← e] at this
    exact this

theorem Gol.projB {x y : GolB} {ls : List Int} {c : Int} (h : Path t.fullB x ls c y) (h1 : 1 ≤ x.sm) : Path t.full x.g ls c y.g ∧ 1 ≤ y.sm := by
  rw [t.fullB_eq] at h
  obtain ⟨a, b⟩ := t.pathB_proj h h1
  exact ⟨t.sub_path a, b⟩

/-- C104: what the generator hides: only marks that lead to no ruler shorter than the primal bound with its
first half of marks up to `Q`. -/
theorem Gol.midB_ok (hn : 2 ≤ t.n) (hL : t.L < 2147483646) (hopt : t.OptOk) {Q : Nat} (hQ : t.Half Q) :
    FamV (Val (t.subB (t.canK Q))) (fun p => Val (t.subB fun k l => t.canK Q k l && t.limR p k l)) t.fullB t.rankB t.midB where
  same := fun _ => rfl
  sub := by
    intro p s l h
    rw [t.midB_eq] at h
    rw [t.fullB_eq]
    exact t.subB_le (fun _ _ _ => rfl) s l h
  keep := by
    rintro p s ls v c hp ⟨ls', hv⟩ hb
    obtain ⟨p1, p2⟩ := t.projB hp (Nat.le_refl 1)
    have hT : t.Tight s := by
      rw [t.fullB_eq] at hp
      exact t.tight_path hp (t.tight_root hn) (Nat.le_refl 1)
    have hv' : Path (t.sub (t.can Q)) s.g ls' c t.target := (t.pathB_proj hv p2).1
    obtain ⟨ls2, h2⟩ := (t.mid_ok hn hL hopt hQ).keep p s.g ls v c p1 ⟨ls', hv'⟩ hb
    refine ⟨ls2, t.lift ?_ h2 rfl hT rfl⟩
    intro g l h
    have h : (t.can Q g l && t.limMid p g l) = true := h
    show (t.canK Q g.k l && t.limR p g.k l) = true
    rw [Bool.and_eq_true] at h ⊢
    refine ⟨h.1, ?_⟩
    have h := of_decide_eq_true h.2
    refine decide_eq_true ?_
    unfold Gol.lb at h
    omega
  back := by
    rintro p s c h
    exact val_sub (m := t.subB (t.canK Q)) rfl (t.subB_le fun k l h => (Bool.and_eq_true _ _ ▸ h).1) h
  lay := by
    intro p s ls v hp hq
    obtain ⟨p1, p2⟩ := t.projB hp (Nat.le_refl 1)
    rw [t.midB_eq]
    exact t.subB_layered (fun k l h => (Bool.and_eq_true _ _ ▸ h).2) hL (t.reach hn p1).1 p2 hq

theorem Gol.midB_covers (hn : 2 ≤ t.n) (hopt : t.OptOk) : ∃ Q, t.Half Q ∧
    ∀ ls c, Sol t.full ls c → ∃ c', Val (t.subB (t.canK Q)) t.fullB.sti c' ∧ c' ≤ c := by
  obtain ⟨Q, hQ, hc⟩ := t.mid_covers hn hopt
  refine ⟨Q, hQ, fun ls c hs => ?_⟩
  obtain ⟨ls', c', h1, h2⟩ := hc ls c hs
  exact ⟨c', ⟨ls', t.lift (fun _ _ h => h) h1 rfl (t.tight_root hn) rfl⟩, h2⟩

theorem Gol.canB_layered (hn : 2 ≤ t.n) (hL : t.L < 2147483646) (Q : Nat) : LayeredV (Val (t.subB (t.canK Q))) t.fullB t.rankB t.fullB.sti 0 := by
  have h := t.subB_layered (P := fun _ _ => true) (Q := t.canK Q) (fun _ _ _ => rfl) hL (s0 := t.fullB.sti) (t.ok_root hn) (Nat.le_refl 1)
    (by simp [Gol.fullB, Gol.mdlB]; omega)
  rwa [← t.fullB_eq] at h

theorem Gol.rankBoundB (hn : 2 ≤ t.n) : RankBound t.fullB t.rankB t.fullB.sti 0 t.n := by
  intro s v h hq
  rw [t.fullB_eq] at h
  exact t.rankBound hn s.g v (t.relxB_proj h (Nat.le_refl 1)).1 hq

/-! ### With the engine -/

/-- C104: at any primal bound, and whatever the width, the relaxed diagram bounds from below every ruler
shorter than the primal bound. -/
theorem midlb_dual (hn : 2 ≤ t.n) (hL : t.L < 2147483646) (hopt : t.OptOk) {p : Int} {w f : Nat} {g : G GolB}
    (h : relaxed (t.midB p) p w f (t.midB p).src0 = some g) {ms : List Nat} (hg : Golomb (0 :: ms)) (hm : ms.length + 1 = t.n)
    {z : Nat} (hz : ms.getLast?.getD 0 = z) (hzL : z ≤ t.L + 1) (hp : (z : Int) < p) : g.bound g.trg ≤ z := by
  obtain ⟨Q, hQ, hcov⟩ := t.midB_covers hn hopt
  have hs := (gruler_sol t hn _ (z : Int)).2 ⟨ms, rfl, hg, hm, by rw [hz], by omega⟩
  obtain ⟨c', h1, h2⟩ := hcov _ _ hs
  have := (t.midB_ok hn hL hopt hQ).relaxed_dual (r := (t.midB p).src0) (Path.nil _) (t.canB_layered hn hL Q).src h (c := c') h1 (by
    simp [Mdl.src0, Gol.midB, Gol.fullB, Gol.mdlB, Sense.better]; omega)
  have : g.bound g.trg ≤ 0 + c' := by simpa [Mdl.src0, Gol.midB, Gol.fullB, Gol.mdlB, Sense.betterEQ] using this
  omega

/-- C105: everything the search reports is a ruler with `n` marks whose length is the reported value. -/
theorem midlb_sound (hn : 2 ≤ t.n) (hL : t.L < 2147483646) (hopt : t.OptOk) {w dfuel fuel : Nat} {lim : Nat → Bool} {s : BB.BS GolB}
    (h : BB.searchP t.fullB t.midB w dfuel lim fuel 2147483647 = some s) :
    ∀ x, x ∈ s.sols → ∃ ms : List Nat, x.2 = ms.map (fun i : Nat => (i : Int)) ∧ Golomb (0 :: ms) ∧ ms.length + 1 = t.n ∧
      x.1 = ((ms.getLast?.getD 0 : Nat) : Int) := by
  intro x hx
  obtain ⟨ms, h1, h2, h3, h4, _⟩ := (midlb_sol t hn _ _).1
    ((BB.searchT_sound (fun _ => t.midB_ok hn hL hopt t.half_zero) (t.canB_layered hn hL 0) rfl h).1 x hx)
  exact ⟨ms, h1, h2, h3, h4⟩

/-- C105: the search ends. -/
theorem midlb_ends (hn : 2 ≤ t.n) (hL : t.L < 2147483646) (hopt : t.OptOk) (w : Nat) {dfuel : Nat} (hf : t.n + 2 ≤ dfuel)
    (lim : Nat → Bool) : ∃ N, ∀ fuel, N < fuel → ∃ s, BB.searchP t.fullB t.midB w dfuel lim fuel 2147483647 = some s ∧
      (s.stopped = true ∨ Heap.empty s.pq = true) :=
  BB.searchT_ends (fun _ => t.midB_ok hn hL hopt t.half_zero) (t.canB_layered hn hL 0) rfl (t.rankBoundB hn) w hf lim

theorem Gol.midB_answer (hn : 2 ≤ t.n) (hL : t.L < 2147483646) {Q : Nat} (hcov : ∀ ls c, Sol t.full ls c →
      ∃ c', Val (t.subB (t.canK Q)) t.fullB.sti c' ∧ c' ≤ c) {pr : Int} {inc : List Int}
    (h1 : ∀ c, Val (t.subB (t.canK Q)) t.fullB.sti c → t.fullB.sense.betterEQ pr c = true)
    (h2 : Sol t.fullB inc pr ∨ (pr = 2147483647 ∧ ∀ c, Val (t.subB (t.canK Q)) t.fullB.sti c → t.fullB.sense.better c 2147483647 = false)) :
    (∃ q : Nat, pr = q ∧ Shortest t.n q ∧ ∃ ms : List Nat, inc = ms.map (fun i : Nat => (i : Int)) ∧ Golomb (0 :: ms) ∧
      ms.length + 1 = t.n ∧ ms.getLast?.getD 0 = q) ∨
    (pr = 2147483647 ∧ ∀ ms : List Nat, Golomb (0 :: ms) → ms.length + 1 = t.n → t.L + 1 < ms.getLast?.getD 0) := by
  have hle : ∀ ls c, Sol t.full ls c → pr ≤ c := by
    intro ls c hs
    obtain ⟨c', a, b⟩ := hcov ls c hs
    have := h1 c' a
    have : pr ≤ c' := by simpa [Gol.fullB, Gol.mdlB, Sense.betterEQ] using this
    omega
  refine t.answer hn hL (fun ls c hs => ?_) (h2.imp (fun h => (gruler_sol t hn _ _).2 ((midlb_sol t hn _ _).1 h)) fun ⟨x, _⟩ => ⟨x, fun ls c hs => ?_⟩)
  · have := hle ls c hs
    simpa [Gol.full, Gol.mdl, Sense.betterEQ] using this
  · have := hle ls c hs
    rw [x] at this
    simpa [Gol.full, Gol.mdl, Sense.better] using this

theorem Gol.canB_nonneg (hn : 2 ≤ t.n) {Q : Nat} {c : Int} (h : Val (t.subB (t.canK Q)) t.fullB.sti c) : 0 ≤ c := by
  obtain ⟨ls, h⟩ := h
  exact t.sol_nonneg hn (t.sub_path (t.pathB_proj h (Nat.le_refl 1)).1)

/-- C105: with a width no layer exceeds, the search ends with the shortest ruler, or nothing when that is
longer than `L + 1`. -/
theorem midlb_room (hn : 2 ≤ t.n) (hL : t.L < 2147483646) (hopt : t.OptOk) {w dfuel fuel : Nat} (hR : Room t.fullB t.rankB t.fullB.sti w)
    {lim : Nat → Bool} {s : BB.BS GolB} (h : BB.searchP t.fullB t.midB w dfuel lim fuel 2147483647 = some s) (hns : s.stopped = false) :
    (∃ q : Nat, s.primal = q ∧ Shortest t.n q ∧ ∃ ms : List Nat, s.inc = ms.map (fun i : Nat => (i : Int)) ∧ Golomb (0 :: ms) ∧
      ms.length + 1 = t.n ∧ ms.getLast?.getD 0 = q) ∨
    (s.primal = 2147483647 ∧ ∀ ms : List Nat, Golomb (0 :: ms) → ms.length + 1 = t.n → t.L + 1 < ms.getLast?.getD 0) := by
  obtain ⟨Q, hQ, hcov⟩ := t.midB_covers hn hopt
  obtain ⟨h1, h2⟩ := BB.searchV_room (fun _ => t.midB_ok hn hL hopt hQ) (t.canB_layered hn hL Q) rfl (fun _ c hs => by
    have := t.canB_nonneg hn hs
    simp [Gol.fullB, Gol.mdlB, Sense.betterEQ, Sense.worst0]; omega) hR h hns
  exact t.midB_answer hn hL hcov h1 h2

/-- C105, for any width: if along the run nothing was dropped for a bad reason (`okLoopP`), the search ends
with the shortest ruler, or nothing when that is longer than `L + 1`. -/
theorem midlb_partial (hn : 2 ≤ t.n) (hL : t.L < 2147483646) (hopt : t.OptOk) {w dfuel fuel : Nat} {lim : Nat → Bool} {s : BB.BS GolB}
    (h : BB.searchP t.fullB t.midB w dfuel lim fuel 2147483647 = some s)
    (hok : BB.okLoopP t.fullB t.midB w dfuel lim fuel 0 (BB.init t.fullB w 2147483647) = true) (hns : s.stopped = false) :
    (∃ q : Nat, s.primal = q ∧ Shortest t.n q ∧ ∃ ms : List Nat, s.inc = ms.map (fun i : Nat => (i : Int)) ∧ Golomb (0 :: ms) ∧
      ms.length + 1 = t.n ∧ ms.getLast?.getD 0 = q) ∨
    (s.primal = 2147483647 ∧ ∀ ms : List Nat, Golomb (0 :: ms) → ms.length + 1 = t.n → t.L + 1 < ms.getLast?.getD 0) := by
  obtain ⟨Q, hQ, hcov⟩ := t.midB_covers hn hopt
  have F := t.midB_ok hn hL hopt hQ
  obtain ⟨h1, h2⟩ := BB.searchV_answer_partial (fun _ => F) (fun _ => BB.LcOK.of_fam F) (t.canB_layered hn hL Q)
    (by intro sd hsd; simp [Gol.fullB, Gol.mdlB] at hsd) rfl (fun _ c hs => by
    have := t.canB_nonneg hn hs
    simp [Gol.fullB, Gol.mdlB, Sense.betterEQ, Sense.worst0]; omega) h hok hns
  exact t.midB_answer hn hL hcov h1 h2

/-! ### Equality of states -/

/-- C106: states reached without merging that the code takes for equal are equal; in particular the marks
determine the smallest unused distance, as the comment at examples/gruler_midlb.cpp:31 says. -/
theorem midlb_eq (hn : 2 ≤ t.n) {a b : GolB} {la lb : List Int} {va vb : Int} (ha : Path t.fullB t.fullB.sti la va a)
    (hb : Path t.fullB t.fullB.sti lb vb b) (h : a.eqC b = true) : a = b := by
  obtain ⟨a1, a2⟩ := t.projB ha (Nat.le_refl 1)
  obtain ⟨b1, b2⟩ := t.projB hb (Nat.le_refl 1)
  have hg : a.g = b.g := gruler_eq t hn a1 b1 h
  rw [t.fullB_eq] at ha hb
  have ta := t.tight_path ha (t.tight_root hn) (Nat.le_refl 1)
  have tb := t.tight_path hb (t.tight_root hn) (Nat.le_refl 1)
  have hs : a.sm = b.sm := by
    rcases ta with ta | ⟨k1, _, _, j1, z1⟩
    · rcases tb with tb | ⟨k2, _⟩
      · rw [ta, tb]
      · rw [← hg, ta] at k2; simp [Gol.targetB, Gol.target] at k2
    · rcases tb with tb | ⟨k2, _, _, j2, z2⟩
      · rw [hg, tb] at k1; simp [Gol.targetB, Gol.target] at k1
      · rw [hg] at j1 z1
        by_cases h1 : a.sm < b.sm
        · have := j2 a.sm a2 h1
          rw [z1] at this; simp at this
        · by_cases h2 : b.sm < a.sm
          · have := j1 b.sm b2 h2
            rw [z2] at this; simp at this
          · omega
  obtain ⟨ag, as⟩ := a
  obtain ⟨bg, bs⟩ := b
  simp only at hg hs
  rw [hg, hs]

/-- Following labels from a state relaxation reaches. -/
def follow {σ : Type} (m : Mdl σ) : List Int → σ → Int → Option (σ × Int)
  | [], x, v => some (x, v)
  | l :: ls, x, v => if l ∈ m.lgf x ∧ m.eqs x = false then (m.stf x l).bind fun y => follow m ls y (v + m.stc x l) else none

theorem follow_relx {σ : Type} [Same σ] {m : Mdl σ} {rank : σ → Nat} {s0 : σ} {v0 : Int} : ∀ (ls : List Int) {x y : σ} {v w : Int},
    Relx m rank s0 v0 x v → follow m ls x v = some (y, w) → Relx m rank s0 v0 y w := by
  intro ls
  induction ls with
  | nil =>
    intro x y v w h e
    simp only [follow, Option.some.injEq, Prod.mk.injEq] at e
    rw [← e.1, ← e.2]; exact h
  | cons l ls ih =>
    intro x y v w h e
    rw [follow] at e
    by_cases hc : l ∈ m.lgf x ∧ m.eqs x = false
    · rw [if_pos hc] at e
      cases hq : m.stf x l with
      | none => rw [hq, Option.bind_none] at e; simp at e
      | some q =>
        rw [hq, Option.bind_some] at e
        exact ih (h.step ⟨hc.2, hc.1, hq⟩) e
    · rw [if_neg hc] at e; simp at e

/-- Five marks within length 16, with the table of the program. -/
def b516 : Gol := ⟨5, 15, optTable19⟩

/-- C106 is false for merged states: two states of one layer that compare equal and have the same hash, so
that the table keeps only one of them, yet the first needs 4 where the second needs 2. -/
theorem midlb_eq_false : ∃ a b va vb, Relx (b516.midB 2147483647) b516.rankB b516.fullB.sti 0 a va ∧
    Relx (b516.midB 2147483647) b516.rankB b516.fullB.sti 0 b vb ∧ a.eqC b = true ∧ a.hash = b.hash ∧
    Val (b516.midB 2147483647) b 2 ∧ ∀ c, Val (b516.midB 2147483647) a c → 4 ≤ c := by
  have hA := follow_relx (m := b516.midB 2147483647) (rank := b516.rankB) (s0 := b516.fullB.sti) (v0 := 0) [3, 10, 11] Relx.root
    (y := ⟨⟨3081, 3466, 4, 11⟩, 2⟩) (w := 11) (by decide +kernel)
  have hB := follow_relx (m := b516.midB 2147483647) (rank := b516.rankB) (s0 := b516.fullB.sti) (v0 := 0) [2, 3, 11] Relx.root
    (y := ⟨⟨2061, 2830, 4, 11⟩, 4⟩) (w := 11) (by decide +kernel)
  have hC := follow_relx (m := b516.midB 2147483647) (rank := b516.rankB) (s0 := b516.fullB.sti) (v0 := 0) [1, 3, 11] Relx.root
    (y := ⟨⟨2059, 3342, 4, 11⟩, 4⟩) (w := 11) (by decide +kernel)
  refine ⟨⟨⟨2057, 3338, 4, 11⟩, 2⟩, ⟨⟨2057, 2314, 4, 11⟩, 2⟩, 11, 11,
    hA.mergeL hC (by decide +kernel) (by decide +kernel) rfl (by decide +kernel), hA.mergeL hB (by decide +kernel) (by decide +kernel) rfl (by decide +kernel),
    by decide +kernel, by decide +kernel, ⟨[13], ?_⟩, ?_⟩
  · exact Path.cons (c := 0) (l := 13) ⟨by decide +kernel, by decide +kernel, by decide +kernel⟩ (Path.nil _)
  · rintro c ⟨ls, hp⟩
    cases hp with
    | @cons _ x' _ l ls c hst hp =>
      rw [b516.midB_eq] at hst
      obtain ⟨_, k, rfl, a1, a2, _, a3, a4⟩ := (b516.stepB_iff).1 hst
      have e : x' = b516.targetB := by rw [a4]; rfl
      obtain ⟨_, e2, _⟩ := hp.of_terminal (by rw [e]; decide +kernel)
      rw [e2]
      show 4 ≤ (k : Int) - 11 + 0
      have hno : ∀ k : Nat, k < 15 → 11 < k → GolB.legal ⟨⟨2057, 3338, 4, 11⟩, 2⟩ (k : Int) = false := by decide +kernel
      have a2 : 11 + 2 ≤ k := a2
      by_cases hk : k < 15
      · rw [hno k hk (by omega)] at a3; simp at a3
      · omega

/-- The same in examples/gruler_mid.cpp. -/
theorem gruler_mid_eq_false : ∃ a b va vb, Relx (g516.mid 2147483647) g516.rank g516.full.sti 0 a va ∧
    Relx (g516.mid 2147483647) g516.rank g516.full.sti 0 b vb ∧ a.eqC b = true ∧ a.hash = b.hash ∧
    Val (g516.mid 2147483647) b 2 ∧ ∀ c, Val (g516.mid 2147483647) a c → 4 ≤ c := by
  have hA := follow_relx (m := g516.mid 2147483647) (rank := g516.rank) (s0 := g516.full.sti) (v0 := 0) [3, 10, 11] Relx.root
    (y := ⟨3081, 3466, 4, 11⟩) (w := 11) (by decide +kernel)
  have hB := follow_relx (m := g516.mid 2147483647) (rank := g516.rank) (s0 := g516.full.sti) (v0 := 0) [2, 3, 11] Relx.root
    (y := ⟨2061, 2830, 4, 11⟩) (w := 11) (by decide +kernel)
  have hC := follow_relx (m := g516.mid 2147483647) (rank := g516.rank) (s0 := g516.full.sti) (v0 := 0) [1, 3, 11] Relx.root
    (y := ⟨2059, 3342, 4, 11⟩) (w := 11) (by decide +kernel)
  refine ⟨⟨2057, 3338, 4, 11⟩, ⟨2057, 2314, 4, 11⟩, 11, 11,
    hA.mergeL hC (by decide +kernel) (by decide +kernel) rfl (by decide +kernel), hA.mergeL hB (by decide +kernel) (by decide +kernel) rfl (by decide +kernel),
    by decide +kernel, by decide +kernel, ⟨[13], ?_⟩, ?_⟩
  · exact Path.cons (c := 0) (l := 13) ⟨by decide +kernel, by decide +kernel, by decide +kernel⟩ (Path.nil _)
  · rintro c ⟨ls, hp⟩
    cases hp with
    | @cons _ x' _ l ls c hst hp =>
      rw [g516.mid_eq] at hst
      obtain ⟨k, rfl, a1, a2, a3, a4⟩ := (g516.step_iff (ub := none) (by decide)).1 ((g516.sub_step).1 hst).1
      have hlt := a2.lt
      have e : x' = g516.target := by rw [a4]; rfl
      obtain ⟨_, e2, _⟩ := hp.of_terminal (by rw [e]; decide +kernel)
      rw [e2]
      show 4 ≤ (k : Int) - 11 + 0
      have hno : ∀ k, k < 15 → 11 < k → legal 2057 3338 k = false := by decide +kernel
      by_cases hk : k < 15
      · rw [hno k hk hlt] at a3; simp at a3
      · omega

/-- C106: and two states of one layer that compare equal but have different hashes and different smallest
unused distances: the comment at examples/gruler_midlb.cpp:31 does not hold after merging, and equal
keys with different hashes break the rule a hash table relies on. -/
theorem midlb_hash_false : ∃ a b va vb, Relx (b516.midB 2147483647) b516.rankB b516.fullB.sti 0 a va ∧
    Relx (b516.midB 2147483647) b516.rankB b516.fullB.sti 0 b vb ∧ a.eqC b = true ∧ a.sm ≠ b.sm ∧ a.hash ≠ b.hash := by
  have hA := follow_relx (m := b516.midB 2147483647) (rank := b516.rankB) (s0 := b516.fullB.sti) (v0 := 0) [1, 3, 7] Relx.root
    (y := ⟨⟨139, 222, 4, 7⟩, 5⟩) (w := 7) (by decide +kernel)
  have hB := follow_relx (m := b516.midB 2147483647) (rank := b516.rankB) (s0 := b516.fullB.sti) (v0 := 0) [2, 6, 7] Relx.root
    (y := ⟨⟨197, 246, 4, 7⟩, 3⟩) (w := 7) (by decide +kernel)
  have hC := follow_relx (m := b516.midB 2147483647) (rank := b516.rankB) (s0 := b516.fullB.sti) (v0 := 0) [4, 5, 7] Relx.root
    (y := ⟨⟨177, 190, 4, 7⟩, 6⟩) (w := 7) (by decide +kernel)
  exact ⟨⟨⟨129, 214, 4, 7⟩, 3⟩, ⟨⟨129, 158, 4, 7⟩, 5⟩, 7, 7,
    hA.mergeL hB (by decide +kernel) (by decide +kernel) rfl (by decide +kernel), hA.mergeL hC (by decide +kernel) (by decide +kernel) rfl (by decide +kernel),
    by decide +kernel, by decide, by decide +kernel⟩

/-! ### The sets of the code -/

/-- The root's marks and a label 64 bits on: the subtraction shifts by 64 bits. -/
theorem minus_64 {nw : Nat} (h : nw = 6 ∨ nw = 13) : ∃ w, NatSet.ofList nw [0] NatSet.zeros = some w ∧ RepN nw w 1 ∧ NatSet.minus nw w 64 = none := by
  obtain ⟨w, h1, h3⟩ := NatSet.ofList_mem (n := nw) [0] NatSet.zeros (by simp; omega)
  refine ⟨w, h1, ?_, ?_⟩
  · intro i
    rw [h3, NatSet.zeros_mem, show Nat.testBit 1 i = decide (0 = i) from Nat.testBit_two_pow (n := 0)]
    simp [eq_comm]
  · rcases h with h | h
    · subst h
      have hv : (NatSet.ofList 6 [0] NatSet.zeros).map (fun w => (NatSet.minus 6 w 64).isNone) = some true := by decide +kernel
      rw [h1] at hv
      simpa using hv
    · subst h
      have hv : (NatSet.ofList 13 [0] NatSet.zeros).map (fun w => (NatSet.minus 13 w 64).isNone) = some true := by decide +kernel
      rw [h1] at hv
      simpa using hv

/-- C106 is false for long rulers: when half the length leaves room for a first mark at 64, both generators
come to it at the root, with the sets of either program (13 and 6 words), and computing its distance
to mark 0 shifts by 64 bits.  examples/gruler_midlb.cpp computes it in the generator itself. -/
theorem mid_undefined {t : Gol} (hn : 4 ≤ t.n) (h2 : t.opt 2 ≤ 64) (hL : 2 * (64 + t.opt (t.n / 2 - 1)) ≤ t.L + 1)
    (hL2 : t.L < 2147483646) :
    ((64 : Int) ∈ (t.mid 2147483647).lgf t.full.sti ∧ legal t.full.sti.m t.full.sti.d 64 = true ∧
      ∃ w, NatSet.ofList 13 [0] NatSet.zeros = some w ∧ RepN 13 w t.full.sti.m ∧ NatSet.minus 13 w 64 = none) ∧
    (t.lbB t.fullB.sti ≤ 64 ∧ 64 ≤ t.ubMid 2147483647 t.fullB.sti.g.k ∧
      ∃ w, NatSet.ofList 6 [0] NatSet.zeros = some w ∧ RepN 6 w t.fullB.sti.g.m ∧ NatSet.minus 6 w 64 = none) := by
  have e2 : 64 ≤ t.ubMid 2147483647 1 := by
    unfold Gol.ubMid
    rw [if_pos (by omega)]
    omega
  refine ⟨⟨?_, show legal 1 0 64 = true by decide, minus_64 (.inr rfl)⟩, ?_, e2, minus_64 (.inl rfl)⟩
  · simp only [Gol.mid, Gol.full, Gol.mdl]
    rw [List.mem_filter]
    refine ⟨List.mem_map.2 ⟨64, by simp only [List.mem_range]; omega, rfl⟩, ?_⟩
    have e1 : t.lb ⟨1, 0, 1, 0⟩ ≤ 64 := by
      simp only [Gol.lb, Nat.reduceAdd]; rw [if_pos (by omega)]; omega
    simpa using ⟨by omega, e2⟩
  · show t.lbB ⟨⟨1, 0, 1, 0⟩, 1⟩ ≤ 64
    simp only [Gol.lbB, Nat.reduceAdd]; rw [if_pos (by omega)]; omega

/-- Twelve marks up to length 200: well within what the program is for. -/
example : (64 : Int) ∈ ((⟨12, 200, optTable19⟩ : Gol).mid 2147483647).lgf (⟨12, 200, optTable19⟩ : Gol).full.sti :=
  (mid_undefined (t := ⟨12, 200, optTable19⟩) (by decide) (by decide) (by decide) (by decide)).1.1

/-! ### Cases -/

theorem gruler_table19 {n : Nat} (hn : n ≤ 6) (L : Nat) : (⟨n, L, optTable19⟩ : Gol).OptOk := by
  intro ms h1 h2 h3
  have h3 : ms.length ≤ n := h3
  have := gruler_table hn L ms h1 h2 h3
  have e : optTable19 ms.length = optTable ms.length := by unfold optTable19; rw [if_pos (by omega)]
  show ∃ a ∈ ms, ∃ b ∈ ms, a + optTable19 ms.length ≤ b
  rw [e]; exact this

/-- Four marks within length 9. -/
def b48 : Gol := ⟨4, 8, optTable19⟩

/-- Merging rulers 0 1 4 and 0 2 4 with their sets of distances, and a completion the merged state keeps. -/
example : (b48.midB 2147483647).smf ⟨⟨19, 26, 3, 4⟩, 2⟩ ⟨⟨21, 20, 3, 4⟩, 1⟩ = some ⟨⟨17, 16, 3, 4⟩, 1⟩ ∧
    Val (b48.subB (b48.limR 2147483647)) ⟨⟨17, 16, 3, 4⟩, 1⟩ 2 :=
  ⟨by decide +kernel, midlb_merge_valid b48 (a := ⟨⟨19, 26, 3, 4⟩, 2⟩) (b := ⟨⟨21, 20, 3, 4⟩, 1⟩) (by decide +kernel) (by decide)
    (.inl ⟨[6], Path.cons (c := 0) (l := 6) ⟨by decide +kernel, by decide +kernel, by decide +kernel⟩ (Path.nil _)⟩)⟩

/-- The bound of a relaxed diagram of width 2 at primal bound 9. -/
example : ∃ g, relaxed (b48.midB 9) 9 2 20 (b48.midB 9).src0 = some g ∧ g.bound g.trg ≤ 6 := by
  have hv : (relaxed (b48.midB 9) 9 2 20 (b48.midB 9).src0).isSome = true := by decide +kernel
  obtain ⟨g, hg⟩ := Option.isSome_iff_exists.1 hv
  have hs : Sol b48.fullB [1, 4, 6] 6 :=
    Path.cons (c := 5) (l := 1) ⟨by decide +kernel, by decide +kernel, rfl⟩ (Path.cons (c := 2) (l := 4) ⟨by decide +kernel, by decide +kernel, rfl⟩
      (Path.cons (c := 0) (l := 6) ⟨by decide +kernel, by decide +kernel, rfl⟩ (Path.nil _)))
  obtain ⟨ms, h1, h2, h3, h4, h5⟩ := (midlb_sol b48 (by decide) _ _).1 hs
  have h5 : (6 : Int) ≤ 9 := by decide
  exact ⟨g, hg, by
    have := midlb_dual b48 (by decide) (by decide) (gruler_table19 (by decide) 8) hg h2 h3 (z := 6) (by omega) (by decide) (by decide)
    omega⟩

/-- The program for four marks within length 9, width 3: the answer is 6, and no ruler is shorter. -/
example : ∃ s, BB.searchP b48.fullB b48.midB 3 20 (fun _ => false) 20 2147483647 = some s ∧
    s.primal = 6 ∧ s.inc = [1, 4, 6] ∧ Shortest 4 6 := by
  have hv : (BB.searchP b48.fullB b48.midB 3 20 (fun _ => false) 20 2147483647).map
      (fun s => (s.primal, s.inc, s.stopped)) = some (6, [1, 4, 6], false) := by decide +kernel
  simp only [Option.map_eq_some_iff] at hv
  obtain ⟨s, h1, h2⟩ := hv
  simp at h2
  rcases midlb_partial b48 (by decide) (by decide) (gruler_table19 (by decide) 8) h1 (by decide +kernel) h2.2.2 with
    ⟨q, a, b, _⟩ | ⟨a, _⟩
  · have e : q = 6 := by omega
    subst e
    exact ⟨s, h1, h2.1, h2.2.1, b⟩
  · omega

/-- Room for every layer: three marks within length 4. -/
example : ∃ s, BB.searchP (⟨3, 3, optTable19⟩ : Gol).fullB (⟨3, 3, optTable19⟩ : Gol).midB 60 20 (fun _ => false) 20 2147483647 = some s ∧
    s.primal = 3 ∧ Shortest 3 3 := by
  have hv : (BB.searchP (⟨3, 3, optTable19⟩ : Gol).fullB (⟨3, 3, optTable19⟩ : Gol).midB 60 20 (fun _ => false) 20 2147483647).map
      (fun s => (s.primal, s.stopped)) = some (3, false) := by decide +kernel
  simp only [Option.map_eq_some_iff] at hv
  obtain ⟨s, h1, h2⟩ := hv
  simp at h2
  rcases midlb_room ⟨3, 3, optTable19⟩ (by decide) (by decide) (gruler_table19 (by decide) 3) (w := 60)
    (BB.room_level (Gol.canB_layered ⟨3, 3, optTable19⟩ (by decide) (by decide) 0) (Gol.rankBoundB ⟨3, 3, optTable19⟩ (by decide)) (fun d hd => by
      have : ∀ d, d < 4 → (BB.level (⟨3, 3, optTable19⟩ : Gol).fullB d).length ≤ 60 := by decide +kernel
      exact this d (by simp only at hd; omega))) h1 h2.2 with ⟨q, a, b, _⟩ | ⟨a, _⟩
  · have e : q = 3 := by omega
    subst e
    exact ⟨s, h1, h2.1, b⟩
  · omega

end Verif.Ex
