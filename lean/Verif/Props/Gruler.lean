import Verif.Gruler
import Verif.Props.BB
import Verif.Props.Wide
import Verif.Props.NatSet
/-!
# C80, C81, C82: the Golomb ruler example
-/
namespace Verif.Ex
open Verif.DD

/-! ### What is being solved -/

/-- Marks in increasing order, no distance between two of them twice. -/
def Golomb (ms : List Nat) : Prop :=
  ms.Pairwise (· < ·) ∧ ∀ a b c d, a ∈ ms → b ∈ ms → c ∈ ms → d ∈ ms → a < b → c < d → b - a = d - c → a = c ∧ b = d

/-- Entries of the table up to `n` are lower bounds on the length of a ruler with that many marks. -/
def Gol.OptOk (t : Gol) : Prop :=
  ∀ ms, Golomb ms → 1 ≤ ms.length → ms.length ≤ t.n → ∃ a ∈ ms, ∃ b ∈ ms, a + t.opt ms.length ≤ b

/-! ### Rulers -/

theorem Golomb.sub {ms ns : List Nat} (h : Golomb ns) (hs : ms.Sublist ns) : Golomb ms :=
  ⟨h.1.sublist hs, fun a b c d ha hb hc hd => h.2 a b c d (hs.subset ha) (hs.subset hb) (hs.subset hc) (hs.subset hd)⟩

theorem Golomb.single (a : Nat) : Golomb [a] :=
  ⟨by simp, fun a b c d ha hb hc hd hab => by simp at ha hb; omega⟩

/-- One more mark: beyond the others, at no distance already used. -/
theorem Golomb.snoc {ms : List Nat} {l : Nat} : Golomb (ms ++ [l]) ↔ Golomb ms ∧ (∀ a ∈ ms, a < l) ∧
    ∀ i ∈ ms, ∀ a ∈ ms, ∀ b ∈ ms, a < b → b - a ≠ l - i := by
  constructor
  · intro h
    have hp := h.1
    rw [List.pairwise_append] at hp
    refine ⟨h.sub (List.sublist_append_left _ _), fun a ha => hp.2.2 a ha l (by simp), ?_⟩
    intro i hi a ha b hb hab he
    have hil := hp.2.2 i hi l (by simp)
    have hbl := hp.2.2 b hb l (by simp)
    have := h.2 a b i l (by simp [ha]) (by simp [hb]) (by simp [hi]) (by simp) hab hil he
    omega
  · rintro ⟨h1, h2, h3⟩
    refine ⟨?_, ?_⟩
    · rw [List.pairwise_append]
      exact ⟨h1.1, by simp, fun a ha b hb => by simp at hb; rw [hb]; exact h2 a ha⟩
    · intro a b c d ha hb hc hd hab hcd he
      rw [List.mem_append, List.mem_singleton] at ha hb hc hd
      rcases ha with ha | ha
      · rcases hc with hc | hc
        · rcases hb with hb | hb
          · rcases hd with hd | hd
            · exact h1.2 a b c d ha hb hc hd hab hcd he
            · subst hd; exact absurd he (h3 c hc a ha b hb hab)
          · rcases hd with hd | hd
            · subst hb; exact absurd he.symm (h3 a ha c hc d hd hcd)
            · subst hb; subst hd
              have := h2 a ha; have := h2 c hc
              omega
        · subst hc
          rcases hd with hd | hd
          · have := h2 d hd; omega
          · omega
      · subst ha
        rcases hb with hb | hb
        · have := h2 b hb; omega
        · omega

/-- All distances. -/
def dists : List Nat → List Nat
  | [] => []
  | a :: ms => ms.map (fun b => b - a) ++ dists ms

theorem mem_dists {ms : List Nat} (hp : ms.Pairwise (· < ·)) {j : Nat} : j ∈ dists ms ↔ ∃ a ∈ ms, ∃ b ∈ ms, a < b ∧ b - a = j := by
  induction ms with
  | nil => simp [dists]
  | cons x ms ih =>
    rw [List.pairwise_cons] at hp
    simp only [dists, List.mem_append, List.mem_map]
    rw [ih hp.2]
    constructor
    · rintro (⟨b, hb, e⟩ | ⟨a, ha, b, hb, h⟩)
      · exact ⟨x, by simp, b, by simp [hb], hp.1 b hb, e⟩
      · exact ⟨a, by simp [ha], b, by simp [hb], h⟩
    · rintro ⟨a, ha, b, hb, hab, e⟩
      rcases List.mem_cons.1 ha with h | h
      · subst h
        rcases List.mem_cons.1 hb with h | h
        · omega
        · exact .inl ⟨b, h, e⟩
      · rcases List.mem_cons.1 hb with h' | h'
        · subst h'
          have := hp.1 a h; omega
        · exact .inr ⟨a, h, b, h', hab, e⟩

theorem dists_nodup {ms : List Nat} (h : Golomb ms) : (dists ms).Nodup := by
  induction ms with
  | nil => simp [dists]
  | cons x ms ih =>
    have hp := h.1
    rw [List.pairwise_cons] at hp
    simp only [dists]
    rw [List.nodup_append]
    refine ⟨?_, ih (h.sub (List.sublist_cons_self _ _)), ?_⟩
    · rw [List.Nodup, List.pairwise_map]
      refine hp.2.imp_of_mem ?_
      intro a b ha hb hab
      have := hp.1 a ha; have := hp.1 b hb
      omega
    · intro j hj j' hj' e
      subst e
      obtain ⟨b, hb, e⟩ := List.mem_map.1 hj
      obtain ⟨c, hc, d, hd, hcd, e'⟩ := (mem_dists hp.2).1 hj'
      have := h.2 x b c d (by simp) (by simp [hb]) (by simp [hc]) (by simp [hd]) (hp.1 b hb) hcd (by omega)
      have := hp.1 c hc
      omega

theorem dists_length : ∀ ms : List Nat, 2 * (dists ms).length = ms.length * (ms.length - 1) := by
  intro ms
  induction ms with
  | nil => rfl
  | cons x ms ih =>
    simp only [dists, List.length_append, List.length_map, List.length_cons, Nat.add_sub_cancel]
    rw [Nat.mul_add, ih]
    cases h : ms.length with
    | zero => simp
    | succ k =>
      simp only [Nat.add_sub_cancel]
      rw [Nat.mul_comm (k + 1) k, ← Nat.add_mul]
      congr 1; omega

/-- `k` marks need a length of at least `k (k-1) / 2`. -/
theorem Golomb.triangle {ms : List Nat} (h : Golomb ms) {e : Nat} (he : ∀ a ∈ ms, a ≤ e) : ms.length * (ms.length - 1) / 2 ≤ e := by
  have h1 := nodup_inj_le id (l := dists ms) (k := (List.range e).map (· + 1)) (dists_nodup h) (fun x y _ _ e => e) (by
    intro j hj
    obtain ⟨a, ha, b, hb, hab, e'⟩ := (mem_dists h.1).1 hj
    have := he b hb
    simp only [id, List.mem_map, List.mem_range]
    exact ⟨j - 1, by omega, by omega⟩)
  have h2 := dists_length ms
  simp at h1
  omega

/-! ### Masks -/

theorem diffs_fold (l m j : Nat) : ∀ (is : List Nat) (a : Nat),
    (is.foldl (fun a i => if m.testBit i then a ||| 2 ^ (l - i) else a) a).testBit j = true ↔
      a.testBit j = true ∨ ∃ i ∈ is, m.testBit i = true ∧ l - i = j := by
  intro is
  induction is with
  | nil => intro a; simp
  | cons x is ih =>
    intro a
    rw [List.foldl_cons, ih]
    by_cases hx : m.testBit x = true
    · rw [if_pos hx, Nat.testBit_or, Nat.testBit_two_pow, Bool.or_eq_true, decide_eq_true_iff]
      constructor
      · rintro ((h | h) | ⟨i, h1, h2⟩)
        · exact .inl h
        · exact .inr ⟨x, by simp, hx, h⟩
        · exact .inr ⟨i, by simp [h1], h2⟩
      · rintro (h | ⟨i, h1, h2, h3⟩)
        · exact .inl (.inl h)
        · rcases List.mem_cons.1 h1 with e | e
          · subst e; exact .inl (.inr h3)
          · exact .inr ⟨i, e, h2, h3⟩
    · rw [if_neg hx]
      constructor
      · rintro (h | ⟨i, h1, h2⟩)
        · exact .inl h
        · exact .inr ⟨i, by simp [h1], h2⟩
      · rintro (h | ⟨i, h1, h2, h3⟩)
        · exact .inl h
        · rcases List.mem_cons.1 h1 with e | e
          · subst e; exact absurd h2 hx
          · exact .inr ⟨i, e, h2, h3⟩

theorem diffs_bit {l m j : Nat} : (diffs l m).testBit j = true ↔ ∃ i, i ≤ l ∧ m.testBit i = true ∧ l - i = j := by
  unfold diffs
  rw [diffs_fold]
  simp only [Nat.zero_testBit, Bool.false_eq_true, false_or, List.mem_range]
  constructor
  · rintro ⟨i, a, b⟩; exact ⟨i, by omega, b⟩
  · rintro ⟨i, a, b⟩; exact ⟨i, by omega, b⟩

theorem legal_iff {m d l : Nat} : legal m d l = true ↔ ∀ i, i < l → m.testBit i = true → d.testBit (l - i) = false := by
  unfold legal
  rw [List.all_eq_true]
  constructor
  · intro h i hi hm
    have := h i (by simpa using hi)
    rw [hm] at this
    simpa using this
  · intro h i hi
    have := h i (by simpa using hi)
    cases hm : m.testBit i with
    | false => rfl
    | true => rw [this hm]; rfl

/-! ### Steps -/

/-- The label is one the generator shows. -/
def Gol.Lim (t : Gol) (ub : Option Int) (x : GolS) (l : Nat) : Prop :=
  match ub with
  | none => x.e < l
  | some p => t.lb x ≤ l ∧ (l : Int) ≤ t.ub p x

variable (t : Gol)

theorem Gol.Lim.lt {t : Gol} {ub : Option Int} {x : GolS} {l : Nat} (h : t.Lim ub x l) : x.e < l := by
  cases ub with
  | none => exact h
  | some p => have := h.1; unfold Gol.lb at this; omega

theorem Gol.lim_congr {ub : Option Int} {x y : GolS} (hk : x.k = y.k) (he : x.e = y.e) {l : Nat} (h : t.Lim ub y l) : t.Lim ub x l := by
  cases ub with
  | none => simp only [Gol.Lim] at h ⊢; omega
  | some p => simp only [Gol.Lim, Gol.lb, Gol.ub] at h ⊢; rw [hk, he]; exact h

/-- Where a label leads. -/
def Gol.next (x : GolS) (l : Nat) : GolS :=
  if x.k + 1 = t.n then t.target else ⟨x.m ||| 2 ^ l, diffs l x.m ||| x.d, x.k + 1, l⟩

theorem Gol.step_iff {ub : Option Int} {x x' : GolS} {l : Int} (hx : x.k < t.n) :
    Step (t.mdl ub) x l x' ↔ ∃ c : Nat, l = c ∧ c ≤ t.L + 1 ∧ t.Lim ub x c ∧ legal x.m x.d c = true ∧ x' = t.next x c := by
  have h1 : (t.mdl ub).eqs x = false := by simp [Gol.mdl]; omega
  have hl : l ∈ (t.mdl ub).lgf x ↔ ∃ c : Nat, l = c ∧ c ≤ t.L + 1 ∧ t.Lim ub x c := by
    simp only [Gol.mdl]
    rw [List.mem_filter, List.mem_map]
    constructor
    · rintro ⟨⟨i, hi, rfl⟩, h⟩
      simp only [List.mem_range] at hi
      refine ⟨i, rfl, by omega, ?_⟩
      cases ub with
      | none => simp at h; simp only [Gol.Lim]; omega
      | some p => simp at h; simp only [Gol.Lim]; omega
    · rintro ⟨c, rfl, h1, h2⟩
      refine ⟨⟨c, by simp only [List.mem_range]; omega, rfl⟩, ?_⟩
      cases ub with
      | none => simp only [Gol.Lim] at h2; simp; omega
      | some p => simp only [Gol.Lim] at h2; simp; omega
  unfold Step
  rw [h1, hl]
  have hstf : ∀ c : Nat, (t.mdl ub).stf x (c : Int) = if legal x.m x.d c = true then some (t.next x c) else none := by
    intro c
    simp only [Gol.mdl, Int.toNat_natCast, Gol.next]
    by_cases hb : legal x.m x.d c = true
    · rw [if_pos hb, if_pos hb]
      by_cases hk : x.k + 1 = t.n
      · rw [if_pos hk, if_pos hk]
      · rw [if_neg hk, if_neg hk]
    · rw [if_neg hb, if_neg hb]
  constructor
  · rintro ⟨_, ⟨c, rfl, h2, h3⟩, h⟩
    rw [hstf] at h
    by_cases hb : legal x.m x.d c = true
    · rw [if_pos hb] at h
      exact ⟨c, rfl, h2, h3, hb, by simpa using h.symm⟩
    · rw [if_neg hb] at h; simp at h
  · rintro ⟨c, rfl, h2, h3, h4, h5⟩
    exact ⟨rfl, ⟨c, rfl, h2, h3⟩, by rw [hstf, if_pos h4, h5]⟩

/-! ### Fewer marks and distances allow more -/

/-- `x` forgets some of what `y` knows. -/
def GolS.Le (x y : GolS) : Prop :=
  x.k = y.k ∧ x.e = y.e ∧ (∀ i, x.m.testBit i = true → y.m.testBit i = true) ∧ ∀ j, x.d.testBit j = true → y.d.testBit j = true

theorem GolS.Le.step {ub : Option Int} {x y y' : GolS} {l : Int} (h : x.Le y) (hy : Step (t.mdl ub) y l y') :
    ∃ x', Step (t.mdl ub) x l x' ∧ x'.Le y' ∧ (t.mdl ub).stc x l = (t.mdl ub).stc y l := by
  obtain ⟨hk, he, hm, hd⟩ := h
  -- a terminal state has no step
  have hq := hy.1
  simp only [Gol.mdl, decide_eq_false_iff_not] at hq
  have hleg : ∀ c, legal y.m y.d c = true → legal x.m x.d c = true := by
    intro c h
    rw [legal_iff] at h ⊢
    intro i hi hmi
    have := h i hi (hm i hmi)
    cases hc : x.d.testBit (c - i) with
    | false => rfl
    | true => rw [hd _ hc] at this; simp at this
  have hnext : ∀ c, (t.next x c).Le (t.next y c) := by
    intro c
    unfold Gol.next
    rw [hk]
    by_cases hn : y.k + 1 = t.n
    · rw [if_pos hn, if_pos hn]; exact ⟨rfl, rfl, fun _ h => h, fun _ h => h⟩
    · rw [if_neg hn, if_neg hn]
      refine ⟨rfl, rfl, ?_, ?_⟩
      · intro i h
        simp only [Nat.testBit_or, Bool.or_eq_true] at h ⊢
        exact h.imp_left (hm i)
      · intro j h
        simp only [Nat.testBit_or, Bool.or_eq_true] at h ⊢
        refine h.imp ?_ (hd j)
        intro h
        obtain ⟨i, a, b, c⟩ := diffs_bit.1 h
        exact diffs_bit.2 ⟨i, a, hm i b, c⟩
  obtain ⟨q1, q2, q3⟩ := hy
  have hmem : l ∈ (t.mdl ub).lgf x := by
    have e1 : t.lb x = t.lb y := by simp only [Gol.lb, hk, he]
    have e2 : ∀ p, t.ub p x = t.ub p y := by intro p; simp only [Gol.ub, hk]
    simp only [Gol.mdl] at q2 ⊢
    simp only [e1, e2, he]; exact q2
  have hstf : ∀ z : GolS, (t.mdl ub).stf z l = if legal z.m z.d l.toNat = true then some (t.next z l.toNat) else none := by
    intro z
    simp only [Gol.mdl, Gol.next]
    by_cases hb : legal z.m z.d l.toNat = true
    · rw [if_pos hb, if_pos hb]
      by_cases hk : z.k + 1 = t.n
      · rw [if_pos hk, if_pos hk]
      · rw [if_neg hk, if_neg hk]
    · rw [if_neg hb, if_neg hb]
  rw [hstf] at q3
  by_cases hb : legal y.m y.d l.toNat = true
  · rw [if_pos hb] at q3
    refine ⟨t.next x l.toNat, ⟨by simp only [Gol.mdl, decide_eq_false_iff_not]; omega, hmem, by rw [hstf, if_pos (hleg _ hb)]⟩, ?_, ?_⟩
    · injection q3 with q3
      rw [← q3]; exact hnext _
    · simp only [Gol.mdl]; rw [he]
  · rw [if_neg hb] at q3; simp at q3

theorem GolS.Le.path {ub : Option Int} {y z : GolS} {ls : List Int} {c : Int} (h : Path (t.mdl ub) y ls c z) :
    ∀ {x : GolS}, x.Le y → z = t.target → Path (t.mdl ub) x ls c t.target := by
  induction h with
  | nil s =>
    intro x hx hz
    subst hz
    obtain ⟨a, b, c, d⟩ := hx
    have : x = t.target := by
      obtain ⟨xm, xd, xk, xe⟩ := x
      simp only [Gol.target] at a b c d ⊢
      have e1 : xm = 0 := Nat.eq_of_testBit_eq fun i => by
        cases hi : xm.testBit i with
        | false => simp
        | true => have := c i hi; simp at this
      have e2 : xd = 0 := Nat.eq_of_testBit_eq fun i => by
        cases hi : xd.testBit i with
        | false => simp
        | true => have := d i hi; simp at this
      subst a; subst b; subst e1; subst e2
      rfl
    rw [this]; exact Path.nil _
  | cons hs _ ih =>
    intro x hx hz
    obtain ⟨x', h1, h2, h3⟩ := hx.step t hs
    have := Path.cons h1 (ih h2 hz)
    rwa [h3] at this

theorem Gol.smf_some {ub : Option Int} {a b c : GolS} (h : (t.mdl ub).smf a b = some c) :
    a.k = b.k ∧ a.e = b.e ∧ c = ⟨a.m &&& b.m, a.d &&& b.d, a.k, a.e⟩ := by
  simp only [Gol.mdl] at h
  by_cases hc : a.k = b.k ∧ a.e = b.e
  · rw [if_pos hc] at h
    injection h with h
    refine ⟨hc.1, hc.2, ?_⟩
    rw [← h, ← hc.2, Nat.min_self]
  · rw [if_neg hc] at h; simp at h

/-- C80: merging is a relaxation: what either state can still do, the merged state can do at the same
cost, with any limits. -/
theorem gruler_merge_valid {ub : Option Int} {a b c : GolS} (h : (t.mdl ub).smf a b = some c) {v : Int}
    (hv : Val (t.mdl ub) a v ∨ Val (t.mdl ub) b v) : Val (t.mdl ub) c v := by
  obtain ⟨e1, e2, rfl⟩ := t.smf_some h
  rcases hv with ⟨ls, hv⟩ | ⟨ls, hv⟩
  · refine ⟨ls, GolS.Le.path t hv ⟨rfl, rfl, fun i h => ?_, fun i h => ?_⟩ rfl⟩
    · simp only [Nat.testBit_and, Bool.and_eq_true] at h; exact h.1
    · simp only [Nat.testBit_and, Bool.and_eq_true] at h; exact h.1
  · refine ⟨ls, GolS.Le.path t hv ⟨e1, e2, fun i h => ?_, fun i h => ?_⟩ rfl⟩
    · simp only [Nat.testBit_and, Bool.and_eq_true] at h; exact h.2
    · simp only [Nat.testBit_and, Bool.and_eq_true] at h; exact h.2

/-! ### Reachable states -/

/-- States relaxation can reach, with their values. -/
def Gol.Ok (x : GolS) (v : Int) : Prop :=
  (x = t.target ∧ 0 ≤ v ∧ v ≤ t.L + 1) ∨ (1 ≤ x.k ∧ x.k < t.n ∧ v = x.e ∧ x.e ≤ t.L + 1)

theorem Gol.Ok.open {ub : Option Int} {x : GolS} {v : Int} (h : t.Ok x v) (hq : (t.mdl ub).eqs x = false) :
    1 ≤ x.k ∧ x.k < t.n ∧ v = x.e ∧ x.e ≤ t.L + 1 := by
  rcases h with ⟨h, _⟩ | h
  · rw [h] at hq; simp [Gol.mdl, Gol.target] at hq
  · exact h

theorem Gol.Ok.step {ub : Option Int} {x x' : GolS} {v l : Int} (h : t.Ok x v) (hs : Step (t.mdl ub) x l x') :
    t.Ok x' (v + (t.mdl ub).stc x l) := by
  obtain ⟨h1, h2, h3, h4⟩ := h.open t hs.1
  obtain ⟨c, rfl, a1, a2, _, a4⟩ := (t.step_iff h2).1 hs
  have := a2.lt
  have hc : (t.mdl ub).stc x (c : Int) = (c : Int) - x.e := rfl
  rw [hc, a4]
  unfold Gol.next
  by_cases hn : x.k + 1 = t.n
  · rw [if_pos hn]; exact .inl ⟨rfl, by omega, by omega⟩
  · rw [if_neg hn]
    refine .inr ⟨by show 1 ≤ x.k + 1; omega, by show x.k + 1 < t.n; omega, ?_, a1⟩
    show v + _ = (c : Int)
    omega

theorem Gol.relx {ub : Option Int} {x s0 : GolS} {v v0 : Int} (h0 : t.Ok s0 v0) (h : Relx (t.mdl ub) t.rank s0 v0 x v) : t.Ok x v := by
  induction h with
  | swap _ _ hsw _ ihsw => obtain rfl := (same_iff _ _).1 hsw; exact ihsw
  | root => exact h0
  | step _ hs ih => exact ih.step t hs
  | mergeL _ _ q1 q2 _ hm ih1 ih2 =>
    obtain ⟨e1, e2, rfl⟩ := t.smf_some hm
    exact .inr (ih1.open t q1)
  | mergeR _ _ q1 q2 _ hm ih1 ih2 =>
    obtain ⟨e1, e2, rfl⟩ := t.smf_some hm
    obtain ⟨b1, b2, b3, b4⟩ := ih2.open t q2
    rw [← e1] at b1 b2
    rw [← e2] at b3 b4
    exact .inr ⟨b1, b2, b3, b4⟩

/-- The hypotheses of the engine, from any reachable state and with any limits. -/
theorem Gol.layered {ub : Option Int} (hL : t.L < 2147483646) {s0 : GolS} {v0 : Int} (h0 : t.Ok s0 v0) (hq : (t.mdl ub).eqs s0 = false) :
    Layered (t.mdl ub) t.rank s0 v0 where
  sink := by simp [Gol.mdl, Gol.target]
  src := hq
  range := by
    intro s v h
    have : v < 2147483647 := by
      rcases t.relx h0 h with ⟨_, _, h2⟩ | ⟨_, h2, h3, h4⟩ <;> omega
    simp only [Gol.mdl, Sense.better, Sense.best0]; simpa using this
  step := by
    intro s v l s' h hs
    obtain ⟨_, h2, _, _⟩ := (t.relx h0 h).open t hs.1
    obtain ⟨c, rfl, _, _, _, a⟩ := (t.step_iff h2).1 hs
    rw [a]
    unfold Gol.next
    by_cases hn : s.k + 1 = t.n
    · left; rw [if_pos hn]; simp [Gol.mdl, Gol.target]
    · right; rw [if_neg hn]; rfl
  merge := by
    intro a b c va vb h1 h2 q1 q2 hr hm
    have hv := fun v => gruler_merge_valid t hm (v := v)
    obtain ⟨_, _, rfl⟩ := t.smf_some hm
    exact ⟨q1, rfl, fun v h => ⟨v, hv v (.inl h), by rw [Sense.betterEQ_iff]; omega⟩,
      fun v h => ⟨v, hv v (.inr h), by rw [Sense.betterEQ_iff]; omega⟩⟩
  local_ := by intro f hf; simp [Gol.mdl] at hf
  dom := by intro f hf; simp [Gol.mdl] at hf

theorem Gol.ok_root (hn : 2 ≤ t.n) : t.Ok t.full.sti 0 :=
  .inr ⟨Nat.le_refl _, hn, rfl, Nat.zero_le _⟩

/-! ### Without merging, states are rulers -/

/-- The state of the ruler `ms`. -/
def At (ms : List Nat) (x : GolS) : Prop :=
  (∀ i, x.m.testBit i = true ↔ i ∈ ms) ∧ (∀ j, x.d.testBit j = true ↔ ∃ a ∈ ms, ∃ b ∈ ms, a < b ∧ b - a = j) ∧
  x.k = ms.length ∧ x.e ∈ ms ∧ ∀ a ∈ ms, a ≤ x.e

theorem At.legal {ms : List Nat} {x : GolS} (h : At ms x) (hg : Golomb ms) {l : Nat} (hl : x.e < l) :
    legal x.m x.d l = true ↔ Golomb (ms ++ [l]) := by
  obtain ⟨h1, h2, h3, h4, h5⟩ := h
  rw [legal_iff, Golomb.snoc]
  constructor
  · intro h
    refine ⟨hg, fun a ha => by have := h5 a ha; omega, fun i hi a ha b hb hab e => ?_⟩
    have := h i (by have := h5 i hi; omega) ((h1 i).2 hi)
    rw [(h2 _).2 ⟨a, ha, b, hb, hab, e⟩] at this
    simp at this
  · rintro ⟨_, _, h⟩ i hi hm
    cases hc : x.d.testBit (l - i) with
    | false => rfl
    | true =>
      obtain ⟨a, ha, b, hb, hab, e⟩ := (h2 _).1 hc
      exact absurd e (h i ((h1 i).1 hm) a ha b hb hab)

theorem At.next {ms : List Nat} {x : GolS} (h : At ms x) {l : Nat} (hl : x.e < l) :
    At (ms ++ [l]) ⟨x.m ||| 2 ^ l, diffs l x.m ||| x.d, x.k + 1, l⟩ := by
  obtain ⟨h1, h2, h3, h4, h5⟩ := h
  refine ⟨?_, ?_, by simp [h3], by simp, ?_⟩
  · intro i
    show (x.m ||| 2 ^ l).testBit i = true ↔ _
    rw [Nat.testBit_or, Nat.testBit_two_pow, Bool.or_eq_true, decide_eq_true_iff, h1, List.mem_append, List.mem_singleton, eq_comm (a := l)]
  · intro j
    show (diffs l x.m ||| x.d).testBit j = true ↔ _
    rw [Nat.testBit_or, Bool.or_eq_true, h2, diffs_bit]
    constructor
    · rintro (⟨i, a, b, c⟩ | ⟨a, ha, b, hb, hab, e⟩)
      · have hi := (h1 i).1 b
        exact ⟨i, by simp [hi], l, by simp, by have := h5 i hi; omega, c⟩
      · exact ⟨a, by simp [ha], b, by simp [hb], hab, e⟩
    · rintro ⟨a, ha, b, hb, hab, e⟩
      rw [List.mem_append, List.mem_singleton] at ha hb
      rcases ha with ha | ha
      · rcases hb with hb | hb
        · exact .inr ⟨a, ha, b, hb, hab, e⟩
        · subst hb
          exact .inl ⟨a, by omega, (h1 a).2 ha, e⟩
      · subst ha
        rcases hb with hb | hb
        · have := h5 b hb; omega
        · omega
  · intro a ha
    rw [List.mem_append, List.mem_singleton] at ha
    show a ≤ l
    rcases ha with ha | ha
    · have := h5 a ha; omega
    · omega

theorem at_root (ub : Option Int) : At [0] (t.mdl ub).sti := by
  refine ⟨?_, ?_, rfl, by simp [Gol.mdl], by simp⟩
  · intro i
    show Nat.testBit 1 i = true ↔ _
    rw [show Nat.testBit 1 i = decide (0 = i) from Nat.testBit_two_pow (n := 0)]
    simp [eq_comm]
  · intro j
    show Nat.testBit 0 j = true ↔ _
    simp

/-- From the state of a ruler, a path leads to the state of a longer ruler or, with the last mark, to the sink. -/
theorem Gol.path_at {x y : GolS} {ls : List Int} {c : Int} (h : Path t.full x ls c y) : ∀ {ms : List Nat}, Golomb ms → At ms x →
    x.k < t.n → x.e ≤ t.L + 1 → ∃ ns : List Nat, ls = ns.map (fun i : Nat => (i : Int)) ∧ Golomb (ms ++ ns) ∧ (∀ a ∈ ns, a ≤ t.L + 1) ∧
      c = ((ns.getLast?.getD x.e : Nat) : Int) - x.e ∧
      ((ms.length + ns.length < t.n ∧ At (ms ++ ns) y) ∨ (ms.length + ns.length = t.n ∧ y = t.target)) := by
  induction h with
  | nil s =>
    intro ms hg ha hk he
    exact ⟨[], rfl, by simpa using hg, by simp, by simp, .inl ⟨by rw [← ha.2.2.1]; simpa using hk, by simpa using ha⟩⟩
  | @cons x x' z l ls c hst hp ih =>
    intro ms hg ha hk he
    obtain ⟨b, rfl, a1, a2, a3, a4⟩ := (t.step_iff hk).1 hst
    have hlt := a2.lt
    have hg' := (ha.legal hg hlt).1 a3
    have hc : t.full.stc x (b : Int) = (b : Int) - x.e := rfl
    have hkl := ha.2.2.1
    unfold Gol.next at a4
    by_cases hn : x.k + 1 = t.n
    · rw [if_pos hn] at a4
      subst a4
      obtain ⟨e1, e2, e3⟩ := hp.of_terminal (by simp [Gol.full, Gol.mdl, Gol.target])
      subst e1; subst e2
      refine ⟨[b], rfl, hg', by simpa using a1, by rw [hc]; simp, .inr ⟨by simp; omega, e3.symm⟩⟩
    · rw [if_neg hn] at a4
      subst a4
      obtain ⟨ns, i1, i2, i3, i4, i5⟩ := ih (ms := ms ++ [b]) hg' (ha.next hlt) (by show x.k + 1 < t.n; omega) a1
      refine ⟨b :: ns, by rw [i1]; rfl, by simpa using i2, ?_, ?_, ?_⟩
      · intro a hm
        rcases List.mem_cons.1 hm with e | e
        · rw [e]; exact a1
        · exact i3 a e
      · rw [hc, i4]
        have : ((b :: ns).getLast?.getD x.e) = ns.getLast?.getD b := by
          rw [List.getLast?_cons]; rfl
        rw [this]
        show (b : Int) - x.e + (((ns.getLast?.getD b : Nat) : Int) - (b : Int)) = _
        omega
      · simp only [List.append_assoc, List.singleton_append, List.length_append, List.length_cons, List.length_nil] at i5 ⊢
        rcases i5 with ⟨a, b⟩ | ⟨a, b⟩
        · exact .inl ⟨by omega, b⟩
        · exact .inr ⟨by omega, b⟩

theorem last_max {ms : List Nat} (h : ms.Pairwise (· < ·)) {x d : Nat} (hx : x ∈ ms) : x ≤ ms.getLast?.getD d := by
  induction ms generalizing x with
  | nil => simp at hx
  | cons a ms ih =>
    rw [List.pairwise_cons] at h
    rw [List.getLast?_cons, Option.getD_some]
    cases ms with
    | nil => simp at hx; simp [hx]
    | cons b ms =>
      rw [show ((b :: ms).getLast?.getD a) = (b :: ms).getLast?.getD d by rw [List.getLast?_cons]; rfl]
      rcases List.mem_cons.1 hx with e | e
      · have := ih h.2 (List.mem_cons_self)
        have := h.1 b List.mem_cons_self
        omega
      · exact ih h.2 e

/-- Every ruler with more marks, long enough for the table and short enough for the bounds, is shown by
the generator. -/
theorem Gol.path_of {ub : Option Int} (hopt : ub ≠ none → t.OptOk) : ∀ (ns : List Nat) {ms : List Nat} {x : GolS} {z : Nat}, ns ≠ [] →
    Golomb (ms ++ ns) → At ms x → (∃ ms', ms = 0 :: ms') → ms.length + ns.length = t.n → ns.getLast?.getD 0 = z → z ≤ t.L + 1 →
    (∀ p, ub = some p → (z : Int) < p) → Path (t.mdl ub) x (ns.map (fun i : Nat => (i : Int))) ((z : Int) - x.e) t.target := by
  intro ns
  induction ns with
  | nil => intro ms x z h; exact absurd rfl h
  | cons l ns ih =>
    intro ms x z _ hg ha h0 hlen hz hzL hzp
    have hkl := ha.2.2.1
    have hk : x.k < t.n := by simp at hlen; omega
    have hg1 : Golomb (ms ++ [l]) := hg.sub (by
      rw [show ms ++ l :: ns = ms ++ [l] ++ ns by simp]; exact List.sublist_append_left _ _)
    have hgm : Golomb ms := hg.sub (List.sublist_append_left _ _)
    have hlt : x.e < l := (Golomb.snoc.1 hg1).2.1 _ ha.2.2.2.1
    have hg2 : Golomb (l :: ns) := hg.sub (List.sublist_append_right _ _)
    have hlz : l ≤ z := by
      rw [← hz]; exact last_max hg2.1 (x := l) (by simp)
    have hlim : t.Lim ub x l := by
      cases ub with
      | none => exact hlt
      | some p =>
        have hopt := hopt (by simp)
        have hzp := hzp p rfl
        have h1 : x.k * (x.k - 1) / 2 ≤ x.e := by rw [hkl]; exact hgm.triangle ha.2.2.2.2
        have h2 : x.k + 1 ≤ t.n → t.opt (x.k + 1) ≤ l := by
          intro h
          obtain ⟨a, _, b, hb, hab⟩ := hopt _ hg1 (by simp) (by simp; omega)
          have hb : b ≤ l := by
            have := last_max hg1.1 (d := 0) hb
            simpa using this
          simp only [List.length_append, List.length_cons, List.length_nil, ← hkl, Nat.zero_add] at hab
          omega
        have h3 : t.opt x.k ≤ x.e := by
          obtain ⟨ms', e⟩ := h0
          obtain ⟨a, _, b, hb, hab⟩ := hopt _ hgm (by rw [e]; simp) (by omega)
          have := ha.2.2.2.2 b hb
          rw [← hkl] at hab
          omega
        have h4 : l + t.opt (t.n - x.k) ≤ z := by
          obtain ⟨a, ha', b, hb, hab⟩ := hopt _ hg2 (by simp) (by simp at hlen ⊢; omega)
          have hla : l ≤ a := by
            rcases List.mem_cons.1 ha' with e | e
            · omega
            · have := (List.pairwise_cons.1 hg2.1).1 a e; omega
          have hb : b ≤ z := by rw [← hz]; exact last_max hg2.1 hb
          have e : (l :: ns).length = t.n - x.k := by simp at hlen ⊢; omega
          rw [e] at hab
          omega
        refine ⟨?_, ?_⟩
        · unfold Gol.lb
          by_cases hn : x.k + 1 < t.n
          · rw [if_pos hn]; have := h2 (by omega); omega
          · rw [if_neg hn]; omega
        · unfold Gol.ub; omega
    have hleg : legal x.m x.d l = true := (ha.legal hgm hlt).2 hg1
    have hst := (t.step_iff (ub := ub) hk).2 ⟨l, rfl, by omega, hlim, hleg, rfl⟩
    have hc : (t.mdl ub).stc x (l : Int) = (l : Int) - x.e := rfl
    unfold Gol.next at hst
    rw [List.map_cons]
    by_cases hn : x.k + 1 = t.n
    · rw [if_pos hn] at hst
      have e1 : ns = [] := List.eq_nil_of_length_eq_zero (by simp at hlen; omega)
      subst e1
      have e2 : l = z := by simpa using hz
      have := Path.cons hst (Path.nil _)
      rw [hc, Int.add_zero] at this
      subst e2
      exact this
    · rw [if_neg hn] at hst
      have e1 : ns ≠ [] := by
        intro e; subst e
        simp at hlen; omega
      have hz' : ns.getLast?.getD 0 = z := by
        rw [← hz, List.getLast?_cons]
        cases h : ns.getLast? with
        | none => rw [List.getLast?_eq_none_iff] at h; exact absurd h e1
        | some v => rfl
      have := Path.cons hst (ih (ms := ms ++ [l]) e1 (by simpa using hg) (ha.next hlt) (by
        obtain ⟨ms', e⟩ := h0
        exact ⟨ms' ++ [l], by rw [e]; rfl⟩) (by simp at hlen ⊢; omega) hz' hzL hzp)
      rw [hc] at this
      have e : (l : Int) - x.e + ((z : Int) - (l : Int)) = (z : Int) - x.e := by omega
      rwa [e] at this

/-- C80: solutions are the rulers with `n` marks from 0 of length at most `L + 1`; the cost is the length. -/
theorem gruler_sol (hn : 2 ≤ t.n) (ls : List Int) (c : Int) : Sol t.full ls c ↔
    ∃ ms : List Nat, ls = ms.map (fun i : Nat => (i : Int)) ∧ Golomb (0 :: ms) ∧ ms.length + 1 = t.n ∧
      c = ((ms.getLast?.getD 0 : Nat) : Int) ∧ c ≤ t.L + 1 := by
  constructor
  · intro h
    obtain ⟨ns, h1, h2, h3, h4, h5⟩ := t.path_at h (Golomb.single 0) (at_root t none) hn (Nat.zero_le _)
    have hne : ns ≠ [] := by
      intro e; subst e
      rcases h5 with ⟨_, b⟩ | ⟨a, _⟩
      · have := b.2.2.1
        simp [Gol.full, Gol.mdl, Gol.target] at this; omega
      · simp at a; omega
    refine ⟨ns, h1, h2, ?_, by rw [h4]; simp [Gol.full, Gol.mdl], ?_⟩
    · rcases h5 with ⟨a, b⟩ | ⟨a, _⟩
      · have := b.2.2.1
        simp [Gol.full, Gol.mdl, Gol.target] at this a; omega
      · simp at a; omega
    · rw [h4]
      have e : t.full.sti.e = 0 := rfl
      rw [e]
      cases hl : ns.getLast? with
      | none => rw [List.getLast?_eq_none_iff] at hl; exact absurd hl hne
      | some v =>
        have := h3 v (List.mem_of_getLast? hl)
        simp; omega
  · rintro ⟨ms, rfl, h1, h2, h3, h4⟩
    have := t.path_of (ub := none) (fun h => absurd rfl h) ms (ms := [0]) (x := t.full.sti) (z := ms.getLast?.getD 0)
      (by intro e; subst e; simp at h2; omega) h1 (at_root t none) ⟨[], rfl⟩ (by simp; omega) rfl (by omega) (by simp)
    have e : ((ms.getLast?.getD 0 : Nat) : Int) - (t.full.sti.e : Int) = c := by rw [h3]; simp [Gol.full, Gol.mdl]
    rw [e] at this
    exact this

/-- States reached without merging. -/
theorem Gol.reach (hn : 2 ≤ t.n) {s : GolS} {ls : List Int} {v : Int} (h : Path t.full t.full.sti ls v s) :
    t.Ok s v ∧ (s = t.target ∨ ∃ ms, Golomb (0 :: ms) ∧ At (0 :: ms) s ∧ ms.length + 1 < t.n) := by
  refine ⟨?_, ?_⟩
  · have := t.relx (ub := none) (t.ok_root hn) (h.relx (rank := t.rank) (v0 := 0) Relx.root)
    rwa [Int.zero_add] at this
  · obtain ⟨ns, h1, h2, h3, h4, h5⟩ := t.path_at h (Golomb.single 0) (at_root t none) hn (Nat.zero_le _)
    rcases h5 with ⟨a, b⟩ | ⟨_, b⟩
    · exact .inr ⟨ns, h2, b, by simp at a; omega⟩
    · exact .inl b

theorem Gol.fam_sub (p : Int) (s : GolS) (l : Int) : l ∈ (t.fam p).lgf s → l ∈ t.full.lgf s := by
  intro h
  simp only [Gol.fam, Gol.full, Gol.mdl] at h ⊢
  rw [List.mem_filter] at h ⊢
  refine ⟨h.1, ?_⟩
  have := h.2
  simp [Gol.lb] at this ⊢
  omega

/-- C81: the generator only drops marks that lead to no ruler shorter than the primal bound. -/
theorem Gol.fam_ok (hn : 2 ≤ t.n) (hL : t.L < 2147483646) (hopt : t.OptOk) : Fam t.full t.rank t.fam where
  same := fun _ => rfl
  sub := t.fam_sub
  back := fun p _ _ h => val_sub (m' := t.fam p) rfl (t.fam_sub p) h
  keep := by
    rintro p s ls v c hp ⟨ls', hv⟩ hb
    have hb : v + c < p := by simpa [Gol.full, Gol.mdl, Sense.better] using hb
    obtain ⟨hok, hr⟩ := t.reach hn hp
    rcases hr with hr | ⟨ms, g1, g2, g3⟩
    · obtain ⟨e1, e2, e3⟩ := hv.of_terminal (by rw [hr]; simp [Gol.full, Gol.mdl, Gol.target])
      subst e1; subst e2
      rw [e3]; exact ⟨[], Path.nil _⟩
    · have hk : s.k < t.n := by rw [g2.2.2.1]; simpa using g3
      obtain ⟨o1, o2, o3, o4⟩ := hok.open t (ub := none) (by simp [Gol.mdl]; omega)
      obtain ⟨ns, h1, h2, h3, h4, h5⟩ := t.path_at hv g1 g2 hk o4
      have hlen : (0 :: ms).length + ns.length = t.n := by
        rcases h5 with ⟨a, b⟩ | ⟨a, _⟩
        · have := b.2.2.1
          simp [Gol.full, Gol.mdl, Gol.target] at this a; omega
        · exact a
      have hne : ns ≠ [] := by intro e; subst e; simp at hlen; omega
      obtain ⟨z, hz⟩ : ∃ z, ns.getLast? = some z := by
        cases hl : ns.getLast? with
        | none => rw [List.getLast?_eq_none_iff] at hl; exact absurd hl hne
        | some v => exact ⟨v, rfl⟩
      rw [hz, Option.getD_some] at h4
      have := t.path_of (ub := some p) (fun _ => hopt) ns (z := z) hne h2 g2 ⟨ms, rfl⟩ hlen (by rw [hz]; rfl)
        (h3 z (List.mem_of_getLast? hz)) (by intro q hq; injection hq with hq; omega)
      rw [← h4] at this
      exact ⟨_, this⟩
  lay := by
    intro p s ls v hp hq
    exact t.layered hL (t.reach hn hp).1 hq

/-! ### With the engine -/

theorem Gol.layered_root (hn : 2 ≤ t.n) (hL : t.L < 2147483646) : Layered t.full t.rank t.full.sti 0 :=
  t.layered hL (t.ok_root hn) (by simp [Gol.full, Gol.mdl]; omega)

/-- The shortest ruler with `n` marks has length `q`. -/
def Shortest (n q : Nat) : Prop :=
  (∃ ms : List Nat, Golomb (0 :: ms) ∧ ms.length + 1 = n ∧ ms.getLast?.getD 0 = q) ∧
  ∀ ms : List Nat, Golomb (0 :: ms) → ms.length + 1 = n → q ≤ ms.getLast?.getD 0

/-- C81: at any primal bound, and whatever the width, the relaxed diagram bounds from below every ruler
shorter than the primal bound, although the generator hides marks. -/
theorem gruler_dual (hn : 2 ≤ t.n) (hL : t.L < 2147483646) (hopt : t.OptOk) {p : Int} {w f : Nat} {g : G GolS}
    (h : relaxed (t.fam p) p w f (t.fam p).src0 = some g) {ms : List Nat} (hg : Golomb (0 :: ms)) (hm : ms.length + 1 = t.n)
    {z : Nat} (hz : ms.getLast?.getD 0 = z) (hzL : z ≤ t.L + 1) (hp : (z : Int) < p) : g.bound g.trg ≤ z := by
  have hs := (gruler_sol t hn _ (z : Int)).2 ⟨ms, rfl, hg, hm, by rw [hz], by omega⟩
  have := (t.fam_ok hn hL hopt).relaxed_dual (r := (t.fam p).src0) (Path.nil _) (t.layered_root hn hL).src h (c := z) ⟨_, hs⟩ (by
    simp [Mdl.src0, Gol.fam, Gol.full, Gol.mdl, Sense.better]; omega)
  have : g.bound g.trg ≤ 0 + (z : Int) := by simpa [Mdl.src0, Gol.fam, Gol.full, Gol.mdl, Sense.betterEQ] using this
  omega

/-- C81: everything the search reports is a ruler with `n` marks whose length is the reported value. -/
theorem gruler_search_sound (hn : 2 ≤ t.n) (hL : t.L < 2147483646) (hopt : t.OptOk) {w dfuel fuel : Nat} {lim : Nat → Bool} {s : BB.BS GolS}
    (h : BB.searchP t.full t.fam w dfuel lim fuel 2147483647 = some s) :
    ∀ x, x ∈ s.sols → ∃ ms : List Nat, x.2 = ms.map (fun i : Nat => (i : Int)) ∧ Golomb (0 :: ms) ∧ ms.length + 1 = t.n ∧
      x.1 = ((ms.getLast?.getD 0 : Nat) : Int) := by
  intro x hx
  obtain ⟨ms, h1, h2, h3, h4, _⟩ := (gruler_sol t hn _ _).1 ((BB.searchP_sound (t.fam_ok hn hL hopt) (t.layered_root hn hL) rfl h).1 x hx)
  exact ⟨ms, h1, h2, h3, h4⟩

theorem Gol.rankBound (hn : 2 ≤ t.n) : RankBound t.full t.rank t.full.sti 0 t.n := by
  intro s v h _
  rcases t.relx (ub := none) (t.ok_root hn) h with ⟨h, _⟩ | ⟨_, h, _⟩
  · rw [h]; exact Nat.le_refl _
  · exact Nat.le_of_lt h

/-- C81: the search ends. -/
theorem gruler_search_ends (hn : 2 ≤ t.n) (hL : t.L < 2147483646) (hopt : t.OptOk) (w : Nat) {dfuel : Nat} (hf : t.n + 2 ≤ dfuel)
    (lim : Nat → Bool) : ∃ N, ∀ fuel, N < fuel → ∃ s, BB.searchP t.full t.fam w dfuel lim fuel 2147483647 = some s ∧
      (s.stopped = true ∨ Heap.empty s.pq = true) :=
  BB.searchP_ends (t.fam_ok hn hL hopt) (t.layered_root hn hL) rfl (t.rankBound hn) w hf lim

/-- What the end of the search means, once its value bounds every solution. -/
theorem Gol.answer (hn : 2 ≤ t.n) (hL : t.L < 2147483646) {pr : Int} {inc : List Int}
    (h1 : ∀ ls c, Sol t.full ls c → t.full.sense.betterEQ pr c = true)
    (h2 : Sol t.full inc pr ∨ (pr = 2147483647 ∧ ∀ ls c, Sol t.full ls c → t.full.sense.better c 2147483647 = false)) :
    (∃ q : Nat, pr = q ∧ Shortest t.n q ∧ ∃ ms : List Nat, inc = ms.map (fun i : Nat => (i : Int)) ∧ Golomb (0 :: ms) ∧
      ms.length + 1 = t.n ∧ ms.getLast?.getD 0 = q) ∨
    (pr = 2147483647 ∧ ∀ ms : List Nat, Golomb (0 :: ms) → ms.length + 1 = t.n → t.L + 1 < ms.getLast?.getD 0) := by
  have hle : ∀ ms : List Nat, Golomb (0 :: ms) → ms.length + 1 = t.n → ms.getLast?.getD 0 ≤ t.L + 1 → pr ≤ ((ms.getLast?.getD 0 : Nat) : Int) := by
    intro ms hg hm hz
    have := h1 _ _ ((gruler_sol t hn _ _).2 ⟨ms, rfl, hg, hm, rfl, by omega⟩)
    simpa [Gol.full, Gol.mdl, Sense.betterEQ] using this
  rcases h2 with h2 | ⟨h2, _⟩
  · left
    obtain ⟨ms, a1, a2, a3, a4, a5⟩ := (gruler_sol t hn _ _).1 h2
    refine ⟨ms.getLast?.getD 0, a4, ⟨⟨ms, a2, a3, rfl⟩, ?_⟩, ms, a1, a2, a3, rfl⟩
    intro ms' hg hm
    by_cases hz : ms'.getLast?.getD 0 ≤ t.L + 1
    · have := hle ms' hg hm hz; omega
    · omega
  · right
    refine ⟨h2, fun ms hg hm => ?_⟩
    by_cases hz : ms.getLast?.getD 0 ≤ t.L + 1
    · have := hle ms hg hm hz; omega
    · omega

theorem Gol.sol_nonneg (hn : 2 ≤ t.n) {ls : List Int} {c : Int} (h : Sol t.full ls c) : 0 ≤ c := by
  obtain ⟨_, _, _, _, h4, _⟩ := (gruler_sol t hn _ _).1 h
  omega

/-- C81: with a width no layer exceeds, the search ends with the shortest ruler, or nothing when that is
longer than `L + 1`. -/
theorem gruler_search_room (hn : 2 ≤ t.n) (hL : t.L < 2147483646) (hopt : t.OptOk) {w dfuel fuel : Nat} (hR : Room t.full t.rank t.full.sti w)
    {lim : Nat → Bool} {s : BB.BS GolS} (h : BB.searchP t.full t.fam w dfuel lim fuel 2147483647 = some s) (hns : s.stopped = false) :
    (∃ q : Nat, s.primal = q ∧ Shortest t.n q ∧ ∃ ms : List Nat, s.inc = ms.map (fun i : Nat => (i : Int)) ∧ Golomb (0 :: ms) ∧
      ms.length + 1 = t.n ∧ ms.getLast?.getD 0 = q) ∨
    (s.primal = 2147483647 ∧ ∀ ms : List Nat, Golomb (0 :: ms) → ms.length + 1 = t.n → t.L + 1 < ms.getLast?.getD 0) := by
  obtain ⟨h1, h2⟩ := BB.searchP_room (t.fam_ok hn hL hopt) (t.layered_root hn hL) rfl (fun _ ls c hs => by
    have := t.sol_nonneg hn hs
    simp [Gol.full, Gol.mdl, Sense.betterEQ, Sense.worst0]; omega) hR h hns
  exact t.answer hn hL h1 h2

/-- C81, for any width: if along the run nothing was dropped for a bad reason (`okLoopP`), the search ends
with the shortest ruler, or nothing when that is longer than `L + 1`. -/
theorem gruler_search_partial (hn : 2 ≤ t.n) (hL : t.L < 2147483646) (hopt : t.OptOk) {w dfuel fuel : Nat} {lim : Nat → Bool} {s : BB.BS GolS}
    (h : BB.searchP t.full t.fam w dfuel lim fuel 2147483647 = some s)
    (hok : BB.okLoopP t.full t.fam w dfuel lim fuel 0 (BB.init t.full w 2147483647) = true) (hns : s.stopped = false) :
    (∃ q : Nat, s.primal = q ∧ Shortest t.n q ∧ ∃ ms : List Nat, s.inc = ms.map (fun i : Nat => (i : Int)) ∧ Golomb (0 :: ms) ∧
      ms.length + 1 = t.n ∧ ms.getLast?.getD 0 = q) ∨
    (s.primal = 2147483647 ∧ ∀ ms : List Nat, Golomb (0 :: ms) → ms.length + 1 = t.n → t.L + 1 < ms.getLast?.getD 0) := by
  obtain ⟨h1, h2⟩ := BB.searchP_answer_partial (t.fam_ok hn hL hopt) (t.layered_root hn hL) (by intro sd hsd; simp [Gol.full, Gol.mdl] at hsd)
    rfl (fun _ ls c hs => by
    have := t.sol_nonneg hn hs
    simp [Gol.full, Gol.mdl, Sense.betterEQ, Sense.worst0]; omega) h hok hns
  exact t.answer hn hL h1 h2

/-! ### The table -/

/-- No ruler continues `ms` (last mark first) by `k` marks up to `z`; `d` are the distances so far. -/
def noRuler (z : Nat) : Nat → List Nat → List Nat → Bool
  | 0, _, _ => false
  | k + 1, ms, d => (List.range' (ms.headD 0 + 1) (z - ms.headD 0)).all fun l =>
      (ms.any fun i => d.contains (l - i)) || noRuler z k (l :: ms) (ms.map (l - ·) ++ d)

theorem noRuler_spec (z : Nat) : ∀ (k : Nat) (ms d ns : List Nat), noRuler z k ms d = true → ns.length = k → ms ≠ [] →
    (∀ j ∈ d, ∃ a ∈ ms, ∃ b ∈ ms, a < b ∧ b - a = j) → (∀ a ∈ ns, a ≤ z) → ¬ Golomb (ms.reverse ++ ns) := by
  intro k
  induction k with
  | zero => intro ms d ns h; simp [noRuler] at h
  | succ k ih =>
    intro ms d ns h hl hne hd hz hg
    cases ns with
    | nil => simp at hl
    | cons l ns =>
      simp only [noRuler, List.all_eq_true] at h
      have hg1 : Golomb (ms.reverse ++ [l]) := hg.sub (by
        rw [show ms.reverse ++ l :: ns = ms.reverse ++ [l] ++ ns by simp]; exact List.sublist_append_left _ _)
      obtain ⟨g1, g2, g3⟩ := Golomb.snoc.1 hg1
      have g2 : ∀ a ∈ ms, a < l := fun a ha => g2 a (by simpa using ha)
      have hhead : ms.headD 0 < l := by
        cases ms with
        | nil => exact absurd rfl hne
        | cons x ms => exact g2 x (by simp)
      have := h l (by rw [List.mem_range'_1]; have := hz l (by simp); omega)
      rw [Bool.or_eq_true] at this
      rcases this with h1 | h1
      · rw [List.any_eq_true] at h1
        obtain ⟨i, hi, hc⟩ := h1
        obtain ⟨a, ha, b, hb, hab, e⟩ := hd (l - i) (by simpa using hc)
        exact g3 i (by simpa using hi) a (by simpa using ha) b (by simpa using hb) hab e
      · refine ih (l :: ms) _ ns h1 (by simpa using hl) (by simp) ?_ (fun a ha => hz a (by simp [ha])) (by simpa using hg)
        intro j hj
        rw [List.mem_append, List.mem_map] at hj
        rcases hj with ⟨i, hi, e⟩ | hj
        · exact ⟨i, by simp [hi], l, by simp, g2 i hi, e⟩
        · obtain ⟨a, ha, b, hb, h⟩ := hd j hj
          exact ⟨a, by simp [ha], b, by simp [hb], h⟩

/-- Moving a ruler keeps its distances. -/
theorem Golomb.shift {a : Nat} {ms : List Nat} (h : Golomb (a :: ms)) : Golomb (0 :: ms.map (· - a)) := by
  have hp := List.pairwise_cons.1 h.1
  have e : 0 :: ms.map (· - a) = (a :: ms).map (· - a) := by simp
  have hge : ∀ x ∈ a :: ms, a ≤ x := by
    intro x hx
    rcases List.mem_cons.1 hx with e | e
    · omega
    · exact Nat.le_of_lt (hp.1 x e)
  rw [e]
  refine ⟨?_, ?_⟩
  · rw [List.pairwise_map]
    refine h.1.imp_of_mem ?_
    intro x y hx hy hxy
    have := hge x hx
    omega
  · intro x y c d hx hy hc hd hxy hcd he
    obtain ⟨x', hx', rfl⟩ := List.mem_map.1 hx
    obtain ⟨y', hy', rfl⟩ := List.mem_map.1 hy
    obtain ⟨c', hc', rfl⟩ := List.mem_map.1 hc
    obtain ⟨d', hd', rfl⟩ := List.mem_map.1 hd
    have := hge x' hx'; have := hge y' hy'; have := hge c' hc'; have := hge d' hd'
    have := h.2 x' y' c' d' hx' hy' hc' hd' (by omega) (by omega) (by omega)
    omega

/-- C81: the entries of the table for up to 6 marks are lower bounds. -/
theorem gruler_table {n : Nat} (hn : n ≤ 6) (L : Nat) : (⟨n, L, optTable⟩ : Gol).OptOk := by
  intro ms hg h1 h2
  cases ms with
  | nil => simp at h1
  | cons a ms =>
    have h2 : (a :: ms).length ≤ 6 := Nat.le_trans h2 hn
    by_cases hs : ∃ b ∈ a :: ms, a + optTable (a :: ms).length ≤ b
    · obtain ⟨b, hb, h⟩ := hs
      exact ⟨a, by simp, b, hb, h⟩
    · exfalso
      have hlt : ∀ b ∈ a :: ms, b < a + optTable (a :: ms).length := by
        intro b hb
        by_cases h : a + optTable (a :: ms).length ≤ b
        · exact absurd ⟨b, hb, h⟩ hs
        · omega
      have key : ∀ k, k < 6 → 1 ≤ k → noRuler (optTable (k + 1) - 1) k [0] [] = true := by decide +kernel
      cases hm : ms with
      | nil =>
        have := hlt a (by simp)
        rw [hm] at this
        simp [optTable] at this
      | cons b ms' =>
        have hlen : 1 ≤ ms.length := by rw [hm]; simp
        simp only [List.length_cons] at h2 hlt
        refine noRuler_spec _ _ [0] [] (ms.map (· - a)) (key ms.length (by omega) hlen) (by simp) (by simp) (by simp) ?_ (by simpa using hg.shift)
        intro x hx
        obtain ⟨y, hy, rfl⟩ := List.mem_map.1 hx
        have := hlt y (by simp [hy])
        omega

/-! ### The sets of the code -/

/-- A `NatSet<nw>` with the members of a mask. -/
def RepN (nw : Nat) (w : Nat → Bits.W) (m : Nat) : Prop := ∀ i, Bits.inW w nw i = true ↔ m.testBit i = true

/-- A `NatSet<4>` with the members of a mask. -/
abbrev Rep (w : Nat → Bits.W) (m : Nat) : Prop := RepN 4 w m

/-- C82, C106: for rulers up to length 63 the set operations of the code are those of the model, however many
words the sets have: the marks with the label, the distances with those to the new mark, and the merge. -/
theorem gruler_sets_words {nw : Nat} (hw : 1 ≤ nw) {a b c d : Nat → Bits.W} {ma mb mc md l e : Nat} (ha : RepN nw a ma) (hb : RepN nw b mb) (hc : RepN nw c mc) (hd : RepN nw d md)
    (he : ma.testBit e = true) (hmax : ∀ i, ma.testBit i = true → i ≤ e) (hl : e < l) (hl63 : l ≤ 63) :
    (∃ s, NatSet.ofList nw [l] NatSet.zeros = some s ∧ RepN nw (NatSet.unionWith nw a s) (ma ||| 2 ^ l)) ∧
    (∃ r, NatSet.minus nw a l = some r ∧ RepN nw (NatSet.unionWith nw r b) (diffs l ma ||| mb)) ∧
    RepN nw (NatSet.interWith nw c d) (mc &&& md) := by
  refine ⟨?_, ?_, ?_⟩
  · obtain ⟨s, h1, h2⟩ := NatSet.ofList_mem (n := nw) [l] NatSet.zeros (by simp; omega)
    refine ⟨s, h1, fun i => ?_⟩
    rw [NatSet.union_mem, h2, ha i, Nat.testBit_or, Nat.testBit_two_pow, Bool.or_eq_true, decide_eq_true_iff, NatSet.zeros_mem,
      List.mem_singleton, eq_comm (a := i)]
    simp only [Bool.false_eq_true, or_false]
  · obtain ⟨r, h1, h2⟩ := NatSet.minus_partial (n := nw) (ofs := l) (m := e) ((ha e).2 he) (fun p hp => hmax p ((ha p).1 hp))
      (by omega) (by omega) (by omega) (by omega)
    refine ⟨r, h1, fun i => ?_⟩
    rw [NatSet.union_mem, h2, hb i, Nat.testBit_or, Bool.or_eq_true, diffs_bit]
    constructor
    · rintro (⟨v, h3, h4⟩ | h)
      · exact .inl ⟨v, by omega, (ha v).1 h3, by omega⟩
      · exact .inr h
    · rintro (⟨v, h3, h4, h5⟩ | h)
      · exact .inl ⟨v, (ha v).2 h4, by omega⟩
      · exact .inr h
  · intro i
    rw [NatSet.inter_mem, hc i, hd i, Nat.testBit_and, Bool.and_eq_true]

/-- C82: for rulers up to length 63 the set operations of the code are those of the model: the marks with
the label, the distances with those to the new mark, and the merge. -/
theorem gruler_sets {a b c d : Nat → Bits.W} {ma mb mc md l e : Nat} (ha : Rep a ma) (hb : Rep b mb) (hc : Rep c mc) (hd : Rep d md)
    (he : ma.testBit e = true) (hmax : ∀ i, ma.testBit i = true → i ≤ e) (hl : e < l) (hl63 : l ≤ 63) :
    (∃ s, NatSet.ofList 4 [l] NatSet.zeros = some s ∧ Rep (NatSet.unionWith 4 a s) (ma ||| 2 ^ l)) ∧
    (∃ r, NatSet.minus 4 a l = some r ∧ Rep (NatSet.unionWith 4 r b) (diffs l ma ||| mb)) ∧
    Rep (NatSet.interWith 4 c d) (mc &&& md) :=
  gruler_sets_words (by decide) ha hb hc hd he hmax hl hl63

/-- C82 is false beyond: with room for a first mark at 64 the generator shows it, it is legal, and
computing its distance to mark 0 shifts by 64 bits. -/
theorem gruler_undefined {t : Gol} (hn : 2 < t.n) (h2 : t.opt 2 ≤ 64) (hL : 64 + t.opt (t.n - 1) ≤ t.L + 1)
    (ho : t.opt (t.n - 1) ≤ 2147483582) :
    (64 : Int) ∈ (t.fam 2147483647).lgf t.full.sti ∧ legal t.full.sti.m t.full.sti.d 64 = true ∧
    ∃ w, NatSet.ofList 4 [0] NatSet.zeros = some w ∧ Rep w t.full.sti.m ∧ NatSet.minus 4 w 64 = none := by
  refine ⟨?_, show legal 1 0 64 = true by decide, ?_⟩
  · simp only [Gol.fam, Gol.full, Gol.mdl]
    rw [List.mem_filter]
    refine ⟨List.mem_map.2 ⟨64, by simp only [List.mem_range]; omega, rfl⟩, ?_⟩
    have e1 : t.lb ⟨1, 0, 1, 0⟩ ≤ 64 := by
      simp only [Gol.lb, Nat.reduceAdd]; rw [if_pos (by omega)]; omega
    have e2 : 64 ≤ t.ub 2147483647 ⟨1, 0, 1, 0⟩ := by simp only [Gol.ub]; omega
    simpa using ⟨by omega, e2⟩
  · obtain ⟨w, h1, h3⟩ := NatSet.ofList_mem (n := 4) [0] NatSet.zeros (by simp)
    refine ⟨w, h1, ?_, ?_⟩
    · intro i
      rw [h3, NatSet.zeros_mem, show t.full.sti.m = 1 from rfl, show Nat.testBit 1 i = decide (0 = i) from Nat.testBit_two_pow (n := 0)]
      simp [eq_comm]
    · have hv : (NatSet.ofList 4 [0] NatSet.zeros).map (fun w => (NatSet.minus 4 w 64).isNone) = some true := by decide +kernel
      rw [h1] at hv
      simpa using hv

/-! ### Equality of states -/

/-- C82: states reached without merging that the code takes for equal are equal. -/
theorem gruler_eq (hn : 2 ≤ t.n) {a b : GolS} {la lb : List Int} {va vb : Int} (ha : Path t.full t.full.sti la va a)
    (hb : Path t.full t.full.sti lb vb b) (h : a.eqC b = true) : a = b := by
  simp only [GolS.eqC, Bool.and_eq_true, decide_eq_true_iff] at h
  obtain ⟨⟨h1, h2⟩, h3⟩ := h
  have key : a.d = b.d := by
    rcases (t.reach hn ha).2 with ra | ⟨ms, ga, ra, ka⟩
    · rcases (t.reach hn hb).2 with rb | ⟨ns, gb, rb, kb⟩
      · rw [ra, rb]
      · have := rb.2.2.1
        rw [ra] at h1; simp [Gol.target] at h1 this; omega
    · rcases (t.reach hn hb).2 with rb | ⟨ns, gb, rb, kb⟩
      · have := ra.2.2.1
        rw [rb] at h1; simp [Gol.target] at h1 this; omega
      · have hmem : ∀ i, i ∈ 0 :: ms ↔ i ∈ 0 :: ns := fun i => by rw [← ra.1, ← rb.1, h3]
        refine Nat.eq_of_testBit_eq fun j => ?_
        rw [Bool.eq_iff_iff, ra.2.1, rb.2.1]
        constructor
        · rintro ⟨x, hx, y, hy, h⟩
          exact ⟨x, (hmem x).1 hx, y, (hmem y).1 hy, h⟩
        · rintro ⟨x, hx, y, hy, h⟩
          exact ⟨x, (hmem x).2 hx, y, (hmem y).2 hy, h⟩
  obtain ⟨am, ad, ak, ae⟩ := a
  obtain ⟨bm, bd, bk, be⟩ := b
  simp only at h1 h2 h3 key
  rw [h1, h2, h3, key]

/-- Five marks within length 16. -/
def g516 : Gol := ⟨5, 15, optTable⟩

/-- C82 is false for merged states: two states of one layer that compare equal and have the same hash, so
that the table keeps only one of them, yet the first needs 4 where the second needs 2. -/
theorem gruler_eq_false : ∃ a b va vb, Relx (g516.fam 2147483647) g516.rank g516.full.sti 0 a va ∧
    Relx (g516.fam 2147483647) g516.rank g516.full.sti 0 b vb ∧ a.eqC b = true ∧ a.hash = b.hash ∧
    Val (g516.fam 2147483647) b 2 ∧ ∀ c, Val (g516.fam 2147483647) a c → 4 ≤ c := by
  have walk : ∀ (ls : List Int) (x : GolS) (v : Int), Relx (g516.fam 2147483647) g516.rank g516.full.sti 0 x v →
      ∀ y w, ls.foldl (fun (o : Option (GolS × Int)) l => o.bind fun p =>
        if l ∈ (g516.fam 2147483647).lgf p.1 ∧ (g516.fam 2147483647).eqs p.1 = false then
          ((g516.fam 2147483647).stf p.1 l).map fun q => (q, p.2 + (g516.fam 2147483647).stc p.1 l) else none) (some (x, v)) = some (y, w) →
      Relx (g516.fam 2147483647) g516.rank g516.full.sti 0 y w := by
    intro ls
    induction ls with
    | nil =>
      intro x v h y w e
      simp only [List.foldl_nil, Option.some.injEq, Prod.mk.injEq] at e
      rw [← e.1, ← e.2]; exact h
    | cons l ls ih =>
      intro x v h y w e
      rw [List.foldl_cons, Option.bind_some] at e
      have hnone : ∀ ls : List Int, ls.foldl (fun (o : Option (GolS × Int)) l => o.bind fun p =>
        if l ∈ (g516.fam 2147483647).lgf p.1 ∧ (g516.fam 2147483647).eqs p.1 = false then
          ((g516.fam 2147483647).stf p.1 l).map fun q => (q, p.2 + (g516.fam 2147483647).stc p.1 l) else none) none = none := by
        intro ls
        induction ls with
        | nil => rfl
        | cons l ls ih => rw [List.foldl_cons, Option.bind_none]; exact ih
      by_cases hc : l ∈ (g516.fam 2147483647).lgf x ∧ (g516.fam 2147483647).eqs x = false
      · rw [if_pos hc] at e
        cases hq : (g516.fam 2147483647).stf x l with
        | none => rw [hq, Option.map_none, hnone] at e; simp at e
        | some q =>
          rw [hq, Option.map_some] at e
          exact ih q _ (h.step ⟨hc.2, hc.1, hq⟩) y w e
      · rw [if_neg hc, hnone] at e; simp at e
  have hA := walk [3, 10, 11] _ _ Relx.root ⟨2 ^ 0 + 2 ^ 3 + 2 ^ 10 + 2 ^ 11, 2 ^ 3 + 2 ^ 7 + 2 ^ 10 + 2 ^ 1 + 2 ^ 8 + 2 ^ 11, 4, 11⟩ 11 (by decide +kernel)
  have hB := walk [2, 3, 11] _ _ Relx.root ⟨2 ^ 0 + 2 ^ 2 + 2 ^ 3 + 2 ^ 11, 2 ^ 2 + 2 ^ 1 + 2 ^ 3 + 2 ^ 8 + 2 ^ 9 + 2 ^ 11, 4, 11⟩ 11 (by decide +kernel)
  have hC := walk [1, 3, 11] _ _ Relx.root ⟨2 ^ 0 + 2 ^ 1 + 2 ^ 3 + 2 ^ 11, 2 ^ 1 + 2 ^ 2 + 2 ^ 3 + 2 ^ 8 + 2 ^ 10 + 2 ^ 11, 4, 11⟩ 11 (by decide +kernel)
  refine ⟨⟨2 ^ 0 + 2 ^ 3 + 2 ^ 11, 2 ^ 1 + 2 ^ 3 + 2 ^ 8 + 2 ^ 10 + 2 ^ 11, 4, 11⟩, ⟨2 ^ 0 + 2 ^ 3 + 2 ^ 11, 2 ^ 1 + 2 ^ 3 + 2 ^ 8 + 2 ^ 11, 4, 11⟩, 11, 11,
    hA.mergeL hC (by decide +kernel) (by decide +kernel) rfl (by decide +kernel), hA.mergeL hB (by decide +kernel) (by decide +kernel) rfl (by decide +kernel),
    by decide +kernel, by decide +kernel, ⟨[13], ?_⟩, ?_⟩
  · exact Path.cons (c := 0) (l := 13) ⟨by decide +kernel, by decide +kernel, by decide +kernel⟩ (Path.nil _)
  · rintro c ⟨ls, hp⟩
    cases hp with
    | @cons _ x' _ l ls c hst hp =>
      obtain ⟨k, rfl, a1, a2, a3, a4⟩ := (g516.step_iff (ub := some 2147483647) (by decide)).1 hst
      have hlt := a2.lt
      have e : x' = g516.target := by rw [a4]; rfl
      obtain ⟨_, e2, _⟩ := hp.of_terminal (by rw [e]; decide +kernel)
      rw [e2]
      show 4 ≤ (k : Int) - 11 + 0
      have : ∀ k, k < 15 → 11 < k → legal (2 ^ 0 + 2 ^ 3 + 2 ^ 11) (2 ^ 1 + 2 ^ 3 + 2 ^ 8 + 2 ^ 10 + 2 ^ 11) k = false := by decide +kernel
      by_cases hk : k < 15
      · rw [this k hk hlt] at a3; simp at a3
      · omega

/-- The program for four marks within length 9, width 3: the answer is 6, and no ruler is shorter. -/
example : ∃ s, BB.searchP (⟨4, 8, optTable⟩ : Gol).full (⟨4, 8, optTable⟩ : Gol).fam 3 20 (fun _ => false) 20 2147483647 = some s ∧
    s.primal = 6 ∧ s.inc = [1, 4, 6] ∧ Shortest 4 6 := by
  have hv : (BB.searchP (⟨4, 8, optTable⟩ : Gol).full (⟨4, 8, optTable⟩ : Gol).fam 3 20 (fun _ => false) 20 2147483647).map
      (fun s => (s.primal, s.inc, s.stopped)) = some (6, [1, 4, 6], false) := by decide +kernel
  simp only [Option.map_eq_some_iff] at hv
  obtain ⟨s, h1, h2⟩ := hv
  simp at h2
  rcases gruler_search_partial ⟨4, 8, optTable⟩ (by decide) (by decide) (gruler_table (by decide) 8) h1 (by decide +kernel) h2.2.2 with
    ⟨q, a, b, _⟩ | ⟨a, _⟩
  · have e : q = 6 := by omega
    subst e
    exact ⟨s, h1, h2.1, h2.2.1, b⟩
  · omega

/-- Room for every layer: three marks within length 4. -/
example : ∃ s, BB.searchP (⟨3, 3, optTable⟩ : Gol).full (⟨3, 3, optTable⟩ : Gol).fam 60 20 (fun _ => false) 20 2147483647 = some s ∧
    s.primal = 3 ∧ Shortest 3 3 := by
  have hv : (BB.searchP (⟨3, 3, optTable⟩ : Gol).full (⟨3, 3, optTable⟩ : Gol).fam 60 20 (fun _ => false) 20 2147483647).map
      (fun s => (s.primal, s.stopped)) = some (3, false) := by decide +kernel
  simp only [Option.map_eq_some_iff] at hv
  obtain ⟨s, h1, h2⟩ := hv
  simp at h2
  rcases gruler_search_room ⟨3, 3, optTable⟩ (by decide) (by decide) (gruler_table (by decide) 3) (w := 60)
    (BB.room_level (Gol.layered_root ⟨3, 3, optTable⟩ (by decide) (by decide)) (Gol.rankBound ⟨3, 3, optTable⟩ (by decide)) (fun d hd => by
      have : ∀ d, d < 4 → (BB.level (⟨3, 3, optTable⟩ : Gol).full d).length ≤ 60 := by decide +kernel
      exact this d (by simp only at hd; omega))) h1 h2.2 with ⟨q, a, b, _⟩ | ⟨a, _⟩
  · have e : q = 3 := by omega
    subst e
    exact ⟨s, h1, h2.1, b⟩
  · omega

/-- C82: two sets of marks that differ in one of the four words only never have the same hash. -/
theorem hash256_word {m m' k : Nat} (hk : k < 4) (h : ∀ i, i / 64 ≠ k → m.testBit i = m'.testBit i)
    (he : hash256 m = hash256 m') : m = m' := by
  refine Nat.eq_of_testBit_eq fun i => ?_
  by_cases hi : i / 64 = k
  · have e := congrArg (fun b : BitVec 64 => b.getLsbD (i % 64)) he
    have hj : i % 64 < 64 := Nat.mod_lt _ (by decide)
    simp only [hash256, BitVec.getLsbD_xor, BitVec.getLsbD_ofNat, Nat.testBit_shiftRight, hj, decide_true, Bool.true_and] at e
    have hw : ∀ a, a < 4 → a ≠ k → m.testBit (64 * a + i % 64) = m'.testBit (64 * a + i % 64) := fun a _ ha => h _ (by omega)
    have h0 := hw 0; have h1 := hw 1; have h2 := hw 2; have h3 := hw 3
    simp only [Nat.mul_zero, Nat.zero_add, Nat.reduceMul] at h0 h1 h2 h3
    have hi' : i = 64 * k + i % 64 := by omega
    rw [hi']
    obtain rfl | rfl | rfl | rfl : k = 0 ∨ k = 1 ∨ k = 2 ∨ k = 3 := by omega
    all_goals simp only [Nat.mul_zero, Nat.zero_add, Nat.reduceMul]
    · rw [h1 (by decide) (by decide), h2 (by decide) (by decide), h3 (by decide) (by decide)] at e
      simpa using e
    · rw [h0 (by decide) (by decide), h2 (by decide) (by decide), h3 (by decide) (by decide)] at e
      simpa using e
    · rw [h0 (by decide) (by decide), h1 (by decide) (by decide), h3 (by decide) (by decide)] at e
      simpa using e
    · rw [h0 (by decide) (by decide), h1 (by decide) (by decide), h2 (by decide) (by decide)] at e
      simpa using e
  · exact h i hi

/-- Such a pair: the marks 0 and 5, with or without the mark 200. -/
example : hash256 (2 ^ 0 + 2 ^ 5) ≠ hash256 (2 ^ 0 + 2 ^ 5 + 2 ^ 200) := by decide +kernel

end Verif.Ex
