import Verif.Fl.Ends
/-!
# How much the rounding of one addition costs a diagram

The machine's addition is monotone and at most `E` away from the sum as long as the sum is at most `R`.  A solution of exact
value `v` is then followed through a compiled diagram with a loss of `E` per layer.
-/
namespace Verif.Fl
open Verif.DD
open Verif.BB (BS)
set_option linter.unusedSectionVars false
variable {σ : Type} {Vl : σ → Int → Prop} {P : Num} {m : Mdl σ} {rank : σ → Nat} [Same σ] {r : Src σ} {prim : Int} {rel : Bool}
  {N : Nat} {E C D R v : Int}

/-- An addition that keeps order and is off by at most `E` for sums of size at most `R`. -/
structure Acc (P : Num) (R E : Int) : Prop where
  pos : 0 ≤ E
  mono : ∀ a b c d, a ≤ b → c ≤ d → P.add a c ≤ P.add b d
  near : ∀ a b, -R ≤ a + b → a + b ≤ R → a + b - E ≤ P.add a b ∧ P.add a b ≤ a + b + E

/-- `n` times `E`. -/
def sl (E : Int) : Nat → Int
  | 0 => 0
  | n + 1 => sl E n + E

theorem sl_add (E : Int) (a : Nat) : ∀ b, sl E (a + b) = sl E a + sl E b
  | 0 => by simp [sl]
  | b + 1 => by
    show sl E (a + b) + E = sl E a + (sl E b + E)
    rw [sl_add E a b]; omega

theorem sl_mul (E : Int) : ∀ n : Nat, sl E n = n * E
  | 0 => by simp [sl]
  | n + 1 => by
    show sl E n + E = _
    rw [sl_mul E n, Int.natCast_succ, Int.add_mul, Int.one_mul]

theorem sl_nonneg {E : Int} (h : 0 ≤ E) : ∀ n, 0 ≤ sl E n
  | 0 => by simp [sl]
  | n + 1 => by
    have := sl_nonneg h n
    show 0 ≤ sl E n + E
    omega

theorem sl_mono {E : Int} (h : 0 ≤ E) {a b : Nat} (hab : a ≤ b) : sl E a ≤ sl E b := by
  obtain ⟨d, rfl⟩ := Nat.le.dest hab
  have := sl_nonneg h d
  rw [sl_add]; omega

/-- What is known of a sum from lower bounds of its parts. -/
theorem Acc.k (A : Acc P R E) (s : Sense) {a b x y : Int} (h1 : x ≤ s.k a) (h2 : y ≤ s.k b) (h3 : -R ≤ x + y) (h4 : x + y ≤ R) :
    x + y - E ≤ s.k (P.add a b) := by
  cases s with
  | max =>
    have := A.mono x a y b h1 h2
    have := (A.near x y h3 h4).1
    show _ ≤ P.add a b
    omega
  | min =>
    have h1 : x ≤ -a := h1
    have h2 : y ≤ -b := h2
    have := A.mono a (-x) b (-y) (by omega) (by omega)
    have := (A.near (-x) (-y) (by omega) (by omega)).2
    show _ ≤ -(P.add a b)
    omega

/-- Everything asked of the model: layers, completions of size at most `C`, ranks at most `N`, a local bound that is honest up to `D`, and
sums of twice that size still `E` close. -/
structure Nr (Vl : σ → Int → Prop) (P : Num) (m : Mdl σ) (rank : σ → Nat) (N : Nat) (E C D R : Int) : Prop where
  lay : LayV Vl P m rank m.sti 0
  ends : Closed Vl m
  loc : ∀ f, m.loc = some f → ∀ s x c, Rch m rank m.sti s → Vl s c → m.sense.k c - D ≤ m.sense.k (f s x)
  rb : RB m rank m.sti N
  acc : Acc P R E
  size : ∀ s c, Rch m rank m.sti s → Vl s c → -C ≤ c ∧ c ≤ C
  off : 0 ≤ D
  big : 2 * C + sl E (N + 2) + D ≤ R

/-- A node with value `bd` and completion `c` still stands for a solution of value `v`, up to `E` for each layer passed. -/
def Sup (Vl : σ → Int → Prop) (m : Mdl σ) (rank : σ → Nat) (E v : Int) (st : σ) (bd c : Int) : Prop :=
  Vl st c ∧ m.sense.k v - m.sense.k c - sl E (rank st) ≤ m.sense.k bd

/-- `v` is matched up to the loss of a whole path. -/
def Met (m : Mdl σ) (N : Nat) (E D v p : Int) : Prop := m.sense.k v - sl E (N + 2) - D ≤ m.sense.k p

theorem Nr.kc (H : Nr Vl P m rank N E C D R) {s : σ} {c : Int} (hs : Rch m rank m.sti s) (hc : Vl s c) :
    -C ≤ m.sense.k c ∧ m.sense.k c ≤ C := by
  have := H.size s c hs hc
  cases hk : m.sense with
  | max => exact this
  | min => show -C ≤ -c ∧ -c ≤ C; omega

/-- The size of values of solutions. -/
def Sized (m : Mdl σ) (C v : Int) : Prop := -C ≤ m.sense.k v ∧ m.sense.k v ≤ C

variable (H : Nr Vl P m rank N E C D R) (hr : Rch m rank m.sti r.st) (hv : Sized m C v)
include H hr hv

/-- One layer: pruned by the local bound, an arc to the sink, or a child that stands for the same solution. -/
theorem near_step {g : G σ} {d p : Nat} (h : Inv Vl P m rank r prim rel g d [] [] p []) (hx : rel = false → g.exact = true)
    {n : Nat} {c : Int} (hn : Lv g n) (hq : m.eqs (g.st n) = false) (hs : Sup Vl m rank E v (g.st n) (g.bound n) c) :
    Met m N E D v prim ∨ ∃ e c', e < g.ne ∧ g.es e = n ∧ Vl (g.st (g.ed e)) c' ∧ m.sense.k c ≤ m.sense.k (g.eo e) + m.sense.k c' ∧
      ((g.ed e = 1 ∧ c' = 0 ∧ Met m N E D v (P.add (g.bound (g.es e)) (g.eo e))) ∨
       (m.eqs (g.st (g.ed e)) = false ∧ rank (g.st (g.ed e)) = rank (g.st n) + 1 ∧
        Sup Vl m rank E v (g.st (g.ed e)) (g.bound (g.ed e)) c')) := by
  have hn1 : n ≠ 1 := by
    intro hh; rw [hh, h.st1, H.lay.sink] at hq; cases hq
  have hrn : Rch m rank m.sti (g.st n) := hr.trans (h.rxs n hn.1 hn1)
  have hrk : rank (g.st n) ≤ N := H.rb _ hrn hq
  have hE := H.acc.pos
  have s0 := sl_nonneg hE (rank (g.st n))
  have s1 : sl E (rank (g.st n) + 1) = sl E (rank (g.st n)) + E := rfl
  have s2 : sl E (rank (g.st n) + 2) = sl E (rank (g.st n)) + E + E := rfl
  have s3 := sl_mono hE (show rank (g.st n) + 2 ≤ N + 2 by omega)
  have hbig := H.big
  have hoff := H.off
  obtain ⟨hval, hs⟩ := hs
  obtain ⟨l, s', c', hst, hp', rfl⟩ := H.ends.open H.lay.sink hval hq
  have hkc' := H.kc (hrn.step hst) hp'
  have hvv := hv
  unfold Sized at hvv
  rw [Sense.k_add] at hs
  have hsum := H.acc.k m.sense (a := g.bound n) (b := m.stc (g.st n) l) hs (Int.le_refl _) (by omega) (by omega)
  rcases h.cov hx n hn hq (by simp) (by simp) l hst.2.1 (by simp) s' hst.2.2 with ⟨f, hf, hb⟩ | ⟨e, e1, e2, e3, e4⟩
  · left
    have hl := H.loc f hf s' .dd c' (hrn.step hst) hp'
    rw [Sense.better_false] at hb
    have := H.acc.k m.sense (a := P.add (g.bound n) (m.stc (g.st n) l)) (b := f s' .dd) hsum hl (by omega) (by omega)
    unfold Met
    omega
  · right
    obtain ⟨c'', hp'', hc''⟩ := e4 c' hp'
    rw [Sense.betterEQ_iff] at hc''
    have hbd := h.ebd e e1
    rw [e2, e3] at hbd
    refine ⟨e, c'', e1, e2, hp'', by rw [e3, Sense.k_add]; omega, ?_⟩
    by_cases ht : m.eqs (g.st (g.ed e)) = true
    · left
      obtain ⟨h1', h0⟩ := H.ends.terminal hp'' ht
      have hed := h.toStr.one_of_stt h.st1 (h.edge e e1).2 h1' H.lay.refl
      refine ⟨hed, h0, ?_⟩
      rw [h0, Sense.k_zero] at hc''
      rw [e2, e3]
      unfold Met
      omega
    · right
      have ht : m.eqs (g.st (g.ed e)) = false := by simpa using ht
      have hrk' := (h.erank e e1).resolve_left (by simp [ht])
      rw [e2] at hrk'
      refine ⟨ht, hrk', hp'', ?_⟩
      rw [hrk']
      omega

/-- Every solution a node stands for is pruned or runs into the sink. -/
theorem near_path {g : G σ} {d p : Nat} (h : Inv Vl P m rank r prim rel g d [] [] p []) (hx : rel = false → g.exact = true) :
    ∀ (K n : Nat) (c : Int), Lv g n → m.eqs (g.st n) = false → (∀ i, Lv g i → m.eqs (g.st i) = false →
      rank (g.st i) < rank (g.st n) + K) → Sup Vl m rank E v (g.st n) (g.bound n) c →
      Met m N E D v prim ∨ ∃ e, e ∈ g.par 1 ∧ Met m N E D v (P.add (g.bound (g.es e)) (g.eo e)) := by
  intro K
  induction K with
  | zero => intro n c h1 h2 h3; have := h3 n h1 h2; omega
  | succ K ih =>
    intro n c h1 h2 h3 hs
    rcases near_step H hr hv h hx h1 h2 hs with a | ⟨e, c', e1, e2, e3, e4, ⟨b1, b2, b3⟩ | ⟨b1, b2, b3⟩⟩
    · exact .inl a
    · exact .inr ⟨e, (h.par 1 e).2 ⟨e1, b1⟩, b3⟩
    · exact ih (g.ed e) c' (h.toStr.ed_lv e1) b1 (fun i a b => by have := h3 i a b; omega) b3

omit H hr hv in
theorem ranks_lt {g : G σ} {d p : Nat} (h : Inv Vl P m rank r prim rel g d [] [] p []) (n : Nat) :
    ∀ i, Lv g i → m.eqs (g.st i) = false → rank (g.st i) < rank (g.st n) + (rank r.st + d + 1) := by
  intro i a b
  rcases h.done i a b with x | x | x
  · simp at x
  · simp at x
  · omega

theorem near_root {g : G σ} {d p : Nat} (h : Inv Vl P m rank r prim rel g d [] [] p []) (hx : rel = false → g.exact = true)
    (ho : m.eqs r.st = false) {c : Int} (hs : Sup Vl m rank E v r.st r.bound c) :
    Met m N E D v prim ∨ ∃ e, e ∈ g.par 1 ∧ Met m N E D v (P.add (g.bound (g.es e)) (g.eo e)) := by
  refine near_path H hr hv h hx _ 0 c ⟨by have := h.two; omega, .inl rfl⟩ (by rw [h.st0]; exact ho) (ranks_lt h 0) ?_
  rw [h.st0, h.b0]; exact hs

/-- The value at the sink of a relaxed diagram. -/
theorem near_relaxed (L : LayV Vl P m rank r.st r.bound) {w f : Nat} {g : G σ} (h : Fl.relaxed P m prim w f r = some g)
    {c : Int} (hs : Sup Vl m rank E v r.st r.bound c) : Met m N E D v prim ∨ Met m N E D v (g.bound g.trg) := by
  obtain ⟨g0, d, p, bd, lb, b, hi, _, rfl, _, hb, _⟩ := relaxed_shape L h
  rcases near_root H hr hv hi (by simp) L.src hs with a | ⟨e, e1, e2⟩
  · exact .inl a
  · right
    have := hb e e1
    dsimp only
    rw [hi.trg, upd_same]
    unfold Met at e2 ⊢
    omega

/-- The value at the sink of a restricted diagram that is exact. -/
theorem near_restricted (L : LayV Vl P m rank r.st r.bound) {w f : Nat} {g : G σ} (h : Fl.restricted P m prim w f r = some g)
    (hx : g.exact = true) {c : Int} (hs : Sup Vl m rank E v r.st r.bound c) : Met m N E D v prim ∨ Met m N E D v (g.bound g.trg) := by
  unfold Fl.restricted at h
  dsimp only at h
  rw [Option.map_eq_some_iff] at h
  obtain ⟨g0, h1, rfl⟩ := h
  obtain ⟨⟨d, p, hi⟩, _⟩ := restricted_inv L h1
  obtain ⟨bd, lb, t1, _, t4⟩ := tighten_trg (P := P) (m := m) hi.trg
  rw [t1] at hx ⊢
  rcases near_root H hr hv hi (fun _ => hx) L.src hs with a | ⟨e, e1, e2⟩
  · exact .inl a
  · right
    have := t4 e e1
    dsimp only
    rw [hi.trg, upd_same]
    unfold Met at e2 ⊢
    omega

/-- Backward bounds lose at most `E` per layer below. -/
theorem near_back {g0 g : G σ} {d p : Nat} (h : Inv Vl P m rank r prim true g0 d [] [] p []) (ha : AnOK g0 1)
    (he : g.ed = g0.ed) (ho : g.eo = g0.eo)
    (hb : ∀ n, n ∈ g0.an → g.bb n = kidLoop P m g (g0.kids n)
      (if (g0.kids n).isEmpty then (if n = 1 then 0 else P.best0 m.sense) else P.best0 m.sense)) :
    ∀ (K n : Nat) (c : Int), Lv g0 n → m.eqs (g0.st n) = false → (∀ i, Lv g0 i → m.eqs (g0.st i) = false →
      rank (g0.st i) < rank (g0.st n) + K) → Sup Vl m rank E v (g0.st n) (g0.bound n) c →
      Met m N E D v prim ∨ m.sense.k c - sl E (N + 1 - rank (g0.st n)) ≤ m.sense.k (g.bb n) := by
  intro K
  induction K with
  | zero => intro n c h1 h2 h3; have := h3 n h1 h2; omega
  | succ K ih =>
    intro n c h1 h2 h3 hs
    have hn1 : n ≠ 1 := by
      intro hh; rw [hh, h.st1, H.lay.sink] at h2; cases h2
    have hrn : Rch m rank m.sti (g0.st n) := hr.trans (h.rxs n h1.1 hn1)
    have hrk : rank (g0.st n) ≤ N := H.rb _ hrn h2
    have hE := H.acc.pos
    have hbig := H.big
    have hoff := H.off
    have hkc := H.kc hrn hs.1
    rcases near_step H hr hv h (by simp) h1 h2 hs with a | ⟨e, c', e1, e2, e3, e4, e5⟩
    · exact .inl a
    have hk := hb n ((ha.2 n).2 ⟨h1.1, Or.inl h1⟩)
    have hke := (kidLoop_spec (P := P) (m := m) g (g0.kids n)
      (if (g0.kids n).isEmpty then (if n = 1 then 0 else P.best0 m.sense) else P.best0 m.sense)).2.2 e ((h.kids n e).2 ⟨e1, e2⟩)
    rw [← hk, he, ho] at hke
    have z1 : sl E (N + 1 - rank (g0.st n)) = sl E (N - rank (g0.st n)) + E := by
      have : N + 1 - rank (g0.st n) = (N - rank (g0.st n)) + 1 := by omega
      rw [this]; rfl
    have z2 := sl_nonneg hE (N - rank (g0.st n))
    have z3 : sl E (N - rank (g0.st n)) + E ≤ sl E (N + 2) := by
      have := sl_mono hE (show N + 1 - rank (g0.st n) ≤ N + 2 by omega)
      omega
    have z4 := sl_nonneg hE (N + 2)
    rcases e5 with ⟨b1, b2, b3⟩ | ⟨b1, b2, b3⟩
    · right
      have hk1 : g0.kids 1 = [] := by
        rw [List.eq_nil_iff_forall_not_mem]
        intro e' he'
        obtain ⟨a, b⟩ := (h.kids 1 e').1 he'
        have := (h.esrc e' a).2.1
        rw [b, h.st1, H.lay.sink] at this; simp at this
      have hb1 : g.bb 1 = 0 := by
        have := hb 1 ((ha.2 1).2 ⟨by have := h.two; omega, Or.inr (Or.inl rfl)⟩)
        rw [hk1] at this; simpa [kidLoop] using this
      rw [b2, Sense.k_zero] at e4
      rw [b1, hb1] at hke
      have := H.acc.k m.sense (a := 0) (b := g0.eo e) (x := m.sense.k c - m.sense.k (g0.eo e)) (by rw [Sense.k_zero]; omega) (Int.le_refl _)
        (by omega) (by omega)
      omega
    · rcases ih (g0.ed e) c' (h.toStr.ed_lv e1) b1 (fun i a b => by have := h3 i a b; omega) b3 with x | x
      · exact .inl x
      · right
        rw [b2] at x
        have : N + 1 - (rank (g0.st n) + 1) = N - rank (g0.st n) := by omega
        rw [this] at x
        have := H.acc.k m.sense (a := g.bb (g0.ed e)) (b := g0.eo e)
          (x := m.sense.k c - m.sense.k (g0.eo e) - sl E (N - rank (g0.st n))) (by omega) (Int.le_refl _) (by omega) (by omega)
        omega

/-- Coverage by the cut set. -/
theorem near_cut {g0 g : G σ} {d p : Nat} (h : Inv Vl P m rank r prim true g0 d [] [] p [])
    (f3 : g.kids = g0.kids) (f5 : g.ed = g0.ed) (f11 : g.trg = g0.trg) {V cs : List Nat} (hlv : ∀ x, x ∈ V → Lv g0 x) (hci : CI g V [] V cs) :
    ∀ (K n : Nat) (c : Int), n ∈ V → m.eqs (g0.st n) = false → (∀ i, Lv g0 i → m.eqs (g0.st i) = false →
      rank (g0.st i) < rank (g0.st n) + K) → Sup Vl m rank E v (g0.st n) (g0.bound n) c →
      Met m N E D v prim ∨
      (∃ k c', k ∈ cs ∧ Sup Vl m rank E v (g0.st k) (g0.bound k) c') ∨
      (∃ e, e ∈ g0.par 1 ∧ g0.es e ∈ V ∧ allKidsExact g (g0.es e) = true ∧ Met m N E D v (P.add (g0.bound (g0.es e)) (g0.eo e))) := by
  intro K
  induction K with
  | zero =>
    intro n c h1 h2 h3
    have := h3 n (hlv n h1) h2; omega
  | succ K ih =>
    intro n c hnV h2 h3 hs
    by_cases ha : allKidsExact g n = true
    case neg =>
      have ha : allKidsExact g n = false := by simpa using ha
      exact Or.inr (Or.inl ⟨n, c, (hci.csm n).2 ⟨hnV, ha⟩, hs⟩)
    rcases near_step H hr hv h (by simp) (hlv n hnV) h2 hs with a | ⟨e, c', e1, e2, e3, e4, ⟨b1, b2, b3⟩ | ⟨b1, b2, b3⟩⟩
    · exact .inl a
    · exact .inr (.inr ⟨e, (h.par 1 e).2 ⟨e1, b1⟩, by rw [e2]; exact hnV, by rw [e2]; exact ha, b3⟩)
    · have hne1 : g0.ed e ≠ 1 := by
        intro hh; rw [hh, h.st1, H.lay.sink] at b1; simp at b1
      have hkV : g0.ed e ∈ V := by
        have := hci.kid n hnV ha e (by rw [f3]; exact (h.kids n e).2 ⟨e1, e2⟩) (by rw [f5, f11, h.trg]; exact hne1)
        rw [f5] at this; exact this
      exact ih (g0.ed e) c' hkV b1 (fun i a b => by have := h3 i a b; omega) b3

/-- What the search needs to know of the cut set of a relaxed diagram. -/
theorem near_facts (L : LayV Vl P m rank r.st r.bound) {w f : Nat} {g : G σ} (h : Fl.relaxed P m prim w f r = some g) :
    ∃ cs, cutSet g = some cs ∧
      (∀ k, k ∈ cs → ∀ c, Sup Vl m rank E v (g.st k) (g.bound k) c →
        Met m N E D v prim ∨ Met m N E D v (P.add (g.bound k) (g.bb k))) ∧
      (∀ c, Sup Vl m rank E v r.st r.bound c → Met m N E D v prim ∨
        (∃ k c', k ∈ cs ∧ Sup Vl m rank E v (g.st k) (g.bound k) c') ∨
        ∃ e, e ∈ g.par g.trg ∧ g.ex (g.es e) = true ∧ g.es e ∉ cs ∧ Met m N E D v (P.add (g.bound (g.es e)) (g.eo e))) := by
  obtain ⟨g0, d, p, bd, lb, b, hi, ha, hg, _, _, hb⟩ := relaxed_shape L h
  obtain ⟨V, cs, h1, hci⟩ := cutSet_spec (g := g) (by
    rw [hg]
    intro i e he
    obtain ⟨a, c⟩ := (hi.kids i e).1 he
    exact ⟨c, (hi.edge e a).2⟩) (by rw [hg]; dsimp only; rw [hi.root]; have := hi.two; omega) (by rw [hg]; dsimp only; rw [hi.root]; exact hi.ex0)
  have f3 : g.kids = g0.kids := by rw [hg]
  have f5 : g.ed = g0.ed := by rw [hg]
  have f6 : g.eo = g0.eo := by rw [hg]
  have f7 : g.es = g0.es := by rw [hg]
  have f8 : g.st = g0.st := by rw [hg]
  have f10 : g.root = g0.root := by rw [hg]
  have f11 : g.trg = g0.trg := by rw [hg]
  have fbb : g.bb = b := by rw [hg]
  have fbd : ∀ i, i ≠ 1 → g.bound i = g0.bound i := by intro i hh; rw [hg]; exact upd_ne _ _ hh
  have hlv : ∀ x, x ∈ V → Lv g0 x ∧ x ≠ 1 := by
    intro x hx
    rcases hci.lv x hx with a | ⟨e, e1, e2, e3, e4⟩
    · rw [f10, hi.root] at a; subst a
      exact ⟨⟨by have := hi.two; omega, Or.inl rfl⟩, by omega⟩
    · rw [f3] at e1
      obtain ⟨a, _⟩ := (hi.kids _ e).1 e1
      have := hi.toStr.ed_lv a
      rw [f5] at e3
      rw [f11, hi.trg] at e4
      rw [e3] at this
      exact ⟨this, e4⟩
  refine ⟨cs, h1, ?_, ?_⟩
  · intro k hk c hs
    obtain ⟨kV, hka⟩ := (hci.csm k).1 hk
    obtain ⟨l1, l2⟩ := hlv k kV
    have hq : m.eqs (g0.st k) = false := by
      unfold allKidsExact at hka
      rw [f3] at hka
      cases hkk : g0.kids k with
      | nil => rw [hkk] at hka; simp at hka
      | cons e l =>
        have : e ∈ g0.kids k := by rw [hkk]; simp
        obtain ⟨e1, e2⟩ := (hi.kids k e).1 this
        rw [← e2]
        exact (hi.esrc e e1).2.1
    rw [f8, fbd k l2] at hs
    rw [fbd k l2]
    have hrn : Rch m rank m.sti (g0.st k) := hr.trans (hi.rxs k l1.1 l2)
    have hrk : rank (g0.st k) ≤ N := H.rb _ hrn hq
    have hkc := H.kc hrn hs.1
    rcases near_back H hr hv hi ha f5 f6 (by rw [fbb]; exact hb) _ k c l1 hq (ranks_lt hi k) hs with x | x
    · exact .inl x
    · right
      have hbig := H.big
      have hoff := H.off
      have hE := H.acc.pos
      have hvv := hv
      unfold Sized at hvv
      have z : sl E (rank (g0.st k)) + sl E (N + 1 - rank (g0.st k)) = sl E (N + 1) := by
        rw [← sl_add]; congr 1; omega
      have z2 : sl E (N + 2) = sl E (N + 1) + E := rfl
      have z3 := sl_nonneg hE (N + 1)
      have := H.acc.k m.sense hs.2 x (by omega) (by omega)
      unfold Met
      omega
  · intro c hs
    have h0 : 0 ∈ V := by have := hci.root; rw [f10, hi.root] at this; exact this
    rcases near_cut H hr hv hi f3 f5 f11 (fun x hx => (hlv x hx).1) hci _ 0 c h0 (by rw [hi.st0]; exact L.src) (ranks_lt hi 0)
        (by rw [hi.st0, hi.b0]; exact hs) with x | ⟨k, c', k1, k2⟩ | ⟨e, e1, e2, e3, e4⟩
    · exact .inl x
    · refine .inr (.inl ⟨k, c', k1, ?_⟩)
      rw [f8, fbd k (hlv k ((hci.csm k).1 k1).1).2]
      exact k2
    · refine .inr (.inr ⟨e, ?_, ?_, ?_, ?_⟩)
      · rw [f11, hi.trg]
        have : g.par = g0.par := by rw [hg]
        rw [this]; exact e1
      · rw [f7]; exact hci.ex _ e2
      · rw [f7]
        intro hh
        have := ((hci.csm _).1 hh).2
        rw [e3] at this; cases this
      · rw [f7, f6, fbd _ (hlv _ e2).2]; exact e4

end Verif.Fl
