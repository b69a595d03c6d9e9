import Verif.Props.KnapsackS
import Verif.Props.KnapRead
import Verif.Props.ReadEdge
import Verif.Fl.Near
import Verif.Fl.Same
/-!
# C146: how far off knapsack2 is in doubles
-/
namespace Verif.BB
open Verif.DD
set_option linter.unusedSectionVars false
variable {σ : Type} {m : Mdl σ} {rank : σ → Nat} {Vl : σ → Int → Prop} [Same σ]

/-- If the relaxed diagram of the root is exact and its value at most `D` below every completion that is more than `D` better than the
initial bound, so is the answer.  The rule by which pool nodes replace one another is not used. -/
theorem search_exact_near {D : Int} (hD : 0 ≤ D) (hq : m.eqs m.sti = false) (hU : Uniq m m.sti) {p0 : Int}
    (hL : ∀ f, m.loc = some f → ∀ c, Vl m.sti c → m.sense.k c - D ≤ m.sense.k (f m.sti .bb))
    (hW : m.loc = none → ∀ c, Vl m.sti c → m.sense.k c ≤ m.sense.k m.sense.worst0)
    {w dfuel fuel : Nat} (hX : ∀ r g, r.st = m.sti → r.bound = 0 → relaxed m p0 w dfuel r = some g →
      g.exact = true ∧ ∀ c, Vl m.sti c → m.sense.k c - D ≤ m.sense.k p0 ∨ m.sense.k c - D ≤ m.sense.k (g.bound g.trg))
    {lim : Nat → Bool} {s : BS σ} (h : search m w dfuel lim fuel p0 = some s) (hns : s.stopped = false) :
    ∀ c, Vl m.sti c → m.sense.k c - D ≤ m.sense.k s.primal := by
  obtain ⟨h1, h2, h3, h4, h5, _⟩ := init_inv hq hU w p0
  have hne : Heap.empty (init m w p0).pq = false := by simp [Heap.empty, h3]
  obtain ⟨a1, a2, a3, a4, _⟩ := h1.extract hne
  have hem : Heap.empty (Heap.extractMax (qord m) (init m w p0).pq).1 = true := by
    simp [Heap.empty]; omega
  obtain ⟨k0, hkey⟩ := h5 _ _ a3
  have hpr : (init m w p0).primal = p0 := rfl
  unfold search searchP searchT at h
  cases fuel with
  | zero => simp [loopP] at h
  | succ f =>
  unfold loopP at h
  rw [hne] at h
  dsimp only at h
  simp only [Bool.false_eq_true, if_false] at h
  by_cases hl : lim 0 = true
  · rw [if_pos hl] at h
    simp at h; subst h; simp at hns
  rw [if_neg hl] at h
  have last : ∀ (s2 : BS σ) k, loopP m (fun _ _ => m) (fun _ _ => m.loc) w dfuel lim f k s2 = some s → Heap.empty s2.pq = true → s = s2 := by
    intro s2 k hh he
    cases f with
    | zero => simp [loopP] at hh
    | succ f => unfold loopP at hh; rw [if_pos he] at hh; simpa using hh.symm
  by_cases hb : m.sense.better (Heap.extractMax (qord m) (init m w p0).pq).2.2 (init m w p0).primal = true
  · rw [if_pos hb] at h
    simp only [Option.bind_eq_some_iff] at h
    obtain ⟨s2, h6, h7⟩ := h
    rw [k0] at h6
    unfold expandP at h6
    simp only [Option.bind_eq_some_iff] at h6
    obtain ⟨g, hg, h6⟩ := h6
    obtain ⟨hx, hd⟩ := hX _ _ rfl rfl hg
    by_cases hbt : m.sense.better (g.bound g.trg) (init m w p0).primal = true
    · rw [if_pos hbt, if_pos hx] at h6
      have hp1 := setPrimal_primal (m := m) (s := { init m w p0 with pq := (Heap.extractMax (qord m) (init m w p0).pq).1 }) (lb := g.lab g.trg) hbt
      have hq1 : (setPrimal m { init m w p0 with pq := (Heap.extractMax (qord m) (init m w p0).pq).1 } (g.bound g.trg) (g.lab g.trg)).pq =
        (Heap.extractMax (qord m) (init m w p0).pq).1 := rfl
      generalize setPrimal m { init m w p0 with pq := (Heap.extractMax (qord m) (init m w p0).pq).1 } (g.bound g.trg) (g.lab g.trg) = s1 at h6 hp1 hq1
      simp only [Option.bind_eq_some_iff] at h6
      obtain ⟨r, hr, h6⟩ := h6
      rw [if_neg (by simp [hx])] at h6
      simp only [Option.some.injEq] at h6
      have hs2 : m.sense.k (g.bound g.trg) ≤ m.sense.k s2.primal ∧ Heap.empty s2.pq = true := by
        rw [← h6]
        split
        · rename_i hbr
          constructor
          · rw [setPrimal_primal hbr]
            rw [hp1] at hbr
            rw [Sense.better_iff] at hbr; omega
          · show Heap.empty s1.pq = true
            rw [hq1]; exact hem
        · rw [hp1, hq1]
          exact ⟨Int.le_refl _, hem⟩
      have := last s2 _ h7 hs2.2
      subst this
      intro c hc
      have hbt' : m.sense.better (g.bound g.trg) p0 = true := hbt
      rw [Sense.better_iff] at hbt'
      rcases hd c hc with y | y <;> omega
    · rw [if_neg hbt] at h6
      simp only [Option.some.injEq] at h6
      subst h6
      have := last _ _ h7 hem
      subst this
      intro c hc
      show m.sense.k c - D ≤ m.sense.k p0
      have hbt' : m.sense.better (g.bound g.trg) p0 = false := by rw [← hpr]; simpa using hbt
      rw [Sense.better_false] at hbt'
      rcases hd c hc with y | y <;> omega
  · rw [if_neg hb] at h
    have := last _ _ h hem
    subst this
    intro c hc
    have hk : m.sense.k c - D ≤ m.sense.k (Heap.extractMax (qord m) (init m w p0).pq).2.2 := by
      rw [hkey]
      cases hl : m.loc with
      | none => have := hW hl c hc; show _ ≤ m.sense.k m.sense.worst0; omega
      | some f => exact hL f hl c hc
    show m.sense.k c - D ≤ m.sense.k p0
    have hb' : m.sense.better (Heap.extractMax (qord m) (init m w p0).pq).2.2 p0 = false := by
      rw [Bool.not_eq_true] at hb; exact hb
    rw [Sense.better_false] at hb'; omega

end Verif.BB

namespace Verif.Ex
open Verif.DD
open Verif.IO (Numerals after)

/-- In doubles the share of the break item is at most 1 below its value over the rationals. -/
theorem floorF_near {rc w p : Int} (h0 : 0 ≤ rc) (h1 : rc < w) (hw : w ≤ 2 ^ 31) (hp0 : 0 ≤ p) (hp : p < 2 ^ 31) : floorQ rc w p ≤ floorF rc w p + 1 := by
  by_cases hz : rc ≤ 0 ∨ p ≤ 0
  · have hm : rc * p = 0 := by
      rcases hz with h | h
      · rw [show rc = 0 by omega, Int.zero_mul]
      · rw [show p = 0 by omega, Int.mul_zero]
    unfold floorQ floorF
    rw [if_pos hz, hm, Int.zero_ediv]
    decide
  obtain ⟨a, rfl⟩ := Int.eq_ofNat_of_zero_le h0
  obtain ⟨b, rfl⟩ := Int.eq_ofNat_of_zero_le (show 0 ≤ w by omega)
  obtain ⟨q, rfl⟩ := Int.eq_ofNat_of_zero_le hp0
  have ha : 0 < a := by omega
  have hab : a < b := by omega
  have hq : q < 2 ^ 31 := by omega
  have hb : b ≤ 2 ^ 31 := by omega
  unfold floorQ floorF
  rw [if_neg hz]
  dsimp only [Int.toNat_natCast]
  obtain ⟨f1, f2, f3⟩ := fdiv_spec (b := b) ha (by omega) (show a < 2 ^ 53 by omega)
  generalize hm : (fdiv a b).1 = m at f1 f2 f3
  generalize hk : (fdiv a b).2 = k at f1 f2 f3
  have hk52 : 2 ^ 52 < 2 ^ k := by
    have : 2 ^ 52 * b < 2 ^ k * b :=
      Nat.lt_of_le_of_lt f3 (by rw [Nat.mul_comm]; exact Nat.mul_lt_mul_of_pos_left hab (Nat.pow_pos (by decide)))
    exact Nat.lt_of_mul_lt_mul_right this
  have hmk : m ≤ 2 ^ k := by
    have h3 : a * 2 ^ k ≤ (b - 1) * 2 ^ k := Nat.mul_le_mul_right _ (by omega)
    rw [Nat.sub_mul, Nat.one_mul] at h3
    have h4 : 1 * 2 ^ k ≤ b * 2 ^ k := Nat.mul_le_mul_right _ (by omega)
    have h5 : m * b < (2 ^ k + 1) * b := by
      rw [Nat.add_mul, Nat.one_mul, Nat.mul_comm (2 ^ k) b]; omega
    have := Nat.lt_of_mul_lt_mul_right h5
    omega
  obtain ⟨s, r1, _, r3, _, _, _, r6⟩ := rnd53_near (m * q) k
  rw [r1]
  generalize (rnd53 (m * q) k).1 = x at r6
  have hs : 2 ^ s ≤ 2 ^ k := by
    by_cases hs0 : s = 0
    · rw [hs0]; exact Nat.pow_pos (by decide)
    · have h3 := r3 (by omega)
      have h4 : m * q ≤ 2 ^ k * 2 ^ 31 := Nat.mul_le_mul hmk (by omega)
      rw [Nat.pow_add] at h3
      have : (2 : Nat) ^ 52 = 2 ^ 31 * 2 ^ 21 := by decide
      have h5 : 2 ^ s * (2 ^ 31 * 2 ^ 21) ≤ 2 ^ k * 2 ^ 31 := by rw [← this, Nat.mul_comm]; omega
      omega
  have hsk : s ≤ k := (Nat.pow_le_pow_iff_right (by decide)).1 hs
  have key : (a * q / b) * b ≤ a * q := Nat.div_mul_le_self _ _
  rw [show (a : Int) * q / b = ((a * q / b : Nat) : Int) by simp]
  generalize a * q / b = Q at key ⊢
  have h6 : Q * b * 2 ^ k ≤ a * q * 2 ^ k := Nat.mul_le_mul_right _ key
  have h7 : 2 * (a * 2 ^ k) * q ≤ (2 * (m * b) + b) * q := Nat.mul_le_mul_right _ f2
  have h8 : (2 * (Q * 2 ^ k)) * b ≤ (2 * (m * q) + q) * b := by
    have e1 : (2 * (Q * 2 ^ k)) * b = 2 * (Q * b * 2 ^ k) := by ac_rfl
    have e2 : 2 * (a * 2 ^ k) * q = 2 * (a * q * 2 ^ k) := by ac_rfl
    have e3 : (2 * (m * b) + b) * q = (2 * (m * q) + q) * b := by rw [Nat.add_mul, Nat.add_mul]; congr 1 <;> ac_rfl
    omega
  have h9 : 2 * (Q * 2 ^ k) ≤ 2 * (m * q) + q := Nat.le_of_mul_le_mul_right h8 (by omega)
  have h10 : Q * 2 ^ k ≤ x * 2 ^ s + 2 ^ k := by omega
  have e4 : 2 ^ k = 2 ^ (k - s) * 2 ^ s := by rw [← Nat.pow_add, Nat.sub_add_cancel hsk]
  have h11 : Q * 2 ^ (k - s) ≤ x + 2 ^ (k - s) := by
    rw [e4, ← Nat.mul_assoc, ← Nat.add_mul] at h10
    exact Nat.le_of_mul_le_mul_right h10 (Nat.pow_pos (by decide))
  have h12 : Q ≤ x / 2 ^ (k - s) + 1 := by
    have : Q ≤ (x + 2 ^ (k - s)) / 2 ^ (k - s) := (Nat.le_div_iff_mul_le (Nat.pow_pos (by decide))).2 h11
    rwa [Nat.add_div_right _ (Nat.pow_pos (by decide))] at this
  omega

/-- The local bound in doubles is at most 1 below the one over the rationals: the rounded term is added once. -/
theorem locL_near (k : Knap) (hw : ∀ i, k.w i ≤ 2 ^ 31) (hp0 : ∀ i, 0 ≤ k.p i) (hp : ∀ i, k.p i < 2 ^ 31) :
    ∀ (d i : Nat) (rc : Int), 0 ≤ rc → k.locL floorQ d i rc ≤ k.locL floorF d i rc + 1
  | 0, _, _, _ => by simp [Knap.locL]
  | d + 1, i, rc, h => by
    rw [Knap.locL, Knap.locL]
    by_cases hc : k.w i ≤ rc
    · rw [if_pos hc, if_pos hc]
      have := locL_near k hw hp0 hp d (i + 1) (rc - k.w i) (by omega)
      omega
    · rw [if_neg hc, if_neg hc]
      exact floorF_near h (by omega) (hw i) (hp0 i) (hp i)

/-- C146: what is left of the local bound's promise (C71) in doubles: no filling of the rest gains more than 1 above it. -/
theorem local2_near (k : Knap) (hs : k.Sorted) (hw : ∀ i, k.w i ≤ 2 ^ 31) (hp : ∀ i, k.p i < 2 ^ 31) {n : Nat} {c : Int} (hc : 0 ≤ c)
    {xs : List Int} (hlen : n + xs.length = k.I) (h01 : ∀ x, x ∈ xs → x = 0 ∨ x = 1) (hl : k.load n xs ≤ c) :
    k.gain n xs ≤ k.loc2 floorF (n, c) + 1 := by
  have h1 := local2_partial k hs (fl := floorQ) (fun _ _ _ _ _ _ => Int.le_refl _) hc hlen h01 hl
  have h2 := locL_near k hw hs.p hp (k.I - n) n c hc
  unfold Knap.loc2 at h1 ⊢
  dsimp only at h1 ⊢
  omega

theorem Knap.sumP_add (k : Knap) : ∀ (a b n : Nat), k.sumP (a + b) n = k.sumP a n + k.sumP b (n + a)
  | 0, b, n => by simp [Knap.sumP]
  | a + 1, b, n => by
    rw [show a + 1 + b = (a + b) + 1 by omega]
    show k.p n + k.sumP (a + b) (n + 1) = k.p n + k.sumP a (n + 1) + _
    rw [k.sumP_add a b (n + 1), show n + 1 + a = n + (a + 1) by omega]
    omega

theorem Knap.sumP_nonneg (k : Knap) (hp : ∀ i, 0 ≤ k.p i) : ∀ (d n : Nat), 0 ≤ k.sumP d n
  | 0, _ => Int.le_refl _
  | d + 1, n => by
    have := k.sumP_nonneg hp d (n + 1)
    have := hp n
    show 0 ≤ k.p n + k.sumP d (n + 1)
    omega

theorem Knap.gain_nonneg (k : Knap) (hp : ∀ i, 0 ≤ k.p i) : ∀ (xs : List Int) (n : Nat), (∀ x, x ∈ xs → x = 0 ∨ x = 1) → 0 ≤ k.gain n xs
  | [], _, _ => Int.le_refl _
  | x :: xs, n, h => by
    have := k.gain_nonneg hp xs (n + 1) (fun y hy => h y (by simp [hy]))
    have := hp n
    simp only [Knap.gain]
    rcases h x (by simp) with rfl | rfl <;> omega

theorem Knap.nr (k : Knap) (hs : k.Sorted) (hI : 0 < k.I) (hc : 0 ≤ k.capa) (hw : ∀ i, k.w i ≤ 2 ^ 31) (hp : ∀ i, k.p i < 2 ^ 31) :
    Fl.Nr (Val (k.mdl2 floorF)) Fl.exact (k.mdl2 floorF) k.rank k.I 0 (k.sumP k.I 0) 1 (2 * k.sumP k.I 0 + 1) := by
  have hN := k.layeredN hs.p floorF (s0 := (k.mdl2 floorF).sti) hI hc (Int.le_refl 0)
  have rx : ∀ {s}, Fl.Rch (k.mdl2 floorF) k.rank (k.mdl2 floorF).sti s → s.1 < k.I ∧ 0 ≤ s.2 ∨ s = (k.I, 0) := by
    intro s h
    obtain ⟨v, hv⟩ := Fl.rch_relx 0 h
    exact (k.relx2 floorF hs.p hI hc hv).1
  have ro : ∀ {s}, Fl.Rch (k.mdl2 floorF) k.rank (k.mdl2 floorF).sti s → (k.mdl2 floorF).eqs s = false → s.1 < k.I ∧ 0 ≤ s.2 := by
    intro s h hq
    rcases rx h with x | x
    · exact x
    · rw [x] at hq; simp [Knap.mdl2] at hq
  have hL : Fl.Lay Fl.exact (k.mdl2 floorF) k.rank (k.mdl2 floorF).sti 0 := Fl.lay_of_layered hN (by
    intro ls s v hr
    have hrun : ∀ {s ls t v w}, Fl.Run Fl.exact (k.mdl2 floorF) s v ls t w → Relx (k.mdl2 floorF) k.rank (k.mdl2 floorF).sti 0 s v →
        Relx (k.mdl2 floorF) k.rank (k.mdl2 floorF).sti 0 t w := by
      intro s ls t v w h
      induction h with
      | nil => exact id
      | cons h1 _ ih => exact fun h2 => ih (h2.step h1)
    exact hN.range s v (hrun hr .root))
  have vals : ∀ {s c}, Fl.Rch (k.mdl2 floorF) k.rank (k.mdl2 floorF).sti s → Val (k.mdl2 floorF) s c →
      0 ≤ c ∧ c ≤ k.sumP k.I 0 ∧ c - 1 ≤ k.loc2 floorF s := by
    rintro s c hr ⟨ls, hpth⟩
    have hnn := k.sumP_nonneg hs.p k.I 0
    rcases rx hr with ⟨h1, h2⟩ | h1
    · obtain ⟨p1, p2, p3, p4⟩ := (k.path_iff (fun i => Int.le_of_lt (hs.w i)) (k.I - s.1) s.1 s.2 ls c (by omega) h1 h2).1 ((k.path2_iff floorF).1 hpth)
      subst p4
      have g1 := k.gain_nonneg hs.p ls s.1 p2
      have g2 := k.gain_le_sum hs.p ls s.1 p2
      have g3 := k.sumP_add s.1 ls.length 0
      have g4 := k.sumP_nonneg hs.p s.1 0
      rw [show s.1 + ls.length = k.I by omega, Nat.zero_add] at g3
      have g5 := local2_near k hs hw hp h2 (n := s.1) (xs := ls) (by omega) p2 p3
      exact ⟨g1, by omega, by show _ ≤ k.loc2 floorF (s.1, s.2); omega⟩
    · obtain ⟨_, h2, _⟩ := hpth.of_terminal (by rw [h1]; simp [Knap.mdl2])
      rw [h1, h2]
      refine ⟨Int.le_refl _, hnn, ?_⟩
      simp [Knap.loc2, Knap.locL]
  exact {
    lay := { hL with
      mcov := fun a b c ha hb qa qb hr hm => by
        have la := ro ha qa
        have hr : a.1 = b.1 := hr
        simp only [Knap.mdl2] at hm
        split at hm
        · simp at hm
          have h1 : c = (a.1, max a.2 b.2) := by rw [← hm, hr]; simp
          have h2 : c = (b.1, max a.2 b.2) := by rw [h1, hr]
          constructor
          · rw [h1]; exact k.cover2 floorF (by omega) la.1
          · rw [h2]; exact k.cover2 floorF (by omega) (by omega)
        · simp at hm
      dcov := fun f hf a b ha hb qa hr hd => by
        simp only [Knap.mdl2, Option.some.injEq] at hf
        subst hf
        simp only [decide_eq_true_iff] at hd
        have la := ro ha qa
        rcases hr with ⟨h1, h2⟩ | ⟨p, l, h1, h2, h3, h4⟩
        · have h2 : a.1 = b.1 := h2
          have := k.cover2 floorF (n := a.1) (c := b.2) (c' := a.2) hd la.1
          have e : (a.1, b.2) = b := by rw [h2]
          rwa [e] at this
        · exfalso
          have h4 : a.1 = p.1 + 1 := h4
          have lp := (ro h1 h2.1).1
          rcases k.step_ok lp ((k.step2_iff floorF).1 h2) with ⟨_, x⟩ | ⟨_, x, _⟩
          · omega
          · simp [Knap.mdl2] at h3; omega
      lcov := fun a b _ _ h => by
        obtain rfl := (same_iff _ _).1 h
        exact fun v hv => ⟨v, hv, by rw [Sense.betterEQ_iff]; omega⟩ }
    ends := val_closed _
    loc := fun f hf s x c hr hv => by
      simp only [Knap.mdl2, Option.some.injEq] at hf
      subst hf
      exact (vals hr hv).2.2
    rb := fun s hr hq => Nat.le_of_lt (ro hr hq).1
    acc := ⟨Int.le_refl _, fun a b c d h1 h2 => by show a + c ≤ b + d; omega, fun a b _ _ => ⟨by show a + b - 0 ≤ a + b; omega, by show a + b ≤ a + b + 0; omega⟩⟩
    size := fun s c hr hv => by
      have := vals hr hv
      omega
    off := by decide
    big := by
      have : Fl.sl 0 (k.I + 2) = 0 := by rw [Fl.sl_mul]; simp
      omega }

/-- C146: knapsack2 as compiled, with its local bound in doubles, for weights and profits of an `int` and a width above the capacity: the
search ends with a profit at most 1 below the best, and its incumbent, if it found one, is a packing of that profit. -/
theorem knap2_search_near (k : Knap) (hs : k.Sorted) (hI : 0 < k.I) (hc : 0 ≤ k.capa) (hw : ∀ i, k.w i ≤ 2 ^ 31) (hp : ∀ i, k.p i < 2 ^ 31)
    {u : Int} (hu : k.getUB = some u) {w dfuel fuel : Nat} (hR : k.capa < w) {lim : Nat → Bool} {s : BB.BS (Nat × Int)}
    (h : BB.search (k.mdl2 floorF) w dfuel lim fuel u = some s) (hns : s.stopped = false) :
    (∀ xs c, k.Packing xs c → c ≤ s.primal + 1) ∧ (s.sols ≠ [] → k.Packing s.inc s.primal) := by
  have hw0 : ∀ i, 0 ≤ k.w i := fun i => Int.le_of_lt (hs.w i)
  have H := k.nr hs hI hc hw hp
  have hN := k.layeredN hs.p floorF (s0 := (k.mdl2 floorF).sti) hI hc (Int.le_refl 0)
  refine ⟨fun xs c hx => ?_, (knap2_search_sound k hw0 hs.p hI hc floorF hu h).2⟩
  have hv : Val (k.mdl2 floorF) (k.mdl2 floorF).sti c := ⟨xs, (k.sol2_iff floorF hw0 hI hc _ _).2 hx⟩
  have hL0 : ∀ f, (k.mdl2 floorF).loc = some f → ∀ c, Val (k.mdl2 floorF) (k.mdl2 floorF).sti c →
      (k.mdl2 floorF).sense.k c - 1 ≤ (k.mdl2 floorF).sense.k (f (k.mdl2 floorF).sti .bb) := fun f hf c hv => H.loc f hf _ _ _ .root hv
  have := BB.search_exact_near (Vl := Val (k.mdl2 floorF)) (D := 1) (by decide) hN.src hN.fair.toUniq hL0 (fun hl => by simp [Knap.mdl2] at hl)
    (fun r g h1 h2 hg => by
      have hr : LayeredV (fun _ _ => False) (k.mdl2 floorF) k.rank r.st r.bound := by rw [h1, h2]; exact hN
      refine ⟨relaxed_room hr (by rw [h1]; exact k.room2 hw0 hI hc floorF hR) hg, fun c hv => ?_⟩
      have hz : Fl.sl 0 (k.I + 2) = 0 := by rw [Fl.sl_mul]; simp
      have hz1 : ∀ n, Fl.sl 0 n = 0 := by intro n; rw [Fl.sl_mul]; simp
      have hk := H.kc .root hv
      have := Fl.near_relaxed H (r := r) (v := c) (prim := u) (c := c) (by rw [h1]; exact .root) hk (by rw [h1, h2]; exact H.lay)
        (by rw [Fl.exact_relaxed]; exact hg) ⟨by rw [h1]; exact hv, by rw [h2, hz1, Sense.k_zero]; omega⟩
      unfold Fl.Met at this
      rw [hz] at this
      omega) h hns c hv
  simp only [Knap.mdl2, Sense.k] at this
  omega

theorem kf_small : (∀ i, kf.w i ≤ 2 ^ 31) ∧ ∀ i, kf.p i < 2 ^ 31 :=
  ⟨fun i => by simp only [kf]; match i with | 0 | 1 => decide | n + 2 => simp, fun i => by simp only [kf]; match i with | 0 | 1 => decide | n + 2 => simp⟩

/-- The instance of `local2_false`: the answer is 48, the best profit 49. -/
example : ∃ s, BB.search (kf.mdl2 floorF) 60 10 (fun _ => false) 30 48 = some s ∧ s.stopped = false ∧ s.primal = 48 ∧
    ∀ xs c, kf.Packing xs c → c ≤ 49 := by
  have hv : (BB.search (kf.mdl2 floorF) 60 10 (fun _ => false) 30 48).map (fun s => (s.stopped, s.primal)) = some (false, 48) := by decide +kernel
  obtain ⟨s, h1, h2⟩ := Option.map_eq_some_iff.1 hv
  simp at h2
  refine ⟨s, h1, h2.1, h2.2, fun xs c hx => ?_⟩
  have := (knap2_search_near kf kf_sorted (by decide) (by decide) kf_small.1 kf_small.2 (u := 48) (by decide +kernel) (by decide) h1 h2.1).1 xs c hx
  omega

/-- C146 from the file on: for a file whose last character is the last digit, with positive weights and with weights and profits below
2^26, the program sorts the items of the file, and a run with a width above the capacity ends at most 1 below every packing of them. -/
theorem knap2_program_near {t : List Char} {ws : List (List Char)} {capa : Int} {its : List Item} (ht : IO.words t = ws)
    (hn : Numerals ws (its.length :: capa :: flatItems its)) (hend : after ws.length t = []) (h0 : its ≠ []) (hc : 0 ≤ capa)
    (hb : ∀ x, x ∈ its → 0 < x.w ∧ x.w < 2 ^ 26 ∧ 0 ≤ x.p ∧ x.p < 2 ^ 26) {rfuel : Nat} (hf : its.length < rfuel) :
    ∃ srt : List Item, readKnap2 rfuel (IO.Strm.opened t) = .ok (its.length, capa, srt) ∧ srt.Perm its ∧
      ∀ {u : Int} {w dfuel fuel : Nat} {lim : Nat → Bool} {s : BB.BS (Nat × Int)}, (Knap.ofItems capa srt).getUB = some u → capa < w →
      BB.search ((Knap.ofItems capa srt).mdl2 floorF) w dfuel lim fuel u = some s → s.stopped = false →
      (∀ xs c, (Knap.ofItems capa srt).Packing xs c → c ≤ s.primal + 1) ∧ (s.sols ≠ [] → (Knap.ofItems capa srt).Packing s.inc s.primal) := by
  have hp := (sortItems_spec its).1
  refine ⟨sortItems its, knap2_reads_partial ht hn hend hf, hp, ?_⟩
  intro u w dfuel fuel lim s hu hR h hns
  have hg : ∀ i, ((sortItems its).getD i ⟨1, 0⟩).w < 2 ^ 26 ∧ ((sortItems its).getD i ⟨1, 0⟩).p < 2 ^ 26 := by
    intro i
    rw [List.getD_eq_getElem?_getD]
    by_cases hi : i < (sortItems its).length
    · rw [List.getElem?_eq_getElem hi]
      have := hb _ (hp.mem_iff.1 (List.getElem_mem hi))
      exact ⟨this.2.1, this.2.2.2⟩
    · rw [List.getElem?_eq_none (by omega)]; decide
  refine knap2_search_near (Knap.ofItems capa (sortItems its)) (knap2_sorted_partial capa its hb) ?_ hc ?_ ?_ hu hR h hns
  · show 0 < (sortItems its).length
    rw [hp.length_eq]
    exact List.length_pos_iff.2 h0
  · intro i
    have : (Knap.ofItems capa (sortItems its)).w i < 2 ^ 26 := (hg i).1
    omega
  · intro i
    have : (Knap.ofItems capa (sortItems its)).p i < 2 ^ 26 := (hg i).2
    omega

/-- The file of three items without its last row; the best packing of its items brings 9+7. -/
example : ∃ srt : List Item, readKnap2 10 (IO.Strm.opened (kfile.take 18)) = .ok (3, 20, srt) ∧ srt.Perm [⟨11, 9⟩, ⟨8, 7⟩, ⟨12, 6⟩] := by
  obtain ⟨srt, h1, h2, _⟩ := knap2_program_near (t := kfile.take 18) (ws := [['3'], ['2', '0'], ['9'], ['1', '1'], ['7'], ['8'], ['6'], ['1', '2']])
    (capa := 20) (its := [⟨11, 9⟩, ⟨8, 7⟩, ⟨12, 6⟩]) (rfuel := 10) (by decide +kernel)
    ⟨⟨['3'], by decide, by decide, .inl ⟨rfl, by decide⟩⟩, by decide, by decide, ⟨['2', '0'], by decide, by decide, .inl ⟨rfl, by decide⟩⟩, by decide, by decide,
      ⟨['9'], by decide, by decide, .inl ⟨rfl, by decide⟩⟩, by decide, by decide, ⟨['1', '1'], by decide, by decide, .inl ⟨rfl, by decide⟩⟩, by decide, by decide,
      ⟨['7'], by decide, by decide, .inl ⟨rfl, by decide⟩⟩, by decide, by decide, ⟨['8'], by decide, by decide, .inl ⟨rfl, by decide⟩⟩, by decide, by decide,
      ⟨['6'], by decide, by decide, .inl ⟨rfl, by decide⟩⟩, by decide, by decide, ⟨['1', '2'], by decide, by decide, .inl ⟨rfl, by decide⟩⟩, by decide, by decide, trivial⟩
    (by decide +kernel) (by decide) (by decide) (by decide) (by decide)
  exact ⟨srt, h1, h2⟩

end Verif.Ex
