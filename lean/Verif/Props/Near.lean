import Verif.Fl.NearSearch
import Verif.Props.Fl
/-!
# C138: how far from the optimum rounding can take the search

The machine's addition keeps order and is at most `E` away from the sum (`Acc`).  The specification speaks of exact
costs: `DD.Sol m ls c` says that the labels `ls` lead from the root to the sink at exact cost `c`.
-/
namespace Verif.Fl
open Verif.DD
open Verif.BB (BS Opn)
set_option linter.unusedSectionVars false
variable {σ : Type} {Vl : σ → Int → Prop} {P : Num} {m : Mdl σ} {rank : σ → Nat} [Same σ] {N : Nat} {E C D R : Int}

/-- C138 for the completions in `Vl`.  Missing, as in C03: the search must not drop the cut set's nodes for a bad reason (`okLoop`). -/
theorem search_nearV_partial (H : Nr Vl P m rank N E C D R) (hD : DR m rank) (hT : m.loc = none → C ≤ P.top) {p0 : Int}
    (hp0 : m.sense.betterEQ p0 (P.best0 m.sense) = true) {w dfuel fuel : Nat} {lim : Nat → Bool} {s : BS σ}
    (h : Fl.search P m w dfuel lim fuel p0 = some s) (hok : okLoop P m w dfuel lim fuel 0 (Fl.init P m w p0) = true)
    (hns : s.stopped = false) : ∀ v, Vl m.sti v → m.sense.k v - ((N + 2 : Nat) * E + D) ≤ m.sense.k s.primal := by
  intro v hv
  have hS : Sized m C v := H.kc .root hv
  obtain ⟨h1, h2, _, h4, h5, h6⟩ := init_inv (P := P) H.lay.src H.lay.refl w p0
  have hE := H.acc.pos
  have hK : KeyOK Vl m rank N E D v (Fl.init P m w p0) := by
    intro i key ho c hs
    obtain ⟨rfl, hk⟩ := h5 i key ho
    right
    rw [h1.root.1, h1.root.2] at hs
    have hoff := H.off
    have z0 := sl_nonneg hE (N + 2)
    have z1 := sl_mono hE (show rank m.sti ≤ N + 2 by have := H.rb _ .root H.lay.src; omega)
    unfold Met
    cases hl : m.loc with
    | none =>
      rw [hl] at hk
      dsimp only at hk
      have : m.sense.k key = P.top := by
        rw [hk]; unfold Num.worst0 Sense.k
        cases m.sense <;> simp
      have := hT hl
      have := hS.2
      omega
    | some f =>
      rw [hl] at hk
      dsimp only at hk
      have hf := H.loc f hl m.sti .bb c .root hs.1
      have hs2 := hs.2
      rw [Sense.k_zero] at hs2
      rw [hk]; omega
  have hH : HInv Vl m rank N E D v (Fl.init P m w p0) := by
    intro i hi c hs
    rw [h4] at hi
    have : i = 0 := by omega
    subst this
    obtain ⟨key, hkey⟩ := h6
    exact Or.inr ⟨0, key, c, hkey, Nat.le_refl _, hs⟩
  rcases loop_cov H hD hS hp0 fuel 0 _ _ h1 h2 hK hH hok h with x | x
  · rw [hns] at x; cases x
  · have := x hv
    unfold Met at this
    rw [sl_mul] at this
    omega

/-- What the machine makes of a whole solution. -/
theorem run_near (H : Nr (Val m) P m rank N E C D R) {ls : List Int} {w : Int} (h : Run P m m.sti 0 ls m.stt w) :
    ∃ c, DD.Sol m ls c ∧ (w - c) ≤ (N + 1 : Nat) * E ∧ (c - w) ≤ (N + 1 : Nat) * E := by
  have key : ∀ {s t : σ} {ls : List Int} {v w : Int}, Run P m s v ls t w → t = m.stt → Rch m rank m.sti s → ∀ (j : Nat) (u : Int),
      (m.eqs s = false → rank s = j) → (m.eqs s = true → j ≤ N + 1) → v - u ≤ sl E j → u - v ≤ sl E j →
      (∀ c, Val m s c → -C ≤ u + c ∧ u + c ≤ C) → ∃ c, Path m s ls c t ∧ w - (u + c) ≤ sl E (N + 1) ∧ (u + c) - w ≤ sl E (N + 1) := by
    intro s t ls v w h
    induction h with
    | nil s v =>
      intro ht hr j u hj hj' h1 h2 h3
      refine ⟨0, .nil _, ?_⟩
      have := sl_mono H.acc.pos (hj' (by rw [ht]; exact H.lay.sink))
      omega
    | @cons s s' t v w l ls hs hp ih =>
      intro ht hr j u hj hj' h1 h2 h3
      have hq : m.eqs s = false := hs.1
      have hj := hj hq
      have hrk := H.rb _ hr hq
      have hE := H.acc.pos
      have z0 := sl_nonneg hE j
      have z1 := sl_mono hE (show j + 1 ≤ N + 2 by omega)
      have z2 : sl E (j + 1) = sl E j + E := rfl
      have hbig := H.big
      have hoff := H.off
      obtain ⟨c, hc⟩ := hp.path
      subst ht
      have hval : Val m s (m.stc s l + c) := ⟨_, .cons hs hc⟩
      have hval' : Val m s' c := ⟨_, hc⟩
      have b1 := h3 _ hval
      have b2 := H.size s' c (hr.step hs) hval'
      have hn := H.acc.near v (m.stc s l) (by omega) (by omega)
      obtain ⟨c', p1, p2⟩ := ih rfl (hr.step hs) (j + 1) (u + m.stc s l) (by
          intro hq'
          rcases H.lay.step _ _ _ hr hs with x | x
          · rw [hq'] at x; cases x
          · omega) (by intro _; omega) (by omega) (by omega) (by
          intro c'' hc''
          obtain ⟨ls'', hc''⟩ := hc''
          have := h3 _ ⟨_, .cons hs hc''⟩
          omega)
      exact ⟨_, .cons hs p1, by omega⟩
  obtain ⟨c, c1, c2⟩ := key h rfl .root (rank m.sti) 0 (fun _ => rfl)
    (fun hq => by rw [H.lay.src] at hq; cases hq) (by have := sl_nonneg H.acc.pos (rank m.sti); omega) (by have := sl_nonneg H.acc.pos (rank m.sti); omega)
    (fun c hc => by have := H.size _ c .root hc; omega)
  rw [sl_mul] at c2
  exact ⟨c, c1, by omega⟩

/-- C138.  A search that runs to its end with rounded additions reports a value that no exact cost of a solution beats by more
than `(N+2)·E + D`, and a solution whose own exact cost is at most `(2N+3)·E + D` from the best.  `N` is the number of
layers, `E` the error of one addition, `D` what the local bound is off by.  Missing, as in C03: the search must not drop the cut
set's nodes for a bad reason (`okLoop`). -/
theorem search_near_partial (H : Nr (Val m) P m rank N E C D R) (hD : DR m rank) (hT : m.loc = none → C ≤ P.top) {p0 : Int}
    (hp0 : m.sense.betterEQ p0 (P.best0 m.sense) = true) {w dfuel fuel : Nat} {lim : Nat → Bool} {s : BS σ}
    (h : Fl.search P m w dfuel lim fuel p0 = some s) (hok : okLoop P m w dfuel lim fuel 0 (Fl.init P m w p0) = true)
    (hns : s.stopped = false) :
    (∀ ls v, DD.Sol m ls v → m.sense.k v - ((N + 2 : Nat) * E + D) ≤ m.sense.k s.primal) ∧
    (s.sols ≠ [] → ∃ c, DD.Sol m s.inc c ∧ ∀ ls v, DD.Sol m ls v → m.sense.k v - ((2 * N + 3 : Nat) * E + D) ≤ m.sense.k c) := by
  have h1 := search_nearV_partial H hD hT hp0 h hok hns
  refine ⟨fun ls v hv => h1 v ⟨ls, hv⟩, fun hne => ?_⟩
  obtain ⟨c, c1, c2, c3⟩ := run_near H ((search_sound H.lay.toLay hp0 h).2 hne)
  refine ⟨c, c1, fun ls v hv => ?_⟩
  have := h1 v ⟨ls, hv⟩
  have e : ((2 * N + 3 : Nat) : Int) * E = (N + 2 : Nat) * E + (N + 1 : Nat) * E := by
    rw [← Int.add_mul]; congr 1; omega
  rw [e]
  have hk : m.sense.k s.primal - m.sense.k c ≤ (N + 1 : Nat) * E := by
    cases m.sense with
    | max => exact c2
    | min => show -s.primal - -c ≤ _; omega
  omega

/-! ### When nothing can be dropped -/

theorem okLoop_empty {w dfuel : Nat} {lim : Nat → Bool} {f k : Nat} {s : BS σ} (h : Heap.empty s.pq = true) :
    okLoop P m w dfuel lim f k s = true := by
  cases f with
  | zero => rfl
  | succ f => unfold okLoop; rw [if_pos h]

/-- If the relaxed diagram of the root is exact, nothing is ever queued again. -/
theorem okLoop_exact (H : Lay P m rank m.sti 0) {w dfuel fuel : Nat} {lim : Nat → Bool} {p0 : Int}
    (hx : ∀ g, Fl.relaxed P m p0 w dfuel ((Fl.init P m w p0).src 0) = some g → g.exact = true) :
    okLoop P m w dfuel lim fuel 0 (Fl.init P m w p0) = true := by
  obtain ⟨h1, _, h3, _, h5, _⟩ := init_inv (P := P) H.src H.refl w p0
  cases fuel with
  | zero => rfl
  | succ f =>
    unfold okLoop
    dsimp only
    have he : Heap.empty (Fl.init P m w p0).pq = false := by simp [Heap.empty, h3]
    rw [if_neg (by rw [he]; simp)]
    obtain ⟨a1, a2, a3, a4, a5, a6⟩ := h1.extract he
    have hc : (Heap.extractMax (BB.qord m) (Fl.init P m w p0).pq).2.1 = 0 := (h5 _ _ a3).1
    have hem : Heap.empty (Heap.extractMax (BB.qord m) (Fl.init P m w p0).pq).1 = true := by
      simp only [Heap.empty, h3] at a4 ⊢
      simp; omega
    by_cases hl : lim 0 = true
    · rw [if_pos hl]
    rw [if_neg hl]
    by_cases hb : m.sense.better (Heap.extractMax (BB.qord m) (Fl.init P m w p0).pq).2.2 (Fl.init P m w p0).primal = true
    · rw [if_pos hb, hc, Bool.and_eq_true]
      have hsrc : ∀ q, ({ Fl.init P m w p0 with pq := q } : BS σ).src 0 = (Fl.init P m w p0).src 0 := fun _ => rfl
      constructor
      · unfold okExpand
        rw [hsrc]
        cases hg : Fl.relaxed P m p0 w dfuel ((Fl.init P m w p0).src 0) with
        | none =>
          have : Fl.relaxed P m (Fl.init P m w p0).primal (Fl.init P m w p0).wrel dfuel ((Fl.init P m w p0).src 0) = none := hg
          rw [this]; rfl
        | some g =>
          have e : Fl.relaxed P m (Fl.init P m w p0).primal (Fl.init P m w p0).wrel dfuel ((Fl.init P m w p0).src 0) = some g := hg
          rw [e]
          simp only [Option.map_some, Option.getD_some, hx g hg, Bool.not_true, Bool.and_false]
          split
          · generalize Fl.restricted P m _ _ _ _ = r
            cases r <;> rfl
          · rfl
      · cases hE : Fl.expandP P m (fun _ => m) (fun _ => m.loc) w dfuel { Fl.init P m w p0 with pq := (Heap.extractMax (BB.qord m) (Fl.init P m w p0).pq).1 } 0 with
        | none => rfl
        | some s' =>
          simp only [Option.map_some, Option.getD_some]
          apply okLoop_empty
          unfold Fl.expandP at hE
          dsimp only at hE
          rw [hsrc] at hE
          simp only [Option.bind_eq_some_iff] at hE
          obtain ⟨g, hg, hE⟩ := hE
          have hgx := hx g hg
          have hpq : s'.pq = (Heap.extractMax (BB.qord m) (Fl.init P m w p0).pq).1 := by
            rw [hgx] at hE
            simp only [Bool.not_true, Bool.and_false, if_true] at hE
            split at hE
            · simp only [Option.bind_eq_some_iff] at hE
              obtain ⟨r, _, hE⟩ := hE
              simp at hE
              subst hE
              split <;> rfl
            · simp at hE; subst hE; rfl
          rw [hpq]; exact hem
    · rw [if_neg hb]
      exact okLoop_empty hem

/-- C138 without the exception: whenever the relaxed diagram of the root is exact, that is, nothing had to be merged. -/
theorem search_near_exact (H : Nr (Val m) P m rank N E C D R) (hD : DR m rank) (hT : m.loc = none → C ≤ P.top) {p0 : Int}
    (hp0 : m.sense.betterEQ p0 (P.best0 m.sense) = true) {w dfuel fuel : Nat} {lim : Nat → Bool} {s : BS σ}
    (h : Fl.search P m w dfuel lim fuel p0 = some s) (hns : s.stopped = false)
    (hx : ∀ g, Fl.relaxed P m p0 w dfuel ((Fl.init P m w p0).src 0) = some g → g.exact = true) :
    (∀ ls v, DD.Sol m ls v → m.sense.k v - ((N + 2 : Nat) * E + D) ≤ m.sense.k s.primal) ∧
    (s.sols ≠ [] → ∃ c, DD.Sol m s.inc c ∧ ∀ ls v, DD.Sol m ls v → m.sense.k v - ((2 * N + 3 : Nat) * E + D) ≤ m.sense.k c) :=
  search_near_partial H hD hT hp0 h (okLoop_exact H.lay.toLay hx) hns

end Verif.Fl

/-! ### Doubles keep order and are close -/
namespace Verif
/-- Rounding without the special case. -/
theorem dblNat_eq (n : Nat) : dblNat n =
    (if 2 ^ (n.log2 - 52) < 2 * (n % 2 ^ (n.log2 - 52)) ∨ (2 * (n % 2 ^ (n.log2 - 52)) = 2 ^ (n.log2 - 52) ∧ n / 2 ^ (n.log2 - 52) % 2 = 1)
      then n / 2 ^ (n.log2 - 52) + 1 else n / 2 ^ (n.log2 - 52)) * 2 ^ (n.log2 - 52) := by
  unfold dblNat
  by_cases h : n ≤ 2 ^ 53
  · rw [if_pos h]
    by_cases h' : n = 2 ^ 53
    · subst h'; decide +kernel
    · have : n.log2 - 52 = 0 := by
        by_cases h0 : n = 0
        · subst h0; simp
        · have := (Nat.log2_lt (k := 53) h0).2 (by omega)
          omega
      rw [this]
      simp
      omega
  · rw [if_neg h]

theorem dblNat_ge {n : Nat} (h : n ≠ 0) : 2 ^ n.log2 ≤ dblNat n := by
  have h1 := Nat.log2_self_le h
  rw [dblNat_eq]
  have hpos : 0 < 2 ^ (n.log2 - 52) := Nat.pow_pos (by omega)
  by_cases h2 : n.log2 < 52
  · have : n.log2 - 52 = 0 := by omega
    rw [this]
    simp
    split <;> omega
  · have e : 2 ^ n.log2 = 2 ^ 52 * 2 ^ (n.log2 - 52) := by rw [← Nat.pow_add]; congr 1; omega
    have hq : 2 ^ 52 ≤ n / 2 ^ (n.log2 - 52) := by
      rw [Nat.le_div_iff_mul_le hpos, ← e]; exact h1
    have e' := e
    rw [e]
    apply Nat.mul_le_mul_right
    split <;> omega

theorem dblNat_le (n : Nat) : dblNat n ≤ 2 ^ (n.log2 + 1) := by
  have h1 := Nat.lt_log2_self (n := n)
  rw [dblNat_eq]
  have hpos : 0 < 2 ^ (n.log2 - 52) := Nat.pow_pos (by omega)
  by_cases h2 : n.log2 < 52
  · have : n.log2 - 52 = 0 := by omega
    rw [this]
    simp
    split <;> omega
  · have e : 2 ^ (n.log2 + 1) = 2 ^ 53 * 2 ^ (n.log2 - 52) := by rw [← Nat.pow_add]; congr 1; omega
    have hq : n / 2 ^ (n.log2 - 52) < 2 ^ 53 := by
      rw [Nat.div_lt_iff_lt_mul hpos, ← e]; exact h1
    rw [e]
    apply Nat.mul_le_mul_right
    split <;> omega

theorem dblNat_mono {a b : Nat} (h : a ≤ b) : dblNat a ≤ dblNat b := by
  by_cases ha : a = 0
  · subst ha; simp [dblNat]
  by_cases hl : a.log2 = b.log2
  · rw [dblNat_eq a, dblNat_eq b, hl]
    apply Nat.mul_le_mul_right
    generalize hd : 2 ^ (b.log2 - 52) = d
    have hpos : 0 < d := by rw [← hd]; exact Nat.pow_pos (by omega)
    have hq := Nat.div_le_div_right (c := d) h
    have e1 := Nat.div_add_mod a d
    have e2 := Nat.div_add_mod b d
    have r1 := Nat.mod_lt a hpos
    have r2 := Nat.mod_lt b hpos
    rcases Nat.lt_or_ge (a / d) (b / d) with x | x
    · split <;> split <;> omega
    · have : a / d = b / d := by omega
      rw [this] at e1 ⊢
      split <;> split <;> omega
  · have : a.log2 < b.log2 := by
      have h1 := Nat.log2_self_le ha
      have h2 := Nat.lt_log2_self (n := b)
      have := (Nat.pow_lt_pow_iff_right (a := 2) (by omega)).1 (show 2 ^ a.log2 < 2 ^ (b.log2 + 1) by omega)
      omega
    have h1 := dblNat_le a
    have h2 := dblNat_ge (n := b) (by omega)
    have h3 : 2 ^ (a.log2 + 1) ≤ 2 ^ b.log2 := Nat.pow_le_pow_right (by omega) this
    omega

/-- Rounding keeps order. -/
theorem dbl_mono {a b : Int} (h : a ≤ b) : dbl a ≤ dbl b := by
  unfold dbl
  split <;> split
  · have := dblNat_mono (a := a.natAbs) (b := b.natAbs) (by omega); omega
  · omega
  · omega
  · have := dblNat_mono (a := b.natAbs) (b := a.natAbs) (by omega); omega

/-- Sums of doubles below `2^(k+53)` units are off by at most half of `2^k` units. -/
theorem Fl.dbl_acc (k : Nat) (t : Int) : Fl.Acc ⟨fun a b => dbl (a + b), t⟩ (2 ^ (k + 53) - 1) (2 ^ k / 2) := by
  have hp : (0 : Int) < 2 ^ k := Int.pow_pos (by omega)
  refine ⟨by omega, fun a b c d h1 h2 => dbl_mono (by omega), fun a b h1 h2 => ?_⟩
  have e : ((2 ^ (k + 53) : Nat) : Int) = 2 ^ (k + 53) := by rw [Int.natCast_pow]; rfl
  have e' : ((2 ^ k : Nat) : Int) = 2 ^ k := by rw [Int.natCast_pow]; rfl
  have := Fl.dbl_off (x := a + b) (k := k) (by omega)
  show a + b - 2 ^ k / 2 ≤ dbl (a + b) ∧ dbl (a + b) ≤ a + b + 2 ^ k / 2
  omega

end Verif

/-! ### misp5 -/
namespace Verif.Ex
open Verif.DD
variable (g : Misp)

/-- The machine's sum of the weights left, in increasing order of vertices. -/
def Misp.macBound (g : Misp) (P : Fl.Num) (x : MispS) : Int :=
  ((List.range g.top).filter (fun i => x.sel.testBit i)).foldl (fun a i => P.add a (g.w i)) 0

theorem Misp.macBound_near {P : Fl.Num} {R E : Int} (A : Fl.Acc P R E) {W : Nat} (hw : ∀ i, 0 ≤ g.w i ∧ g.w i ≤ W)
    (hR : g.top * W + g.top * E ≤ R) (x : MispS) : g.sum x.sel - g.top * E ≤ g.macBound P x := by
  have hE := A.pos
  have key : ∀ (ls : List Nat) (a u : Int) (j n : Nat), j + ls.length ≤ g.top → u - Fl.sl E j ≤ a → a ≤ u + Fl.sl E j → 0 ≤ u →
      u + ls.length * W ≤ g.top * W → n = j + ls.length →
      u + (ls.map g.w).sum - Fl.sl E n ≤ ls.foldl (fun a i => P.add a (g.w i)) a := by
    intro ls
    induction ls with
    | nil => intro a u j n _ h1 _ _ _ hn; subst hn; simpa using h1
    | cons i ls ih =>
      intro a u j n hj h1 h2 h3 h4 hn
      have hwi := hw i
      simp only [List.length_cons] at hj h4 hn
      have e : ((ls.length + 1 : Nat) : Int) * W = ls.length * W + W := by
        rw [Int.natCast_add, Int.add_mul]; simp
      rw [e] at h4
      have p0 : (0 : Int) ≤ ls.length * W := Int.mul_nonneg (by omega) (by omega)
      have z1 := Fl.sl_mono hE (show j + 1 ≤ g.top by omega)
      have z2 : Fl.sl E (j + 1) = Fl.sl E j + E := rfl
      have z3 := Fl.sl_nonneg hE j
      have z4 := Fl.sl_mul E g.top
      have hn' := A.near a (g.w i) (by omega) (by omega)
      have := ih (P.add a (g.w i)) (u + g.w i) (j + 1) n (by omega) (by omega) (by omega) (by omega) (by omega) (by omega)
      simp only [List.map_cons, List.sum_cons, List.foldl_cons]
      omega
  have hl : ((List.range g.top).filter (fun i => x.sel.testBit i)).length ≤ g.top := by
    have := List.length_filter_le (fun i => x.sel.testBit i) (List.range g.top)
    simpa using this
  have h4 : ((((List.range g.top).filter (fun i => x.sel.testBit i)).length : Nat) : Int) * W ≤ g.top * W :=
    Int.mul_le_mul_of_nonneg_right (by omega) (by omega)
  have := key ((List.range g.top).filter (fun i => x.sel.testBit i)) 0 0 0 _ (by omega) (by simp [Fl.sl]) (by simp [Fl.sl]) (by omega) (by omega) rfl
  have z := Fl.sl_mono hE hl
  rw [Fl.sl_mul] at z
  have e : g.sum x.sel = (((List.range g.top).filter (fun i => x.sel.testBit i)).map g.w).sum := rfl
  rw [e]
  simp only [Nat.zero_add] at this
  show _ ≤ List.foldl _ _ _
  rw [Fl.sl_mul] at this
  rw [Fl.sl_mul] at z
  omega

theorem Misp.path_mdlF {f : MispS → Ctx → Int} {x y : MispS} {ls : List Int} {c : Int} :
    Path (g.mdlF f) x ls c y ↔ Path g.mdl x ls c y := by
  constructor <;> intro h
  · induction h with
    | nil s => exact .nil s
    | cons hs _ ih => exact .cons (m := g.mdl) hs ih
  · induction h with
    | nil s => exact .nil s
    | cons hs _ ih => exact .cons (m := g.mdlF f) hs ih

theorem Misp.val_mdlF {f : MispS → Ctx → Int} : Val (g.mdlF f) = Val g.mdl := by
  funext x c
  apply propext
  constructor
  · exact fun ⟨ls, h⟩ => ⟨ls, g.path_mdlF.1 h⟩
  · exact fun ⟨ls, h⟩ => ⟨ls, g.path_mdlF.2 h⟩

/-- misp5 meets the conditions of C138: weights between 0 and `W`, a local bound at most `D` too low. -/
theorem Misp.nr {P : Fl.Num} {R E D : Int} (A : Fl.Acc P R E) (hP : ∀ a b, 0 ≤ a → 0 ≤ b → 0 ≤ P.add a b) (hT : 0 < P.top)
    {W : Nat} (hw : ∀ i, 0 ≤ g.w i ∧ g.w i ≤ W) (ht : 0 < g.top) {f : MispS → Ctx → Int} (hD : 0 ≤ D)
    (hf : ∀ x c, g.sum x.sel - D ≤ f x c) (hR : 2 * (g.top * W) + (g.top + 2 : Nat) * E + D ≤ R) :
    Fl.Nr (Val (g.mdlF f)) P (g.mdlF f) g.rank g.top E (g.top * W) D R := by
  have hw0 : ∀ i, 0 ≤ g.w i := fun i => (hw i).1
  have L := g.lay hP hT hw0 ht f
  have Ly := g.layered hw0 (g.live0 ht) (v0 := 0) (by omega)
  have hloc : ∀ s c, Fl.Rch (g.mdlF f) g.rank (g.mdlF f).sti s → Val g.mdl s c → c ≤ g.sum s.sel := by
    intro s c hr hv
    obtain ⟨v, hx⟩ := Fl.rch_relx 0 (Fl.rch_setCost hr)
    have := Ly.local_ (fun x _ => g.sum x.sel) rfl s v .dd c hx hv
    rw [Sense.betterEQ_iff] at this
    exact this
  refine ⟨{ L with mcov := ?_, dcov := ?_, lcov := ?_ }, val_closed _, ?_, ?_, A, ?_, hD, ?_⟩
  · intro a b c ha hb ea eb er hm
    rw [g.val_mdlF]
    obtain ⟨v, ha⟩ := Fl.rch_relx 0 (Fl.rch_setCost ha)
    obtain ⟨u, hb⟩ := Fl.rch_relx 0 (Fl.rch_setCost hb)
    have := Ly.merge a b c v u ha hb ea eb er hm
    exact ⟨this.2.2.1, this.2.2.2⟩
  · intro sd hs
    have hs : (none : Option (MispS → MispS → Bool)) = some sd := hs
    cases hs
  · intro a b _ _ hab
    rw [(same_iff a b).1 hab]
    exact fun c hc => ⟨c, hc, by rw [Sense.betterEQ_iff]; omega⟩
  · intro f' hf' s x c hr hv
    have : f = f' := by simpa [Misp.mdlF, Fl.setCost] using hf'
    subst this
    rw [g.val_mdlF] at hv
    have h1 := hloc s c hr hv
    have h2 := hf s x
    show c - D ≤ f s x
    omega
  · intro x hx hq
    obtain ⟨v, hr⟩ := Fl.rch_relx 0 (Fl.rch_setCost hx)
    exact g.rankBound hw0 ht x v hr hq
  · intro s c hr hv
    rw [g.val_mdlF] at hv
    have h1 := hloc s c hr hv
    have h2 := (g.sum_le hw s.sel).2
    have h3 : 0 ≤ c := by
      obtain ⟨ls, hp⟩ := hv
      have : ∀ {x y : MispS} {ls : List Int} {c : Int}, Path g.mdl x ls c y → 0 ≤ c := by
        intro x y ls c hp
        induction hp with
        | nil => exact Int.le_refl _
        | @cons x x' y l ls c hs _ ih =>
          have hl : l = 0 ∨ l = 1 := by
            have := hs.2.1
            simpa [Misp.mdl] using this
          have := hw0 x.n
          show 0 ≤ l * g.w x.n + c
          rcases hl with rfl | rfl <;> omega
      exact this hp
    have : (0 : Int) ≤ g.top * W := Int.mul_nonneg (by omega) (by omega)
    omega
  · rw [Fl.sl_mul]; exact hR

/-- C138 for misp5 with any doubles as weights and a local bound that is at most `D` too low.  No independent set weighs more
than `(top+2)·E + D` above the value printed, nor more than `(2·top+3)·E + D` above the set reported.  Missing: `okLoop`, as in
C03. -/
theorem misp_near_partial {P : Fl.Num} {R E D : Int} (A : Fl.Acc P R E) (hP : ∀ a b, 0 ≤ a → 0 ≤ b → 0 ≤ P.add a b) (hT : 0 < P.top)
    {W : Nat} (hw : ∀ i, 0 ≤ g.w i ∧ g.w i ≤ W) (ht : 0 < g.top) {f : MispS → Ctx → Int} (hD : 0 ≤ D)
    (hf : ∀ x c, g.sum x.sel - D ≤ f x c) (hR : 2 * (g.top * W) + (g.top + 2 : Nat) * E + D ≤ R)
    {w dfuel fuel : Nat} {lim : Nat → Bool} {s : BB.BS MispS} (h : Fl.search P (g.mdlF f) w dfuel lim fuel (-P.top) = some s)
    (hok : Fl.okLoop P (g.mdlF f) w dfuel lim fuel 0 (Fl.init P (g.mdlF f) w (-P.top)) = true) (hns : s.stopped = false) :
    ∀ ls, ls.length = g.top → g.Ind ls → g.wt 0 ls - ((g.top + 2 : Nat) * E + D) ≤ s.primal ∧
      (s.sols ≠ [] → g.Ind s.inc ∧ g.wt 0 ls - ((2 * g.top + 3 : Nat) * E + D) ≤ g.wt 0 s.inc) := by
  intro ls hl hi
  obtain ⟨k, hs, _⟩ := g.ind_sol ht hl hi
  have hs := (g.path_mdlF (f := f)).2 hs
  obtain ⟨h1, h2⟩ := Fl.search_near_partial (g.nr A hP hT hw ht hD hf hR) (fun sd hsd => by
    have hsd : (none : Option (MispS → MispS → Bool)) = some sd := hsd
    cases hsd) (fun hn => by have hn : some f = none := hn; cases hn)
    (p0 := -P.top) (show decide (-P.top ≤ -P.top) = true by simp) h hok hns
  refine ⟨h1 _ _ hs, fun hne => ?_⟩
  obtain ⟨c, c1, c2⟩ := h2 hne
  obtain ⟨d1, d2⟩ := g.sol_ind ht (g.path_mdlF.1 c1)
  rw [← d2]
  exact ⟨d1, c2 _ _ hs⟩

/-- All of misp5 in doubles, the local bound included. -/
theorem misp_near_double_partial {t : Int} (hT : 0 < t) (k : Nat) {W : Nat} (hw : ∀ i, 0 ≤ g.w i ∧ g.w i ≤ W) (ht : 0 < g.top)
    (hR : (2 * (g.top * W) + (2 * g.top + 2 : Nat) * (2 ^ k / 2) : Int) < 2 ^ (k + 53)) {w dfuel fuel : Nat} {lim : Nat → Bool} {s : BB.BS MispS}
    (h : Fl.search ⟨fun a b => dbl (a + b), t⟩ (g.mdlF (fun x _ => g.macBound ⟨fun a b => dbl (a + b), t⟩ x)) w dfuel lim fuel (-t) = some s)
    (hok : Fl.okLoop ⟨fun a b => dbl (a + b), t⟩ (g.mdlF (fun x _ => g.macBound ⟨fun a b => dbl (a + b), t⟩ x)) w dfuel lim fuel 0
      (Fl.init ⟨fun a b => dbl (a + b), t⟩ (g.mdlF (fun x _ => g.macBound ⟨fun a b => dbl (a + b), t⟩ x)) w (-t)) = true)
    (hns : s.stopped = false) :
    ∀ ls, ls.length = g.top → g.Ind ls → g.wt 0 ls - (2 * g.top + 2 : Nat) * (2 ^ k / 2) ≤ s.primal ∧
      (s.sols ≠ [] → g.Ind s.inc ∧ g.wt 0 ls - (3 * g.top + 3 : Nat) * (2 ^ k / 2) ≤ g.wt 0 s.inc) := by
  have A := Fl.dbl_acc k t
  have hE := A.pos
  have e1 : ((2 * g.top + 2 : Nat) : Int) * (2 ^ k / 2) = (g.top + 2 : Nat) * (2 ^ k / 2) + g.top * (2 ^ k / 2) := by
    rw [← Int.add_mul]; congr 1; omega
  have e2 : ((3 * g.top + 3 : Nat) : Int) * (2 ^ k / 2) = (2 * g.top + 3 : Nat) * (2 ^ k / 2) + g.top * (2 ^ k / 2) := by
    rw [← Int.add_mul]; congr 1; omega
  rw [e1] at hR
  rw [e1, e2]
  have q0 : (0 : Int) ≤ g.top * (2 ^ k / 2) := Int.mul_nonneg (by omega) hE
  have q1 : (0 : Int) ≤ g.top * W := Int.mul_nonneg (by omega) (by omega)
  have q2 : (0 : Int) ≤ (g.top + 2 : Nat) * (2 ^ k / 2) := Int.mul_nonneg (by omega) hE
  exact misp_near_partial g A (fun a b ha hb => Fl.d60_nonneg a b ha hb) hT hw ht q0
    (fun x _ => g.macBound_near A hw (by omega) x) (by omega) h hok hns

/-- A pentagon with weights 0.1, 0.2, 0.3, 0.1, 0.6 in units of 2^-60. -/
def pent : Misp := ⟨5, [(0, 1), (1, 2), (2, 3), (3, 4), (4, 0)], fun i => [Fl.d1, Fl.d2, Fl.d3, Fl.d1, Fl.d6].getD i 0⟩
/-- Doubles in those units; 2147483647 stands for no value. -/
def dbl60 : Fl.Num := ⟨fun a b => dbl (a + b), 2147483647 * 2 ^ 60⟩

/-- Three nodes processed, a rounded value printed, and no independent set more than `18·1024` units (2·10^-14) heavier. -/
example : ∃ s, Fl.search dbl60 (pent.mdlF (fun x _ => pent.macBound dbl60 x)) 2 10 (fun _ => false) 50 (-(2147483647 * 2 ^ 60)) = some s ∧
    s.pn = 3 ∧ s.inc = [0, 0, 1, 0, 1] ∧ s.primal ≠ pent.wt 0 s.inc ∧
    ∀ ls, ls.length = 5 → pent.Ind ls → pent.wt 0 ls - 18432 ≤ pent.wt 0 [0, 0, 1, 0, 1] := by
  have hv : (Fl.search dbl60 (pent.mdlF (fun x _ => pent.macBound dbl60 x)) 2 10 (fun _ => false) 50 (-(2147483647 * 2 ^ 60))).map
      (fun s => (s.stopped, s.pn, s.inc, s.primal, s.sols.length)) = some (false, 3, [0, 0, 1, 0, 1], 1037629354146162176, 2) := by decide +kernel
  simp only [Option.map_eq_some_iff] at hv
  obtain ⟨s, h1, h2⟩ := hv
  simp only [Prod.mk.injEq] at h2
  obtain ⟨h2, h3, h4, h5, h6⟩ := h2
  refine ⟨s, h1, h3, h4, by rw [h5, h4]; decide +kernel, fun ls hl hi => ?_⟩
  have hw : ∀ i, 0 ≤ pent.w i ∧ pent.w i ≤ ((2 ^ 60 : Nat) : Int) := by
    intro i
    show 0 ≤ [Fl.d1, Fl.d2, Fl.d3, Fl.d1, Fl.d6].getD i 0 ∧ _
    match i with
    | 0 | 1 | 2 | 3 | 4 => decide
    | n + 5 => simp [pent]
  have := (misp_near_double_partial pent (t := 2147483647 * 2 ^ 60) (by decide) 11 hw (by decide) (by decide +kernel) h1 (by decide +kernel) h2 ls hl hi).2 (by
    intro hh; rw [hh] at h6; simp at h6)
  rw [h4] at this
  have e : ((3 * pent.top + 3 : Nat) : Int) * (2 ^ 11 / 2) = 18432 := by decide +kernel
  rw [e] at this
  exact this.2

end Verif.Ex
