import Verif.NDArray
/-!
# C43: `NDArray` against lists

`eraseNth k` is observed by iterating from the iterator it returns: it sees the elements after the
erased one.
-/
namespace Verif.NDArray

def stepL (l : List Nat) : Op → Option (List Nat × Out)
  | .push n => some (l ++ [n], .unit)
  | .clear => some ([], .unit)
  | .size => some (l, .nat l.length)
  | .iter => some (l, .list (l.map some))
  | .front => some (l, .node l.head?)
  | .popFront => if l = [] then none else some (l.tail, .unit)
  | .eraseNth k => if k < l.length then some (l.eraseIdx k, .list ((l.drop (k + 1)).map some)) else none

def runL : List Nat → List Op → Option (List Nat × List Out)
  | l, [] => some (l, [])
  | l, o :: os => (stepL l o).bind fun p => (runL p.1 os).map fun q => (q.1, p.2 :: q.2)

/-- Nodes in the cells from `i` on. -/
def live (tab : Nat → Option Nat) (sz i : Nat) : List Nat := (List.range' i (sz - i)).filterMap tab
/-- Null cells from `i` on. -/
def gaps (tab : Nat → Option Nat) (sz i : Nat) : Nat := (List.range' i (sz - i)).countP (fun j => (tab j).isNone)

theorem live_end {tab : Nat → Option Nat} {sz i : Nat} (h : sz ≤ i) : live tab sz i = [] := by
  unfold live; rw [Nat.sub_eq_zero_of_le h]; rfl
theorem gaps_end {tab : Nat → Option Nat} {sz i : Nat} (h : sz ≤ i) : gaps tab sz i = 0 := by
  unfold gaps; rw [Nat.sub_eq_zero_of_le h]; rfl

theorem live_some {tab : Nat → Option Nat} {sz i x : Nat} (h : i < sz) (hx : tab i = some x) :
    live tab sz i = x :: live tab sz (i + 1) := by
  unfold live
  rw [show sz - i = (sz - (i + 1)) + 1 by omega, List.range'_succ, List.filterMap_cons, hx]
theorem live_none {tab : Nat → Option Nat} {sz i : Nat} (h : i < sz) (hx : tab i = none) :
    live tab sz i = live tab sz (i + 1) := by
  unfold live
  rw [show sz - i = (sz - (i + 1)) + 1 by omega, List.range'_succ, List.filterMap_cons, hx]
theorem gaps_some {tab : Nat → Option Nat} {sz i x : Nat} (h : i < sz) (hx : tab i = some x) :
    gaps tab sz i = gaps tab sz (i + 1) := by
  unfold gaps
  rw [show sz - i = (sz - (i + 1)) + 1 by omega, List.range'_succ, List.countP_cons, hx]
  simp
theorem gaps_none {tab : Nat → Option Nat} {sz i : Nat} (h : i < sz) (hx : tab i = none) :
    gaps tab sz i = gaps tab sz (i + 1) + 1 := by
  unfold gaps
  rw [show sz - i = (sz - (i + 1)) + 1 by omega, List.range'_succ, List.countP_cons, hx]
  simp

theorem live_gaps (tab : Nat → Option Nat) (sz : Nat) : ∀ (d i : Nat), sz - i = d → (live tab sz i).length + gaps tab sz i = sz - i := by
  intro d
  induction d with
  | zero => intro i h; rw [live_end (by omega), gaps_end (by omega)]; simp; omega
  | succ d ih =>
    intro i h
    have := ih (i + 1) (by omega)
    cases hx : tab i with
    | none => rw [live_none (by omega) hx, gaps_none (by omega) hx]; omega
    | some x => rw [live_some (by omega) hx, gaps_some (by omega) hx, List.length_cons]; omega

/-- Only the cells in the range matter. -/
theorem live_congr {tab tab' : Nat → Option Nat} {sz : Nat} : ∀ (d i : Nat), sz - i = d → (∀ j, i ≤ j → j < sz → tab' j = tab j) →
    live tab' sz i = live tab sz i ∧ gaps tab' sz i = gaps tab sz i := by
  intro d
  induction d with
  | zero => intro i h _; rw [live_end (by omega), live_end (by omega), gaps_end (by omega), gaps_end (by omega)]; exact ⟨rfl, rfl⟩
  | succ d ih =>
    intro i h hc
    obtain ⟨h1, h2⟩ := ih (i + 1) (by omega) (fun j hj hs => hc j (by omega) hs)
    have hi := hc i (Nat.le_refl _) (by omega)
    cases hx : tab i with
    | none =>
      rw [hx] at hi
      rw [live_none (by omega) hx, live_none (by omega) hi, gaps_none (by omega) hx, gaps_none (by omega) hi, h1, h2]; exact ⟨rfl, rfl⟩
    | some x =>
      rw [hx] at hi
      rw [live_some (by omega) hx, live_some (by omega) hi, gaps_some (by omega) hx, gaps_some (by omega) hi, h1, h2]; exact ⟨rfl, rfl⟩

theorem skip_spec (tab : Nat → Option Nat) (sz : Nat) : ∀ (f i : Nat), sz - i ≤ f → i ≤ sz →
    i ≤ skip tab sz f i ∧ skip tab sz f i ≤ sz ∧ live tab sz (skip tab sz f i) = live tab sz i ∧
    gaps tab sz i = gaps tab sz (skip tab sz f i) + (skip tab sz f i - i) ∧
    (skip tab sz f i < sz → ∃ x, tab (skip tab sz f i) = some x) := by
  intro f
  induction f with
  | zero => intro i h1 h2; simp only [skip]; exact ⟨Nat.le_refl _, h2, trivial, by omega, fun h => by omega⟩
  | succ f ih =>
    intro i h1 h2
    rw [skip]
    split
    · rename_i hc
      obtain ⟨a, b, c, d, e⟩ := ih (i + 1) (by omega) (by omega)
      exact ⟨by omega, b, by rw [c, live_none hc.1 hc.2], by rw [gaps_none hc.1 hc.2, d]; omega, e⟩
    · rename_i hc
      refine ⟨Nat.le_refl _, h2, rfl, by omega, fun h => ?_⟩
      cases hx : tab i with
      | none => exact absurd ⟨h, hx⟩ hc
      | some x => exact ⟨x, rfl⟩

structure Rep (a : A) (l : List Nat) : Prop where
  cap : a.sz ≤ a.mx
  pos : 1 ≤ a.mx
  st : a.st ≤ a.sz
  holes : a.holes = gaps a.tab a.sz a.st
  live : live a.tab a.sz a.st = l

/-- Iterating from a position that is null nowhere sees the live nodes. -/
theorem iterFrom_spec (a : A) : ∀ (f i : Nat), a.sz - i < f → i ≤ a.sz → (i < a.sz → ∃ x, a.tab i = some x) →
    iterFrom a f i = (NDArray.live a.tab a.sz i).map some := by
  intro f
  induction f with
  | zero => intro i h; omega
  | succ f ih =>
    intro i hf hi hx
    rw [iterFrom]
    split
    · rename_i hlt
      obtain ⟨x, hx⟩ := hx hlt
      obtain ⟨s1, s2, s3, _, s5⟩ := skip_spec a.tab a.sz (a.sz - (i + 1)) (i + 1) (Nat.le_refl _) (by omega)
      rw [live_some hlt hx, List.map_cons, hx]
      congr 1
      rw [← s3]
      exact ih _ (by unfold next skipFrom; omega) s2 s5
    · rw [live_end (by omega)]; rfl

theorem Rep.begin_ {a : A} {l : List Nat} (R : Rep a l) : Rep (begin_ a).1 l ∧ (begin_ a).2 = (begin_ a).1.st ∧
    ((begin_ a).2 < a.sz → ∃ x, a.tab (begin_ a).2 = some x) := by
  obtain ⟨s1, s2, s3, s4, s5⟩ := skip_spec a.tab a.sz (a.sz - a.st) a.st (Nat.le_refl _) R.st
  refine ⟨⟨R.cap, R.pos, s2, ?_, by rw [← R.live]; exact s3⟩, rfl, s5⟩
  show a.holes - (skipFrom a a.st - a.st) = gaps a.tab a.sz (skipFrom a a.st)
  rw [R.holes, s4]
  exact Nat.add_sub_cancel _ _

/-- The position reached by `k` increments holds element `k`, and what follows is the rest. -/
theorem advance_spec (a : A) : ∀ (k i : Nat), i ≤ a.sz → (i < a.sz → ∃ x, a.tab i = some x) →
    k < (NDArray.live a.tab a.sz i).length →
    i ≤ advance a k i ∧ advance a k i < a.sz ∧
    NDArray.live a.tab a.sz (advance a k i) = (NDArray.live a.tab a.sz i).drop k ∧
    (∃ x, a.tab (advance a k i) = some x) := by
  intro k
  induction k with
  | zero =>
    intro i hi hx hk
    have : i < a.sz := by
      refine Nat.lt_of_not_le (fun hc => ?_)
      rw [live_end hc] at hk; simp at hk
    exact ⟨Nat.le_refl _, this, rfl, hx this⟩
  | succ k ih =>
    intro i hi hx hk
    have hlt : i < a.sz := by
      refine Nat.lt_of_not_le (fun hc => ?_)
      rw [live_end hc] at hk; simp at hk
    obtain ⟨x, hx⟩ := hx hlt
    obtain ⟨s1, s2, s3, _, s5⟩ := skip_spec a.tab a.sz (a.sz - (i + 1)) (i + 1) (Nat.le_refl _) (by omega)
    rw [live_some hlt hx, List.length_cons] at hk
    obtain ⟨t1, t2, t3, t4⟩ := ih (next a i) s2 s5 (by unfold next skipFrom; rw [s3]; omega)
    refine ⟨?_, t2, ?_, t4⟩
    · have : i + 1 ≤ next a i := s1
      show i ≤ advance a k (next a i)
      omega
    · show NDArray.live a.tab a.sz (advance a k (next a i)) = _
      rw [t3, live_some hlt hx, List.drop_succ_cons]
      unfold next skipFrom
      rw [s3]

/-- Nulling the cell of element `k`. -/
theorem live_erase (tab : Nat → Option Nat) (sz : Nat) : ∀ (d i p : Nat), sz - i = d → i ≤ p → p < sz → (∃ x, tab p = some x) →
    ∃ k, NDArray.live tab sz p = (NDArray.live tab sz i).drop k ∧ k < (NDArray.live tab sz i).length ∧
      NDArray.live (upd tab p none) sz i = (NDArray.live tab sz i).eraseIdx k ∧ gaps (upd tab p none) sz i = gaps tab sz i + 1 := by
  intro d
  induction d with
  | zero => intro i p h1 h2 h3; omega
  | succ d ih =>
    intro i p h1 h2 h3 h4
    by_cases hip : i = p
    · subst hip
      obtain ⟨x, hx⟩ := h4
      have hn : upd tab i none i = none := by simp
      obtain ⟨c1, c2⟩ := live_congr (tab := tab) (tab' := upd tab i none) (sz := sz) (sz - (i + 1)) (i + 1) rfl
        (fun j hj _ => upd_ne _ _ (by omega))
      refine ⟨0, rfl, by rw [live_some h3 hx]; simp, ?_, ?_⟩
      · rw [live_none h3 hn, c1, live_some h3 hx]; rfl
      · rw [gaps_none h3 hn, c2, gaps_some h3 hx]
    · obtain ⟨k, e1, e2, e3, e4⟩ := ih (i + 1) p (by omega) (by omega) h3 h4
      have hlt : i < sz := by omega
      have hu : upd tab p none i = tab i := upd_ne _ _ (by omega)
      cases hx : tab i with
      | none =>
        rw [hx] at hu
        exact ⟨k, by rw [live_none hlt hx]; exact e1, by rw [live_none hlt hx]; exact e2,
          by rw [live_none hlt hu, e3, live_none hlt hx], by rw [gaps_none hlt hu, e4, gaps_none hlt hx]⟩
      | some x =>
        rw [hx] at hu
        exact ⟨k + 1, by rw [live_some hlt hx, List.drop_succ_cons]; exact e1, by rw [live_some hlt hx, List.length_cons]; omega,
          by rw [live_some hlt hu, e3, live_some hlt hx]; rfl, by rw [gaps_some hlt hu, e4, gaps_some hlt hx]⟩

theorem drop_inj {l : List Nat} {k k' : Nat} (h1 : k < l.length) (h2 : k' < l.length) (h : l.drop k = l.drop k') : k = k' := by
  have := congrArg List.length h
  rw [List.length_drop, List.length_drop] at this
  omega

theorem Rep.push {a : A} {l : List Nat} (R : Rep a l) (n : Nat) : ∃ a', pushBack a n = some a' ∧ Rep a' (l ++ [n]) := by
  have hcap := R.cap
  have hpos := R.pos
  have hst := R.st
  have hlt : a.sz < (if a.sz = a.mx then a.mx * 2 else a.mx) := by split <;> omega
  refine ⟨{ a with tab := upd a.tab a.sz (some n), sz := a.sz + 1, mx := (if a.sz = a.mx then a.mx * 2 else a.mx) }, ?_, ?_⟩
  · unfold pushBack
    dsimp only
    rw [if_pos hlt]
  · have hsplit : List.range' a.st (a.sz + 1 - a.st) = List.range' a.st (a.sz - a.st) ++ [a.sz] := by
      rw [show a.sz + 1 - a.st = (a.sz - a.st) + 1 by omega, List.range'_1_concat, show a.st + (a.sz - a.st) = a.sz by omega]
    obtain ⟨c1, c2⟩ := live_congr (tab := a.tab) (tab' := upd a.tab a.sz (some n)) (sz := a.sz) _ a.st rfl (fun j _ hj => upd_ne _ _ (by omega))
    refine ⟨hlt, by show 1 ≤ (if a.sz = a.mx then a.mx * 2 else a.mx); split <;> omega, by show a.st ≤ a.sz + 1; omega, ?_, ?_⟩
    · show a.holes = gaps (upd a.tab a.sz (some n)) (a.sz + 1) a.st
      unfold gaps at c2 ⊢
      rw [hsplit, List.countP_append, c2]
      have := R.holes
      unfold gaps at this
      rw [this]; simp
    · show NDArray.live (upd a.tab a.sz (some n)) (a.sz + 1) a.st = _
      unfold NDArray.live at c1 ⊢
      rw [hsplit, List.filterMap_append, c1]
      have := R.live
      unfold NDArray.live at this
      rw [this]; simp

theorem step_refines {a : A} {l l' : List Nat} {o : Op} {y : Out} (R : Rep a l) (h : stepL l o = some (l', y)) :
    ∃ a', step a o = some (a', y) ∧ Rep a' l' := by
  obtain ⟨B1, B2, B3⟩ := R.begin_
  have hbt : (NDArray.begin_ a).1.tab = a.tab := rfl
  have hbs : (NDArray.begin_ a).1.sz = a.sz := rfl
  cases o with
  | push n =>
    simp only [stepL, Option.some.injEq, Prod.mk.injEq] at h
    obtain ⟨rfl, rfl⟩ := h
    obtain ⟨a', h1, h2⟩ := R.push n
    exact ⟨a', by simp [step, h1], h2⟩
  | clear =>
    simp only [stepL, Option.some.injEq, Prod.mk.injEq] at h
    obtain ⟨rfl, rfl⟩ := h
    exact ⟨_, rfl, Nat.zero_le _, R.pos, Nat.le_refl _, rfl, rfl⟩
  | size =>
    simp only [stepL, Option.some.injEq, Prod.mk.injEq] at h
    obtain ⟨rfl, rfl⟩ := h
    refine ⟨a, ?_, R⟩
    have := live_gaps a.tab a.sz _ a.st rfl
    rw [R.live, ← R.holes] at this
    have hs : size a = l.length := by unfold size; omega
    simp [step, hs]
  | iter =>
    simp only [stepL, Option.some.injEq, Prod.mk.injEq] at h
    obtain ⟨rfl, rfl⟩ := h
    refine ⟨_, ?_, B1⟩
    have : iterFrom (NDArray.begin_ a).1 (a.sz + 1) (NDArray.begin_ a).2 = l.map some := by
      rw [iterFrom_spec (NDArray.begin_ a).1 (a.sz + 1) _ (by rw [hbs]; omega) (by rw [B2]; exact B1.st) B3]
      rw [B2, B1.live]
    simp [step, this]
  | front =>
    simp only [stepL, Option.some.injEq, Prod.mk.injEq] at h
    obtain ⟨rfl, rfl⟩ := h
    refine ⟨_, ?_, B1⟩
    have : (if (NDArray.begin_ a).2 < a.sz then a.tab (NDArray.begin_ a).2 else none) = l.head? := by
      rw [← B1.live, ← B2, hbt, hbs]
      split
      · rename_i hlt
        obtain ⟨x, hx⟩ := B3 hlt
        rw [live_some hlt hx, hx]; rfl
      · rw [live_end (by omega)]; rfl
    simp [step, NDArray.front, this]
  | popFront =>
    simp only [stepL] at h
    split at h
    · simp at h
    · rename_i hne
      simp only [Option.some.injEq, Prod.mk.injEq] at h
      obtain ⟨rfl, rfl⟩ := h
      have hl := B1.live
      have hh := B1.holes
      rw [← B2, hbt, hbs] at hl hh
      have hlt : (NDArray.begin_ a).2 < a.sz := by
        refine Nat.lt_of_not_le (fun hc => ?_)
        rw [live_end hc] at hl
        exact hne hl.symm
      obtain ⟨x, hx⟩ := B3 hlt
      have hp : skipFrom a a.st = (NDArray.begin_ a).2 := rfl
      refine ⟨{ a with tab := upd a.tab (NDArray.begin_ a).2 none, st := (NDArray.begin_ a).2 + 1, holes := a.holes - ((NDArray.begin_ a).2 - a.st) }, ?_, ?_⟩
      · simp only [step, NDArray.popFront, hp]
        rw [if_pos hlt]; rfl
      · obtain ⟨c1, c2⟩ := live_congr (tab := a.tab) (tab' := upd a.tab (NDArray.begin_ a).2 none) (sz := a.sz) _ ((NDArray.begin_ a).2 + 1) rfl
          (fun j hj _ => upd_ne _ _ (by omega))
        rw [live_some hlt hx] at hl
        rw [gaps_some hlt hx] at hh
        refine ⟨R.cap, R.pos, hlt, ?_, ?_⟩
        · show a.holes - ((NDArray.begin_ a).2 - a.st) = gaps (upd a.tab (NDArray.begin_ a).2 none) a.sz ((NDArray.begin_ a).2 + 1)
          rw [c2, ← hh]; rfl
        · show NDArray.live (upd a.tab (NDArray.begin_ a).2 none) a.sz ((NDArray.begin_ a).2 + 1) = _
          rw [c1, ← hl]; rfl
  | eraseNth k =>
    simp only [stepL] at h
    split at h
    · rename_i hk
      simp only [Option.some.injEq, Prod.mk.injEq] at h
      obtain ⟨rfl, rfl⟩ := h
      have hl := B1.live
      obtain ⟨a1, a2, a3, a4⟩ := advance_spec (NDArray.begin_ a).1 k (NDArray.begin_ a).2 (by rw [B2]; exact B1.st) B3 (by rw [B2, hl]; exact hk)
      rw [B2, hl] at a3
      generalize hp : advance (NDArray.begin_ a).1 k (NDArray.begin_ a).2 = p at *
      rw [← B2, hp] at a3
      rw [B2] at a1
      obtain ⟨k', e1, e2, e3, e4⟩ := live_erase (NDArray.begin_ a).1.tab (NDArray.begin_ a).1.sz _ (NDArray.begin_ a).1.st p rfl a1 a2 a4
      rw [hl] at e1 e2 e3
      have hkk : k' = k := drop_inj e2 hk (by rw [← e1, ← a3])
      subst hkk
      obtain ⟨s1, s2, s3, _, s5⟩ := skip_spec (upd a.tab p none) a.sz (a.sz - (p + 1)) (p + 1) (Nat.le_refl _) a2
      have hR : Rep (erase (NDArray.begin_ a).1 p).1 (l.eraseIdx k') := by
        refine ⟨R.cap, R.pos, B1.st, ?_, e3⟩
        show (NDArray.begin_ a).1.holes + 1 = gaps (upd a.tab p none) a.sz (NDArray.begin_ a).1.st
        rw [B1.holes]; exact e4.symm
      refine ⟨_, ?_, hR⟩
      have hit : iterFrom (erase (NDArray.begin_ a).1 p).1 (a.sz + 1) (erase (NDArray.begin_ a).1 p).2 = (l.drop (k' + 1)).map some := by
        have hq : (erase (NDArray.begin_ a).1 p).2 = skip (upd a.tab p none) a.sz (a.sz - (p + 1)) (p + 1) := rfl
        rw [iterFrom_spec _ (a.sz + 1) _ (by show a.sz - _ < _; omega) (by rw [hq]; exact s2) (by rw [hq]; exact s5)]
        congr 1
        rw [hq]
        show NDArray.live (upd a.tab p none) a.sz _ = _
        rw [s3]
        obtain ⟨c1, _⟩ := live_congr (tab := a.tab) (tab' := upd a.tab p none) (sz := a.sz) _ (p + 1) rfl (fun j hj _ => upd_ne _ _ (by omega))
        rw [c1]
        obtain ⟨x, hx⟩ := a4
        have := live_some a2 hx
        rw [a3] at this
        have h2 := congrArg List.tail this
        rw [List.tail_drop] at h2
        exact h2.symm
      simp only [step]
      rw [hp, hit]
    · simp at h

/-- C43.  Any sequence of calls allowed on lists, from an array of any initial capacity but 0. -/
theorem nd_refines : ∀ (os : List Op) {a : A} {l l' : List Nat} {ys : List Out}, Rep a l →
    runL l os = some (l', ys) → ∃ a', run a os = some (a', ys) ∧ Rep a' l' := by
  intro os
  induction os with
  | nil =>
    intro s l l' ys R h
    simp only [runL, Option.some.injEq, Prod.mk.injEq] at h
    obtain ⟨rfl, rfl⟩ := h
    exact ⟨s, rfl, R⟩
  | cons o os ih =>
    intro s l l' ys R h
    simp only [runL, Option.bind_eq_some_iff, Option.map_eq_some_iff, Prod.mk.injEq] at h
    obtain ⟨⟨l1, y⟩, h1, ⟨l2, ys2⟩, h2, h3, h4⟩ := h
    obtain ⟨s1, e1, R1⟩ := step_refines R h1
    obtain ⟨s2, e2, R2⟩ := ih R1 h2
    dsimp only at h3 h4
    subst h3; subst h4
    exact ⟨s2, by simp [run, e1, e2], R2⟩

theorem nd_lists {mx : Nat} (hm : 1 ≤ mx) {os : List Op} {l' : List Nat} {ys : List Out} (h : runL [] os = some (l', ys)) :
    (run (mk' mx) os).map (·.2) = some ys := by
  obtain ⟨s', h1, _⟩ := nd_refines os (a := mk' mx) (l := []) ⟨Nat.zero_le _, hm, Nat.le_refl _, rfl, rfl⟩ h
  rw [h1]; rfl

/-- Growth from capacity 1, erasing in the middle and at the front. -/
example : (run (mk' 1) [.push 5, .push 6, .push 7, .push 8, .eraseNth 1, .size, .eraseNth 0, .iter, .front, .popFront, .size, .iter]).map (·.2) =
    some [.unit, .unit, .unit, .unit, .list [some 7, some 8], .nat 3, .list [some 7, some 8], .list [some 7, some 8], .node (some 7), .unit, .nat 1, .list [some 8]] :=
  nd_lists (by decide) (l' := [8]) (by decide)

/-- `push_front` puts the node in front when something was popped there before, and at the back of an
array whose first cell is in use. -/
theorem pushFront_spec {a : A} {l : List Nat} (R : Rep a l) (n : Nat) :
    (a.st ≠ 0 → ∃ a', pushFront a n = some a' ∧ Rep a' (n :: l)) ∧ (a.st = 0 → ∃ a', pushFront a n = some a' ∧ Rep a' (l ++ [n])) := by
  refine ⟨fun h => ?_, fun h => ?_⟩
  · unfold pushFront
    rw [if_neg h]
    have hst := R.st
    obtain ⟨c1, c2⟩ := live_congr (tab := a.tab) (tab' := upd a.tab (a.st - 1) (some n)) (sz := a.sz) _ a.st rfl (fun j hj _ => upd_ne _ _ (by omega))
    have hx : upd a.tab (a.st - 1) (some n) (a.st - 1) = some n := by simp
    refine ⟨_, rfl, R.cap, R.pos, by show a.st - 1 ≤ a.sz; omega, ?_, ?_⟩
    · show a.holes = gaps (upd a.tab (a.st - 1) (some n)) a.sz (a.st - 1)
      rw [gaps_some (by omega) hx, show a.st - 1 + 1 = a.st by omega, c2]; exact R.holes
    · show NDArray.live (upd a.tab (a.st - 1) (some n)) a.sz (a.st - 1) = _
      rw [live_some (by omega) hx, show a.st - 1 + 1 = a.st by omega, c1, R.live]
  · unfold pushFront
    rw [if_pos h]
    exact R.push n

/-- `eraseSuffix` at element `k` keeps the first `k` elements, provided nothing has been erased (the
class asserts that); the null cells would still be counted by `size`. -/
theorem eraseSuffix_spec {a : A} {l : List Nat} (R : Rep a l) (hh : a.holes = 0) {k : Nat} (hk : k ≤ l.length) :
    Rep (eraseSuffix a (a.st + k)) (l.take k) := by
  have hg := R.holes
  rw [hh] at hg
  have hlen := live_gaps a.tab a.sz _ a.st rfl
  rw [R.live] at hlen
  have hst := R.st
  have key : ∀ (k i : Nat), i + k ≤ a.sz → gaps a.tab a.sz i = 0 →
      gaps a.tab (i + k) i = 0 ∧ NDArray.live a.tab (i + k) i = (NDArray.live a.tab a.sz i).take k := by
    intro k
    induction k with
    | zero => intro i _ _; rw [gaps_end (by omega), live_end (by omega)]; simp
    | succ k ih =>
      intro i hi hz
      have hlt : i < a.sz := by omega
      cases hx : a.tab i with
      | none => rw [gaps_none hlt hx] at hz; omega
      | some x =>
        rw [gaps_some hlt hx] at hz
        obtain ⟨h1, h2⟩ := ih (i + 1) (by omega) hz
        rw [show i + (k + 1) = i + 1 + k by omega]
        rw [gaps_some (by omega) hx, live_some (by omega) hx, live_some hlt hx, h1, h2]
        simp
  obtain ⟨h1, h2⟩ := key k a.st (by omega) hg.symm
  exact ⟨by show a.st + k ≤ a.mx; have := R.cap; omega, R.pos, by show a.st ≤ a.st + k; omega,
    by show a.holes = gaps a.tab (a.st + k) a.st; rw [hh, h1], by show NDArray.live a.tab (a.st + k) a.st = _; rw [h2, R.live]⟩

/-- An array of initial capacity 0 cannot hold anything. -/
theorem push_zero (n : Nat) : pushBack (mk' 0) n = none := rfl

end Verif.NDArray
