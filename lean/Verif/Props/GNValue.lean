import Verif.Props.GNMem
/-!
# C139: programs over `GNSet` variables compute on sets

The specification: every variable in scope is a set of numbers with a capacity, or was moved from.
-/
namespace Verif.GNMem
open Verif.Bits
open Verif.GNSet (G ceil64 grow growTo Rep has)

/-- A set of numbers and its number of words. -/
structure A where
  cap : Nat
  M : Nat → Prop

/-- Variables: not in scope, moved from, or a set. -/
abbrev AEnv := Nat → Option (Option A)

/-- A set in scope that was not moved from. -/
def AEnv.get (a : AEnv) (v : Nat) : Option A := (a v).bind id

/-- The rules (`none` breaks them): names are declared once and used in scope; of a moved-from set only its destructor and a
move assignment to it are used; nothing is moved onto itself; values stay small enough for 2^15 words, and nothing
is inserted in a set without words.  `removeAbove` is left out (C52). -/
def astep (a : AEnv) : Op → Option AEnv
  | .new v nb => if (a v).isNone ∧ nb < 2 ^ 16 then some (put a v (some (some ⟨(nb + 63) / 64, fun _ => False⟩))) else none
  | .copy v u => if (a v).isNone then (a.get u).map fun x => put a v (some (some x)) else none
  | .move v u => if (a v).isNone then (a.get u).map fun x => put (put a v (some (some x))) u (some none) else none
  | .copyAsg v u => (a.get v).bind fun _ => (a.get u).map fun x => put a v (some (some x))
  | .moveAsg v u => if v ≠ u then (a v).bind fun _ => (a.get u).map fun x => put (put a v (some (some x))) u (some none) else none
  | .insert v p => (a.get v).bind fun x => if 0 < x.cap ∧ growTo x.cap p < 2 ^ 15 then some (put a v (some (some ⟨growTo x.cap p, fun q => q = p ∨ x.M q⟩))) else none
  | .inpl v u f => (a.get v).bind fun x => (a.get u).bind fun y =>
      match f with
      | .clear => some (put a v (some (some ⟨x.cap, fun _ => False⟩)))
      | .complement => some (put a v (some (some ⟨x.cap, fun q => q < 64 * x.cap ∧ ¬ x.M q⟩)))
      | .remove p => some (put a v (some (some ⟨x.cap, fun q => x.M q ∧ q ≠ p⟩)))
      | .inter => some (put a v (some (some ⟨x.cap, fun q => x.M q ∧ y.M q⟩)))
      | .diff => some (put a v (some (some ⟨x.cap, fun q => x.M q ∧ ¬ y.M q⟩)))
      | .removeAbove _ => none
  | .union v u => (a.get v).bind fun x => (a.get u).map fun y => put a v (some (some ⟨max x.cap y.cap, fun q => x.M q ∨ y.M q⟩))
  | .free v => (a v).map fun _ => put a v none

def arun (a : AEnv) : List Op → Option AEnv
  | [] => some a
  | o :: os => (astep a o).bind fun a => arun a os

/-! ### What can be observed in memory -/

/-- Reading the array of variable `v` in memory finds the bit of `q`. -/
def Holds (s : St) (v q : Nat) : Prop :=
  ∃ o a n t, s.obj v = some o ∧ o.ptr = some a ∧ s.mem a = some (n, t) ∧ q / 64 < o.mxw ∧ q / 64 < n ∧ (t (q / 64)).getLsbD (q % 64) = true

/-! ### Values represent sets -/

def Rp : Option G → Option (Option A) → Prop
  | none, none => True
  | some g, some none => g.nul = true
  | some g, some (some x) => Rep g x.cap x.M
  | _, _ => False

def RpE (e : Nat → Option G) (a : AEnv) : Prop := ∀ v, Rp (e v) (a v)

theorem RpE.outside {e : Nat → Option G} {a : AEnv} (H : RpE e a) {v : Nat} (h : a v = none) : e v = none := by
  have := H v
  rw [h] at this
  cases he : e v with
  | none => rfl
  | some g => rw [he] at this; exact this.elim

theorem RpE.inside {e : Nat → Option G} {a : AEnv} (H : RpE e a) {v : Nat} {x : Option A} (h : a v = some x) : ∃ g, e v = some g := by
  have := H v
  rw [h] at this
  cases he : e v with
  | none => rw [he] at this; exact this.elim
  | some g => exact ⟨g, rfl⟩

theorem get_some {a : AEnv} {v : Nat} {x : A} (h : a.get v = some x) : a v = some (some x) := by
  unfold AEnv.get at h
  cases ha : a v with
  | none => rw [ha] at h; cases h
  | some y => rw [ha] at h; simp at h; rw [h]

theorem RpE.get {e : Nat → Option G} {a : AEnv} (H : RpE e a) {v : Nat} {x : A} (h : a.get v = some x) : ∃ g, e v = some g ∧ Rep g x.cap x.M := by
  have h' := get_some h
  obtain ⟨g, hg⟩ := H.inside h'
  have := H v
  rw [h', hg] at this
  exact ⟨g, hg, this⟩

theorem RpE.put {e : Nat → Option G} {a : AEnv} (H : RpE e a) (v : Nat) {g : Option G} {x : Option (Option A)} (h : Rp g x) : RpE (put e v g) (put a v x) := by
  intro w
  unfold GNMem.put
  split
  · exact h
  · exact H w

theorem Rep.usable {g : G} {n : Nat} {M : Nat → Prop} (h : Rep g n M) : usable g = true := by
  unfold GNMem.usable
  cases hn : g.nul with
  | false => rfl
  | true => simp [h.live hn]

/-- A statement that keeps the rules is defined on values and computes the sets. -/
theorem rp_step {e : Nat → Option G} {a a' : AEnv} (H : RpE e a) (o : Op) (h : astep a o = some a') : ∃ e', vstep e o = some e' ∧ RpE e' a' := by
  cases o with
  | new v nb =>
    simp only [astep] at h
    by_cases hc : (a v).isNone ∧ nb < 2 ^ 16
    · rw [if_pos hc] at h; cases h
      have hv : e v = none := H.outside (by simpa using hc.1)
      refine ⟨GNMem.put e v (some (GNSet.new nb)), by simp [vstep, hv], H.put v ?_⟩
      refine ⟨fun hn => by simpa [GNSet.new] using hn, GNSet.ceil_eq nb, by have := hc.2; show (nb + 63) / 64 < _; omega, fun q => ?_⟩
      show inW (fun _ => 0) _ q = true ↔ _
      rw [GNSet.zero_has]; simp
    · rw [if_neg hc] at h; cases h
  | copy v u =>
    simp only [astep] at h
    by_cases hc : (a v).isNone
    · rw [if_pos hc] at h
      obtain ⟨x, hx, rfl⟩ := Option.map_eq_some_iff.1 h
      obtain ⟨g, hg, R⟩ := H.get hx
      have hv : e v = none := H.outside (by simpa using hc)
      have hcp : GNSet.copy g = some { g with nul := false } := by
        unfold GNSet.copy; rw [if_neg]; rintro ⟨h2, h3⟩; exact h3 (R.live h2)
      exact ⟨_, by simp [vstep, hv, hg, hcp], H.put v (g := some { g with nul := false }) (x := some (some x)) ⟨fun h => by simp at h, R.mxw, R.bound, R.mem⟩⟩
    · rw [if_neg hc] at h; cases h
  | move v u =>
    simp only [astep] at h
    by_cases hc : (a v).isNone
    · rw [if_pos hc] at h
      obtain ⟨x, hx, rfl⟩ := Option.map_eq_some_iff.1 h
      obtain ⟨g, hg, R⟩ := H.get hx
      have hv : e v = none := H.outside (by simpa using hc)
      exact ⟨_, by simp [vstep, hv, hg], (H.put v (g := some g) (x := some (some x)) R).put u (g := some (GNSet.moved g)) (x := some none) rfl⟩
    · rw [if_neg hc] at h; cases h
  | copyAsg v u =>
    simp only [astep] at h
    obtain ⟨y, hy, h⟩ := Option.bind_eq_some_iff.1 h
    obtain ⟨x, hx, rfl⟩ := Option.map_eq_some_iff.1 h
    obtain ⟨g, hg, R⟩ := H.get hx
    obtain ⟨g0, hg0, R0⟩ := H.get hy
    have hass : ∃ n, GNSet.assign g0 g = some { g with nul := n } ∧ (n = true → g.mxw = 0) := by
      unfold GNSet.assign
      simp only
      by_cases hm : g.mxw ≠ g0.mxw
      · rw [if_pos hm, if_neg]
        · exact ⟨false, rfl, fun h => by cases h⟩
        · rintro ⟨h1, h2⟩
          rcases h2 with h2 | h2
          · cases h2
          · exact h1 (R.live h2)
      · rw [if_neg hm, if_neg]
        · exact ⟨g0.nul, rfl, fun h => by rw [show g.mxw = g0.mxw by omega]; exact R0.live h⟩
        · rintro ⟨h1, h2⟩
          rcases h2 with h2 | h2
          · exact h1 (by rw [show g.mxw = g0.mxw by omega]; exact R0.live h2)
          · exact h1 (R.live h2)
    obtain ⟨n, hn, hn'⟩ := hass
    exact ⟨_, by simp only [vstep, hg, hg0, hn, Option.bind_some, Option.map_some], H.put v (g := some { g with nul := n }) (x := some (some x)) ⟨hn', R.mxw, R.bound, R.mem⟩⟩
  | moveAsg v u =>
    simp only [astep] at h
    by_cases hc : v ≠ u
    · rw [if_pos hc] at h
      obtain ⟨y, hy, h⟩ := Option.bind_eq_some_iff.1 h
      obtain ⟨x, hx, rfl⟩ := Option.map_eq_some_iff.1 h
      obtain ⟨g, hg, R⟩ := H.get hx
      obtain ⟨g0, hg0⟩ := H.inside hy
      exact ⟨_, by simp only [vstep, hg, hg0, Option.bind_some, Option.map_some], (H.put v (g := some g) (x := some (some x)) R).put u (g := some (GNSet.moved g)) (x := some none) rfl⟩
    · rw [if_neg hc] at h; cases h
  | insert v p =>
    simp only [astep] at h
    obtain ⟨x, hx, h⟩ := Option.bind_eq_some_iff.1 h
    by_cases hc : 0 < x.cap ∧ growTo x.cap p < 2 ^ 15
    · rw [if_pos hc] at h; cases h
      obtain ⟨g, hg, R⟩ := H.get hx
      obtain ⟨g', h1, R1, _⟩ := R.insert hc.1 hc.2
      exact ⟨_, by simp only [vstep, hg, h1, Option.bind_some, Option.map_some, Rep.usable R, if_true], H.put v (g := some g') (x := some (some ⟨_, _⟩)) R1⟩
    · rw [if_neg hc] at h; cases h
  | inpl v u f =>
    simp only [astep] at h
    obtain ⟨x, hx, h⟩ := Option.bind_eq_some_iff.1 h
    obtain ⟨y, hy, h⟩ := Option.bind_eq_some_iff.1 h
    obtain ⟨g, hg, R⟩ := H.get hx
    obtain ⟨g', hg', R'⟩ := H.get hy
    have key : ∀ {r : G} {z : A}, f.val g g' = some r → Rep r z.cap z.M → a' = GNMem.put a v (some (some z)) → ∃ e', vstep e (.inpl v u f) = some e' ∧ RpE e' a' := by
      intro r z h1 h2 h3
      subst h3
      exact ⟨_, by simp only [vstep, hg, hg', h1, Option.bind_some, Option.map_some, Rep.usable R, Rep.usable R', Bool.and_self, if_true], H.put v (g := some r) (x := some (some z)) h2⟩
    cases f with
    | clear =>
      simp only [Option.some.injEq] at h
      refine key (GNSet.sh_some _ (by rw [R.mxw]; exact R.bound)) ?_ h.symm
      refine ⟨R.live, R.mxw, R.bound, fun q => ?_⟩
      show inW (each (fun _ _ => 0) g.mxw g.t) g.mxw q = true ↔ _
      rw [inW_iff, each_apply]
      simp only [iff_false]
      rintro ⟨h2, h3⟩
      rw [if_pos (by omega)] at h3
      simp at h3
    | complement =>
      simp only [Option.some.injEq] at h
      refine key (GNSet.sh_some _ (by rw [R.mxw]; exact R.bound)) ?_ h.symm
      refine ⟨R.live, R.mxw, R.bound, fun q => ?_⟩
      refine (NatSet.complement_mem g.mxw g.t q).trans ?_
      show q < 64 * g.mxw ∧ ¬ has g q = true ↔ _
      rw [R.mem, R.mxw]
    | remove p =>
      simp only [Option.some.injEq] at h
      obtain ⟨k1, k2, _⟩ := GNSet.remove_keep g p
      exact key (z := ⟨x.cap, fun q => x.M q ∧ q ≠ p⟩) rfl ⟨fun h => by rw [k1]; exact R.live (k2 ▸ h), by rw [k1]; exact R.mxw, R.bound, fun q => by rw [GNSet.remove_mem, R.mem]⟩ h.symm
    | inter =>
      simp only [Option.some.injEq] at h
      obtain ⟨r, h1, h2, _⟩ := R.inter R'
      exact key h1 h2 h.symm
    | diff =>
      simp only [Option.some.injEq] at h
      obtain ⟨r, h1, h2, _⟩ := R.diff R'
      exact key h1 h2 h.symm
    | removeAbove p => cases h
  | union v u =>
    simp only [astep] at h
    obtain ⟨x, hx, h⟩ := Option.bind_eq_some_iff.1 h
    obtain ⟨y, hy, rfl⟩ := Option.map_eq_some_iff.1 h
    obtain ⟨g, hg, R⟩ := H.get hx
    obtain ⟨g', hg', R'⟩ := H.get hy
    obtain ⟨r, h1, h2⟩ := R.union R'
    exact ⟨_, by simp only [vstep, hg, hg', h1, Option.bind_some, Option.map_some, Rep.usable R, Rep.usable R', Bool.and_self, if_true], H.put v (g := some r) (x := some (some ⟨_, _⟩)) h2⟩
  | free v =>
    simp only [astep] at h
    obtain ⟨x, hx, rfl⟩ := Option.map_eq_some_iff.1 h
    obtain ⟨g, hg⟩ := H.inside hx
    exact ⟨_, by simp only [vstep, hg, Option.map_some], H.put v (g := Option.none) (x := none) trivial⟩

theorem rp_run (ops : List Op) : ∀ {e : Nat → Option G} {a a' : AEnv}, RpE e a → arun a ops = some a' → ∃ e', vrun e ops = some e' ∧ RpE e' a' := by
  induction ops with
  | nil => intro e a a' H h; cases h; exact ⟨e, rfl, H⟩
  | cons o os ih =>
    intro e a a' H h
    obtain ⟨a1, h1, h2⟩ := Option.bind_eq_some_iff.1 h
    obtain ⟨e1, h3, H1⟩ := rp_step H o h1
    obtain ⟨e2, h4, H2⟩ := ih H1 h2
    exact ⟨e2, by rw [vrun, h3]; exact h4, H2⟩

theorem holds_iff {s : St} {e : Nat → Option G} (H : R s e) {v : Nat} {g : G} {n : Nat} {M : Nat → Prop} (hg : e v = some g) (hr : Rep g n M) (q : Nat) :
    Holds s v q ↔ M q := by
  rcases H.cases v with ⟨_, h⟩ | ⟨o, g', ho, h, r1, r2, r3, r4⟩
  · rw [hg] at h; cases h
  · rw [hg] at h; cases h
    rw [← hr.mem, inW_iff]
    constructor
    · rintro ⟨o', a, n, t, h1, h2, h3, h4, h5, h6⟩
      rw [ho] at h1; cases h1
      obtain ⟨t', h7, h8⟩ := r4 a h2
      rw [h3] at h7; cases h7
      exact ⟨by omega, by rw [← h8 _ h4]; exact h6⟩
    · rintro ⟨h1, h2⟩
      cases hp : o.ptr with
      | none =>
        rw [hp] at r3
        have := hr.live r3
        omega
      | some a =>
        obtain ⟨t', h7, h8⟩ := r4 a hp
        exact ⟨o, a, _, t', ho, hp, h7, by omega, by omega, by rw [h8 _ (by omega)]; exact h2⟩

/-! ### C139 -/

/-- **C139.**  A program that keeps the rules runs without misusing memory, and at its end every variable holds exactly the
members set theory gives: a copy or an assigned set has the members of its source and is a set of its own, whatever happens
to the source later; a moved-to set has the members its source had; growing loses nothing. -/
theorem gnset_program_partial {ops : List Op} {a : AEnv} (h : arun (fun _ => none) ops = some a) :
    ∃ s, run St.empty ops = some s ∧ ∀ v,
      (a v = none ↔ s.obj v = none) ∧
      (∀ x, a v = some (some x) → ∀ q, Holds s v q ↔ x.M q) ∧
      (a v = some none → ∀ q, ¬ Holds s v q) := by
  obtain ⟨e, h1, H1⟩ := rp_run ops (e := fun _ => none) (a := fun _ => none) (fun _ => trivial) h
  have h2 := run_values ops R.empty
  rw [h1] at h2
  cases hs : run St.empty ops with
  | none => rw [hs] at h2; exact h2.elim
  | some s =>
    rw [hs] at h2
    have H : R s e := h2
    refine ⟨s, rfl, fun v => ⟨⟨fun hv => ?_, fun hv => ?_⟩, fun x hv q => ?_, fun hv q => ?_⟩⟩
    · have := H1.outside hv
      rcases H.cases v with ⟨h3, _⟩ | ⟨o, g, _, h3, _⟩
      · exact h3
      · rw [this] at h3; cases h3
    · cases ha : a v with
      | none => rfl
      | some x =>
        obtain ⟨g, hg⟩ := H1.inside ha
        rcases H.cases v with ⟨_, h3⟩ | ⟨o, g, h3, _, _⟩
        · rw [hg] at h3; cases h3
        · rw [hv] at h3; cases h3
    · obtain ⟨g, hg, R⟩ := H1.get (v := v) (x := x) (by unfold AEnv.get; rw [hv]; rfl)
      exact holds_iff H hg R q
    · rintro ⟨o, b, n, t, k1, k2, _⟩
      obtain ⟨g, hg⟩ := H1.inside hv
      have := H1 v
      rw [hg, hv] at this
      rcases H.cases v with ⟨h3, _⟩ | ⟨o', g', h3, h4, _, _, r3, _⟩
      · rw [k1] at h3; cases h3
      · rw [hg] at h4; cases h4
        rw [k1] at h3; cases h3
        rw [show g.nul = true from this, k2] at r3
        cases r3

/-- **C139.**  After any program that did not run into undefined behaviour — whether or not it keeps the rules — two variables
never share an array, no variable points to a deleted array, and every array not deleted belongs to a variable; so when all
variables are out of scope, everything allocated has been deleted. -/
theorem gnset_memory {ops : List Op} {s : St} (h : run St.empty ops = some s) :
    (∀ v w o q a, s.obj v = some o → s.obj w = some q → o.ptr = some a → q.ptr = some a → v = w) ∧
    (∀ v o a, s.obj v = some o → o.ptr = some a → ∃ t, s.mem a = some (o.mxw, t)) ∧
    (∀ a x, s.mem a = some x → ∃ v o, s.obj v = some o ∧ o.ptr = some a) ∧
    ((∀ v, s.obj v = none) → ∀ a, s.mem a = none) := by
  obtain ⟨e, _, H⟩ := run_R h
  refine ⟨H.inj, fun v o a hv ha => ?_, H.noleak, fun hn a => ?_⟩
  · rcases H.cases v with ⟨h3, _⟩ | ⟨o', g', h3, h4, r1, r2, r3, r4⟩
    · rw [hv] at h3; cases h3
    · rw [hv] at h3; cases h3
      obtain ⟨t, ht, _⟩ := r4 a ha
      exact ⟨t, ht⟩
  · cases hm : s.mem a with
    | none => rfl
    | some x =>
      obtain ⟨v, o, hv, _⟩ := H.noleak a x hm
      rw [hn v] at hv; cases hv

/-- A program: `a(64), a.insert(3), b(a), b.insert(200), a.remove(3), c(move(b)), b = move(a), d(c), d.unionWith(b), ~c`. -/
def prog : List Op :=
  [.new 0 64, .insert 0 3, .copy 1 0, .insert 1 200, .inpl 0 0 (.remove 3), .move 2 1, .moveAsg 1 0, .copy 3 2, .union 3 1, .free 2]

/-- It keeps the rules: `a` was moved from, `b` is empty, `c` is gone, `d` has exactly 3 and 200. -/
example : ∃ s, run St.empty prog = some s ∧ (∀ q, ¬ Holds s 0 q) ∧ (∀ q, ¬ Holds s 1 q) ∧ s.obj 2 = none ∧ ∀ q, Holds s 3 q ↔ q = 3 ∨ q = 200 := by
  obtain ⟨a, h, a0, a1, a2, a3⟩ : ∃ a, arun (fun _ => none) prog = some a ∧ a 0 = some none ∧ a 1 = some (some ⟨1, fun q => (q = 3 ∨ False) ∧ q ≠ 3⟩) ∧
    a 2 = none ∧ a 3 = some (some ⟨max 4 1, fun q => (q = 200 ∨ q = 3 ∨ False) ∨ (q = 3 ∨ False) ∧ q ≠ 3⟩) := ⟨_, rfl, rfl, rfl, rfl, rfl⟩
  obtain ⟨s, h1, h2⟩ := gnset_program_partial h
  refine ⟨s, h1, (h2 0).2.2 a0, fun q hq => ?_, (h2 2).1.1 a2, fun q => ?_⟩
  · have := ((h2 1).2.1 _ a1 q).1 hq
    simp at this
  · rw [(h2 3).2.1 _ a3 q]
    constructor
    · rintro ((h | h | h) | ⟨h | h, h'⟩)
      · exact .inr h
      · exact .inl h
      · exact h.elim
      · exact (h' h).elim
      · exact h.elim
    · rintro (h | h)
      · exact .inl (.inr (.inl h))
      · exact .inl (.inl h)

/-- **C139 fails when a moved-from set is assigned to**: the assignment keeps the array when the capacities agree, and a
moved-from set keeps its capacity but has no array. -/
theorem assign_moved_false : run St.empty [.new 0 64, .move 1 0, .copyAsg 0 1] = none ∧
    (run St.empty [.new 0 64, .move 1 0, .new 2 128, .copyAsg 0 2]).isSome = true := by decide +kernel

/-- **C139 fails for a move onto itself**: the array is deleted and the members are lost; the next insertion is undefined. -/
theorem self_move_false : ∃ s, run St.empty [.new 0 64, .insert 0 3, .moveAsg 0 0] = some s ∧ (∀ q, ¬ Holds s 0 q) ∧
    step s (.insert 0 5) = none := by
  have hv : (run St.empty [.new 0 64, .insert 0 3, .moveAsg 0 0]).map (fun s => (((s.obj 0).map fun o => o.ptr.isNone), (step s (.insert 0 5)).isNone)) = some (some true, true) := by
    decide +kernel
  simp only [Option.map_eq_some_iff, Prod.mk.injEq] at hv
  obtain ⟨s, h1, ⟨o, h2, h3⟩, h4⟩ := hv
  refine ⟨s, h1, ?_, by simpa using h4⟩
  rintro q ⟨o', a, n, t, k1, k2, _⟩
  rw [h2] at k1; cases k1
  rw [k2] at h3; cases h3

/-! ### From a `NatSet` -/

/-- **C139.**  `GNSet(s)` of a `NatSet` has the members of `s`; if there are any, `largestPossible()` is the largest one. -/
theorem ofNatSet_spec (n : Nat) (t : Nat → W) :
    (∀ q, GNSet.contains (GNSet.ofNatSet n t) q = true ↔ q < 64 * n ∧ (t (q / 64)).getLsbD (q % 64) = true) ∧
    ((∃ q, GNSet.contains (GNSet.ofNatSet n t) q = true) → n ≤ 1024 →
      GNSet.contains (GNSet.ofNatSet n t) (GNSet.ofNatSet n t).nbp = true ∧
      ∀ q, GNSet.contains (GNSet.ofNatSet n t) q = true → q ≤ (GNSet.ofNatSet n t).nbp) := by
  have hc : ∀ q, GNSet.contains (GNSet.ofNatSet n t) q = inW t n q := fun q => GNSet.contains_eq _ q
  refine ⟨fun q => by rw [hc, inW_iff], ?_⟩
  rintro ⟨q, hq⟩ hn
  rw [hc] at hq
  cases hl : lastWord t n with
  | none =>
    rw [lastWord_none] at hl
    rw [inW_iff] at hq
    rw [hl _ (by omega)] at hq
    simp at hq
  | some lw =>
    obtain ⟨m1, m2⟩ := largest_spec hl
    have hlt : 64 * lw + top (t lw) < 64 * n := (inW_iff.1 m1).1
    have hb : (GNSet.ofNatSet n t).nbp = 64 * lw + top (t lw) := by
      show ((NatSet.largest n t) % 2 ^ 16).toNat = _
      unfold NatSet.largest
      rw [hl]
      simp only
      omega
    rw [hb]
    exact ⟨by rw [hc]; exact m1, fun q hq => m2 q (by rw [← hc]; exact hq)⟩

/-- `removeAbove` works on such a set. -/
theorem ofNatSet_removeAbove {n : Nat} {t : Nat → W} (hn : n ≤ 1024) (hne : ∃ q, GNSet.contains (GNSet.ofNatSet n t) q = true) (p : Nat) :
    ∃ g', GNSet.removeAbove (GNSet.ofNatSet n t) p = some g' ∧ ∀ q, has g' q = true ↔ has (GNSet.ofNatSet n t) q = true ∧ q ≤ p := by
  obtain ⟨h1, h2⟩ := (ofNatSet_spec n t).2 hne hn
  have h3 := ((ofNatSet_spec n t).1 _).1 h1
  exact GNSet.removeAbove_partial (fun q hq => h2 q (by rw [GNSet.contains_eq]; exact hq)) (fun hp => by show _ < 64 * n; omega)

/-- Values 3 and 70 in two words. -/
example : (GNSet.ofNatSet 2 (fun i => if i = 0 then 8 else 64)).nbp = 70 := by decide

/-- **C139 fails for an empty `NatSet`**: `largest()` is −1, stored as 65535, and `removeAbove` writes past the words. -/
theorem ofNatSet_empty_false : (GNSet.ofNatSet 1 (fun _ => 0)).nbp = 65535 ∧ GNSet.removeAbove (GNSet.ofNatSet 1 (fun _ => 0)) 100 = none := by
  decide

end Verif.GNMem
