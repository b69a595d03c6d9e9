import Verif.Bounds
import Verif.Props.KnapsackS
/-!
# C131: a `Bounds` object across searches
-/
namespace Verif.BB
open Verif.DD
set_option linter.unusedSectionVars false
variable {σ : Type} {m : Mdl σ} {rank : σ → Nat} [Same σ]

/-- The users' callbacks in order of registration. -/
def userIds : List Cb → List Nat
  | [] => []
  | .user id :: cs => id :: userIds cs
  | .timer _ :: cs => userIds cs

/-- Callbacks that earlier searches left behind. -/
def Stale (run : Nat) (cs : List Cb) : Prop := ∃ r, r ≠ run ∧ Cb.timer r ∈ cs

theorem fire_ok {run : Nat} {l : List Int} {p : Int} : ∀ (cs : List Cb) (b : Bnd), ¬ Stale run cs →
    Bnd.fire run l p cs b = .ok { b with calls := b.calls ++ (userIds cs).map (fun i => ⟨i, l, p⟩) } := by
  intro cs
  induction cs with
  | nil => intro b _; simp [Bnd.fire, userIds]
  | cons c cs ih =>
    intro b h
    have h' : ¬ Stale run cs := fun ⟨r, h1, h2⟩ => h ⟨r, h1, by simp [h2]⟩
    cases c with
    | user id => rw [Bnd.fire, ih _ h', userIds]; simp
    | timer r =>
      rw [Bnd.fire, if_pos, ih _ h', userIds]
      apply Classical.byContradiction
      intro hr
      exact h ⟨r, hr, by simp⟩

theorem fire_ub {run : Nat} {l : List Int} {p : Int} : ∀ (cs : List Cb) (b : Bnd), Stale run cs → Bnd.fire run l p cs b = .ub := by
  intro cs
  induction cs with
  | nil => rintro b ⟨r, _, h⟩; simp at h
  | cons c cs ih =>
    rintro b ⟨r, h1, h2⟩
    cases c with
    | user id =>
      rw [Bnd.fire]
      exact ih _ ⟨r, h1, by simpa using h2⟩
    | timer q =>
      rw [Bnd.fire]
      split
      · rename_i hq
        refine ih _ ⟨r, h1, ?_⟩
        rcases List.mem_cons.1 h2 with x | x
        · simp at x; omega
        · exact x
      · rfl

/-- The calls that a list of reports makes. -/
def callsOf (ids : List Nat) (sols : List (Int × List Int)) : List Call := sols.flatMap fun x => ids.map fun i => ⟨i, x.2, x.1⟩

theorem reports_ok {run : Nat} : ∀ (sols : List (Int × List Int)) (b : Bnd), ¬ Stale run b.cbs →
    Bnd.reports run sols b = .ok { b with
      primal := (sols.getLast?.map (·.1)).or b.primal
      inc := (sols.getLast?.map (·.2)).getD b.inc
      calls := b.calls ++ callsOf (userIds b.cbs) sols } := by
  intro sols
  induction sols with
  | nil => intro b _; simp [Bnd.reports, callsOf]
  | cons x xs ih =>
    intro b h
    rw [Bnd.reports, Bnd.report, fire_ok _ _ h]
    dsimp only
    rw [ih { b with
      primal := some x.1, inc := x.2, calls := _ } h]
    cases xs with
    | nil => simp [callsOf]
    | cons y ys =>
      simp only [callsOf, List.flatMap_cons, List.append_assoc, List.getLast?_cons_cons]
      rw [List.getLast?_cons]
      simp

theorem reports_ub {run : Nat} {sols : List (Int × List Int)} {b : Bnd} (h : Stale run b.cbs) (hs : sols ≠ []) : Bnd.reports run sols b = .ub := by
  cases sols with
  | nil => exact absurd rfl hs
  | cons x xs => rw [Bnd.reports, Bnd.report, fire_ub _ _ h]

/-- C131: the first search on an object calls every callback of the user once for each solution, in the order of registration, with the solution's
labels and with its cost as the primal bound already stored; at the end the object holds the search's answer. -/
theorem bounds_first {w dfuel fuel : Nat} {lim : Nat → Bool} {b : Bnd} (hb : ∀ r, Cb.timer r ∉ b.cbs) {s : BS σ}
    (H : Layered m rank m.sti 0) {p0 : Int} (hp : b.primal.getD m.sense.best0 = p0) (hp0 : m.sense.betterEQ p0 m.sense.best0 = true)
    (h : search m w dfuel lim fuel p0 = some s) :
    ∃ b', searchB m w dfuel lim fuel b = some (.ok b') ∧ b'.primal = some s.primal ∧ b'.inc = (if s.sols = [] then b.inc else s.inc) ∧
      b'.calls = b.calls ++ callsOf (userIds b.cbs) s.sols ∧ b'.cbs = b.cbs ++ [.timer (b.runs + 1)] ∧ b'.runs = b.runs + 1 := by
  obtain ⟨h1, h2, _⟩ := init_inv H.src H.fair.toUniq w p0
  obtain ⟨_, hT, _⟩ := loop_inv (M := fun _ _ => m) (lc := fun _ _ => m.loc) (fun _ => Fam.const H) hp0 fuel 0 _ _ h1 h2 rfl h
  have hns : ¬ Stale (b.runs + 1) (b.cbs ++ [.timer (b.runs + 1)]) := by
    rintro ⟨r, a1, a2⟩
    rcases List.mem_append.1 a2 with x | x
    · exact hb r x
    · simp at x; exact a1 x
  have hid : ∀ cs r, userIds (cs ++ [Cb.timer r]) = userIds cs := by
    intro cs r
    induction cs with
    | nil => rfl
    | cons c cs ih => cases c <;> simp [userIds, ih]
  unfold searchB
  rw [hp, h]
  simp only [Option.map_some]
  rw [reports_ok _ _ hns]
  refine ⟨_, rfl, ?_, ?_, ?_, rfl, rfl⟩
  · dsimp only [Bnd.onSolution, Bnd.attach]
    rw [hp]
    rcases hT.last with x | ⟨ys, x⟩
    · rw [x.1, x.2.1]; rfl
    · rw [x]; simp
  · dsimp only [Bnd.onSolution, Bnd.attach]
    rcases hT.last with x | ⟨ys, x⟩
    · rw [x.1]; rfl
    · rw [x]; simp
  · dsimp only [Bnd.onSolution, Bnd.attach]
    rw [hid]

/-- C131: a search on an object that a search has used before is undefined exactly when it has something to report. -/
theorem bounds_again_iff {w dfuel fuel : Nat} {lim : Nat → Bool} {b : Bnd} {r : Nat} (hb : Cb.timer r ∈ b.cbs) (hr : r ≤ b.runs) {s : BS σ}
    (h : search m w dfuel lim fuel (b.primal.getD m.sense.best0) = some s) :
    searchB m w dfuel lim fuel b = some .ub ↔ s.sols ≠ [] := by
  have hst : Stale (b.runs + 1) (b.cbs ++ [.timer (b.runs + 1)]) := ⟨r, by omega, by simp [hb]⟩
  unfold searchB
  rw [h]
  simp only [Option.map_some]
  constructor
  · intro hu he
    rw [he] at hu
    simp [Bnd.reports] at hu
  · intro hs
    rw [reports_ub hst hs]

/-- C131: if no solution beats the stored bound, searching again, with whatever width, changes neither bound nor incumbent and calls nobody. -/
theorem bounds_again_optimal {w dfuel fuel : Nat} {lim : Nat → Bool} {b : Bnd} {p : Int} (hp : b.primal = some p)
    (H : Layered m rank m.sti 0) (hp0 : m.sense.betterEQ p m.sense.best0 = true) (hopt : ∀ ls c, Sol m ls c → m.sense.betterEQ p c = true) {s : BS σ}
    (h : search m w dfuel lim fuel p = some s) :
    ∃ b', searchB m w dfuel lim fuel b = some (.ok b') ∧ b'.primal = some p ∧ b'.inc = b.inc ∧ b'.calls = b.calls := by
  obtain ⟨h1, h2, _⟩ := init_inv H.src H.fair.toUniq w p
  obtain ⟨_, hT, _⟩ := loop_inv (M := fun _ _ => m) (lc := fun _ _ => m.loc) (fun _ => Fam.const H) hp0 fuel 0 _ _ h1 h2 rfl h
  have hs : s.sols = [] := by
    rw [List.eq_nil_iff_forall_not_mem]
    intro x hx
    have a := hT.beat x hx
    have b := hopt _ _ (hT.sol x hx)
    rw [Sense.better_iff] at a
    rw [Sense.betterEQ_iff] at b
    omega
  unfold searchB
  rw [hp]
  dsimp only [Option.getD_some]
  rw [h, Option.map_some, hs]
  refine ⟨_, rfl, ?_, rfl, rfl⟩
  dsimp only [Bnd.onSolution, Bnd.attach]
  rw [hp]; rfl

/-- C131: searching again for something better is undefined whenever it would succeed: if the stored bound is not optimal and the new search is complete
and loses nothing, it writes to a variable that is gone. -/
theorem bounds_again_better {w dfuel fuel : Nat} {lim : Nat → Bool} {b : Bnd} {p : Int} (hp : b.primal = some p) {r : Nat} (hb : Cb.timer r ∈ b.cbs) (hr : r ≤ b.runs)
    (H : Layered m rank m.sti 0) (hD : DomRank m rank) (hp0 : m.sense.betterEQ p m.sense.best0 = true)
    (hW : m.loc = none → ∀ ls c, Sol m ls c → m.sense.betterEQ m.sense.worst0 c = true) {ls : List Int} {c : Int} (hs : Sol m ls c) (hc : m.sense.better c p = true)
    {s : BS σ} (h : search m w dfuel lim fuel p = some s) (hok : okLoop m w dfuel lim fuel 0 (init m w p) = true) (hns : s.stopped = false) :
    searchB m w dfuel lim fuel b = some .ub := by
  rw [bounds_again_iff hb hr (s := s) (by rw [hp]; exact h)]
  intro he
  have h1 := search_optimum_partial H hD hp0 hW h hok hns ls c hs
  obtain ⟨i1, i2, _⟩ := init_inv H.src H.fair.toUniq w p
  obtain ⟨_, hT, _⟩ := loop_inv (M := fun _ _ => m) (lc := fun _ _ => m.loc) (fun _ => Fam.const H) hp0 fuel 0 _ _ i1 i2 rfl h
  rcases hT.last with x | ⟨ys, x⟩
  · rw [x.2.1, Sense.betterEQ_iff] at h1
    rw [Sense.better_iff] at hc
    omega
  · rw [he] at x; simp at x

/-- The searches of a session, one after the other on one object. -/
def session (m : Mdl σ) (dfuel fuel : Nat) : List (Nat × (Nat → Bool)) → Bnd → Option Outc
  | [], b => some (.ok b)
  | (w, lim) :: cs, b => (searchB m w dfuel lim fuel b).bind fun
    | .ok b' => session m dfuel fuel cs b'
    | .ub => some .ub

/-- C131: in a session that stays defined only the first search calls anybody, and the object's answer is the first search's: restarting with other widths
cannot improve it. -/
theorem bounds_session {dfuel fuel : Nat} : ∀ (cs : List (Nat × (Nat → Bool))) {b b' : Bnd} {r : Nat}, Cb.timer r ∈ b.cbs → r ≤ b.runs → b.primal.isSome = true →
    session m dfuel fuel cs b = some (.ok b') → b'.primal = b.primal ∧ b'.inc = b.inc ∧ b'.calls = b.calls := by
  intro cs
  induction cs with
  | nil => intro b b' r _ _ _ h; simp [session] at h; rw [← h]; exact ⟨rfl, rfl, rfl⟩
  | cons c cs ih =>
    intro b b' r hb hr hp h
    obtain ⟨w, lim⟩ := c
    rw [session, Option.bind_eq_some_iff] at h
    obtain ⟨o, h1, h2⟩ := h
    cases o with
    | ub => simp at h2
    | ok b1 =>
      dsimp only at h2
      cases hs : search m w dfuel lim fuel (b.primal.getD m.sense.best0) with
      | none => unfold searchB at h1; rw [hs] at h1; simp at h1
      | some s =>
        have hsol : s.sols = [] := by
          apply Classical.byContradiction
          intro hne
          rw [(bounds_again_iff hb hr hs).2 hne] at h1
          simp at h1
        unfold searchB at h1
        rw [hs, Option.map_some, hsol] at h1
        simp [Bnd.reports] at h1
        obtain ⟨p, hp⟩ := Option.isSome_iff_exists.1 hp
        have e : b1.primal = b.primal ∧ b1.inc = b.inc ∧ b1.calls = b.calls ∧ Cb.timer r ∈ b1.cbs ∧ r ≤ b1.runs := by
          rw [← h1]
          refine ⟨by simp [Bnd.onSolution, Bnd.attach, hp], rfl, rfl, by simp [Bnd.onSolution, Bnd.attach, hb], Nat.le_succ_of_le hr⟩
        obtain ⟨e1, e2, e3, e4, e5⟩ := e
        obtain ⟨k1, k2, k3⟩ := ih e4 e5 (by rw [e1, hp]; rfl) h2
        exact ⟨k1.trans e1, k2.trans e2, k3.trans e3⟩

theorem f3_run2 : ∃ s, search f3 2 50 (fun _ => false) 50 2147483647 = some s ∧ s.sols = [(106, [1, 0, 0, 0, 0]), (61, [0, 1, 0, 0, 0]), (19, [0, 0, 0, 1, 0])] := by
  have hv : (search f3 2 50 (fun _ => false) 50 2147483647).map (·.sols) =
    some [(106, [1, 0, 0, 0, 0]), (61, [0, 1, 0, 0, 0]), (19, [0, 0, 0, 1, 0])] := by decide +kernel
  simpa only [Option.map_eq_some_iff] using hv

theorem f3_again2 : ∃ s, search f3 2 50 (fun _ => false) 50 19 = some s ∧ s.sols = [(14, [1, 0, 0, 1, 0])] := by
  have hv : (search f3 2 50 (fun _ => false) 50 19).map (·.sols) = some [(14, [1, 0, 0, 1, 0])] := by decide +kernel
  simpa only [Option.map_eq_some_iff] using hv

/-- A first search with a callback of the user that finds three solutions. -/
theorem f3_first : searchB f3 2 50 (fun _ => false) 50 (Bnd.make [7]) =
    some (.ok ⟨some 19, [0, 0, 0, 1, 0], [.user 7, .timer 1], 1, [⟨7, [1, 0, 0, 0, 0], 106⟩, ⟨7, [0, 1, 0, 0, 0], 61⟩, ⟨7, [0, 0, 0, 1, 0], 19⟩]⟩) := by
  obtain ⟨s, h1, h2⟩ := f3_run2
  have h1 : search f3 2 50 (fun _ => false) 50 ((Bnd.make [7]).primal.getD f3.sense.best0) = some s := h1
  unfold searchB
  rw [h1, Option.map_some, h2]
  rfl

/-- C131 is false for restarts: the same search a second time, from the bound it ended with, finds the better solution 14 and then
writes to a variable that is gone. -/
theorem bounds_again_false : session f3 50 50 [(2, fun _ => false), (2, fun _ => false)] (Bnd.make [7]) = some .ub := by
  obtain ⟨s, h1, h2⟩ := f3_again2
  rw [session, f3_first, Option.bind_some]
  dsimp only
  rw [session, searchB]
  dsimp only [Option.getD_some]
  rw [h1, Option.map_some, h2]
  rfl

/-- Width 3 twice is defined: the second search has nothing to report. -/
example : session f3 50 50 [(3, fun _ => false), (3, fun _ => false)] (Bnd.make [7]) =
    some (.ok ⟨some 14, [1, 0, 0, 1, 0], [.user 7, .timer 1, .timer 2], 2, [⟨7, [0, 1, 0, 0, 0], 61⟩, ⟨7, [1, 0, 0, 1, 0], 14⟩]⟩) := by
  have hv : (search f3 3 50 (fun _ => false) 50 2147483647).map (·.sols) = some [(61, [0, 1, 0, 0, 0]), (14, [1, 0, 0, 1, 0])] := by decide +kernel
  have hu : (search f3 3 50 (fun _ => false) 50 14).map (·.sols) = some [] := by decide +kernel
  simp only [Option.map_eq_some_iff] at hv hu
  obtain ⟨s, h1, h2⟩ := hv
  obtain ⟨u, h3, h4⟩ := hu
  have h1 : search f3 3 50 (fun _ => false) 50 ((Bnd.make [7]).primal.getD f3.sense.best0) = some s := h1
  have hf : searchB f3 3 50 (fun _ => false) 50 (Bnd.make [7]) =
      some (.ok ⟨some 14, [1, 0, 0, 1, 0], [.user 7, .timer 1], 1, [⟨7, [0, 1, 0, 0, 0], 61⟩, ⟨7, [1, 0, 0, 1, 0], 14⟩]⟩) := by
    unfold searchB
    rw [h1, Option.map_some, h2]
    rfl
  rw [session, hf, Option.bind_some]
  dsimp only
  rw [session, searchB]
  dsimp only [Option.getD_some]
  rw [h3, Option.map_some, h4]
  rfl

/-- `bounds_again_better` on the knapsack: an object left with 90 by an earlier search. -/
example : searchB kn.mdl 2 50 (fun _ => false) 50 ⟨some 90, [0, 0, 0, 0], [.timer 1], 1, []⟩ = some .ub := by
  have hv : (search kn.mdl 2 50 (fun _ => false) 50 90).map (·.stopped) = some false := by decide +kernel
  simp only [Option.map_eq_some_iff] at hv
  obtain ⟨s, h1, h2⟩ := hv
  have hw : ∀ i, 0 ≤ kn.w i := by intro i; simp only [kn]; match i with | 0 | 1 | 2 | 3 => decide | n + 4 => simp
  exact bounds_again_better (p := 90) rfl (r := 1) (by simp) (by simp) kn_layered (by intro sd hsd; simp [Ex.Knap.mdl] at hsd) (by decide)
    (kn.worst hw kn_profit (by decide) (by decide) (by decide)) (ls := [1, 0, 0, 1]) (c := 95)
    ((kn.sol_iff hw (by decide) (by decide) _ _).2 ⟨rfl, by decide, by decide, by decide⟩) (by decide) h1 (by decide +kernel) h2

end Verif.BB
