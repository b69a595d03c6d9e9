import Verif.Short
import Verif.Props.BB
import Verif.Props.GrulerMidlb
import Verif.Props.TspV
import Verif.Props.Tsp4
/-!
# C129 and more on C81, C103, C105: models whose siblings do not merge
-/
namespace Verif.BB
open Verif.DD
variable {σ : Type} {Vl : σ → Int → Prop} {m : Mdl σ} {rank : σ → Nat} [Same σ]

/-- C129: the width of the relaxed diagrams never shrinks, and if the children of a state never merge
it is the one given all along. -/
theorem search_width {Wl : Nat → Int → σ → Int → Prop} {T : Nat → Int → Mdl σ} {lc : Nat → Int → Option (σ → Ctx → Int)} (F : ∀ k, FamV Vl (Wl k) m rank (T k)) (H : LayeredV Vl m rank m.sti 0)
    {p0 : Int} (hp0 : m.sense.betterEQ p0 m.sense.best0 = true) {w dfuel fuel : Nat} {lim : Nat → Bool} {s : BS σ}
    (h : searchT m T lc w dfuel lim fuel p0 = some s) :
    w ≤ s.wrel ∧ (Sib m rank → OneEnd m rank m.sti 0 → s.wrel = w) := by
  obtain ⟨a1, a2, _⟩ := init_inv H.src H.fair.toUniq w p0
  exact loop_wrel F hp0 fuel 0 _ _ a1 a2 h

/-- If moreover the value is determined by the state and there is no dominance test, a search that loses
nothing on shortcuts loses nothing. -/
theorem shortcuts_only {Wl : Nat → Int → σ → Int → Prop} {T : Nat → Int → Mdl σ} {lc : Nat → Int → Option (σ → Ctx → Int)} (F : ∀ k, FamV Vl (Wl k) m rank (T k)) (H : LayeredV Vl m rank m.sti 0)
    (hd : m.sdom = none) (hdet : Det m) (hS : Sib m rank) (hE : OneEnd m rank m.sti 0)
    {p0 : Int} (hp0 : m.sense.betterEQ p0 m.sense.best0 = true) {w dfuel fuel : Nat} {lim : Nat → Bool}
    (hok : scLoopT m T lc w dfuel lim fuel 0 (init m w p0) = true) : okLoopT m T lc w dfuel lim fuel 0 (init m w p0) = true := by
  obtain ⟨a1, a2, _⟩ := init_inv H.src H.fair.toUniq w p0
  exact okLoop_det F hd hdet hS hE hp0 fuel 0 _ a1 a2 hok

end Verif.BB

namespace Verif.Ex
open Verif.DD Verif.BB

/-! ### Rulers -/

section
variable (t : Gol)

theorem Gol.det (hn : 2 ≤ t.n) : Det t.full := by
  intro s ls ls' v v' h h' hq
  have a := (t.reach hn h).1.open t (ub := none) hq
  have b := (t.reach hn h').1.open t (ub := none) hq
  rw [a.2.2.1, b.2.2.1]

theorem Gol.smf_self {a c : GolS} (h : t.full.smf a a = some c) : c = a := by
  obtain ⟨_, _, rfl⟩ := t.smf_some (ub := none) h
  simp [Nat.and_self]

theorem Gol.sib (hn : 2 ≤ t.n) (hL : t.L < 2147483646) : Sib t.full t.rank := by
  intro s ls v h hq
  obtain ⟨h1, h2, h3, h4⟩ := (t.reach hn h).1.open t (ub := none) hq
  refine kids_apart (t.layered hL (t.reach hn h).1 hq) (fun a c h => t.smf_self h) ?_
  intro l l' a b c ha hb qa qb hm
  obtain ⟨i, rfl, _, _, _, rfl⟩ := (t.step_iff (ub := none) h2).1 ha
  obtain ⟨j, rfl, _, _, _, rfl⟩ := (t.step_iff (ub := none) h2).1 hb
  obtain ⟨_, e, _⟩ := t.smf_some (ub := none) hm
  have hk : s.k + 1 ≠ t.n := by
    intro hk
    simp [Gol.next, hk, Gol.full, Gol.mdl, Gol.target] at qa
  simp only [Gol.next, if_neg hk] at e
  rw [e]

theorem Gol.oneEnd (hn : 2 ≤ t.n) : OneEnd t.full t.rank t.full.sti 0 := by
  intro s v h hq
  rcases t.relx (ub := none) (t.ok_root hn) h with h | ⟨_, h, _⟩
  · exact h.1
  · simp [Gol.full, Gol.mdl] at hq; omega

/-- C129 for examples/gruler.cpp. -/
theorem gruler_width_stays (hn : 2 ≤ t.n) (hL : t.L < 2147483646) (hopt : t.OptOk) {w dfuel fuel : Nat} {lim : Nat → Bool} {s : BS GolS}
    (h : searchP t.full t.fam w dfuel lim fuel 2147483647 = some s) : s.wrel = w :=
  (search_width (fun _ => t.fam_ok hn hL hopt) (t.layered_root hn hL) rfl h).2 (t.sib hn hL) (t.oneEnd hn)

/-- C129 for examples/gruler_mid.cpp. -/
theorem gruler_mid_width_stays (hn : 2 ≤ t.n) (hL : t.L < 2147483646) (hopt : t.OptOk) {w dfuel fuel : Nat} {lim : Nat → Bool} {s : BS GolS}
    (h : searchP t.full t.mid w dfuel lim fuel 2147483647 = some s) : s.wrel = w := by
  obtain ⟨Q, hQ, _⟩ := t.mid_covers hn hopt
  exact (search_width (fun _ => t.mid_ok hn hL hopt hQ) (t.can_layered hn hL Q) rfl h).2 (t.sib hn hL) (t.oneEnd hn)

/-- C81, for any width: if along the run no better ruler was lost on an arc from an exact node of a relaxed diagram
straight to the sink, the search ends with the shortest ruler, or nothing when that is longer than `L + 1`.
Nothing else can lose a ruler.  Missing: that no ruler is lost there. -/
theorem gruler_shortcut_partial (hn : 2 ≤ t.n) (hL : t.L < 2147483646) (hopt : t.OptOk) {w dfuel fuel : Nat} {lim : Nat → Bool} {s : BS GolS}
    (h : searchP t.full t.fam w dfuel lim fuel 2147483647 = some s)
    (hok : scLoopP t.full t.fam w dfuel lim fuel 0 (init t.full w 2147483647) = true) (hns : s.stopped = false) :
    (∃ q : Nat, s.primal = q ∧ Shortest t.n q ∧ ∃ ms : List Nat, s.inc = ms.map (fun i : Nat => (i : Int)) ∧ Golomb (0 :: ms) ∧
      ms.length + 1 = t.n ∧ ms.getLast?.getD 0 = q) ∨
    (s.primal = 2147483647 ∧ ∀ ms : List Nat, Golomb (0 :: ms) → ms.length + 1 = t.n → t.L + 1 < ms.getLast?.getD 0) :=
  gruler_search_partial t hn hL hopt h
    (shortcuts_only (fun _ => t.fam_ok hn hL hopt) (t.layered_root hn hL) rfl (t.det hn) (t.sib hn hL) (t.oneEnd hn) rfl hok) hns

/-- C103, for any width: the same for examples/gruler_mid.cpp.  Missing: the same. -/
theorem gruler_mid_shortcut_partial (hn : 2 ≤ t.n) (hL : t.L < 2147483646) (hopt : t.OptOk) {w dfuel fuel : Nat} {lim : Nat → Bool} {s : BS GolS}
    (h : searchP t.full t.mid w dfuel lim fuel 2147483647 = some s)
    (hok : scLoopP t.full t.mid w dfuel lim fuel 0 (init t.full w 2147483647) = true) (hns : s.stopped = false) :
    (∃ q : Nat, s.primal = q ∧ Shortest t.n q ∧ ∃ ms : List Nat, s.inc = ms.map (fun i : Nat => (i : Int)) ∧ Golomb (0 :: ms) ∧
      ms.length + 1 = t.n ∧ ms.getLast?.getD 0 = q) ∨
    (s.primal = 2147483647 ∧ ∀ ms : List Nat, Golomb (0 :: ms) → ms.length + 1 = t.n → t.L + 1 < ms.getLast?.getD 0) := by
  obtain ⟨Q, hQ, _⟩ := t.mid_covers hn hopt
  exact gruler_mid_partial t hn hL hopt h
    (shortcuts_only (fun _ => t.mid_ok hn hL hopt hQ) (t.can_layered hn hL Q) rfl (t.det hn) (t.sib hn hL) (t.oneEnd hn) rfl hok) hns

/-! With the smallest unused distance. -/

theorem Gol.relxB_root (hn : 2 ≤ t.n) {s : GolB} {v : Int} (h : Relx t.fullB t.rankB t.fullB.sti 0 s v) : t.Ok s.g v ∧ 1 ≤ s.sm := by
  rw [t.fullB_eq] at h
  obtain ⟨a, b⟩ := t.relxB_proj h (Nat.le_refl 1)
  exact ⟨t.relx (ub := none) (t.ok_root hn) a, b⟩

theorem Gol.stepB_full {x x' : GolB} {l : Int} (h : Step t.fullB x l x') : ∃ c : Nat, l = c ∧ x' = t.nextB x c := by
  rw [t.fullB_eq] at h
  obtain ⟨_, c, h1, _, _, _, _, h2⟩ := t.stepB_iff.1 h
  exact ⟨c, h1, h2⟩

theorem Gol.detB (hn : 2 ≤ t.n) : Det t.fullB := by
  intro s ls ls' v v' h h' hq
  exact t.det hn _ _ _ _ _ (t.projB h (Nat.le_refl 1)).1 (t.projB h' (Nat.le_refl 1)).1 hq

theorem Gol.smfB_full {a b c : GolB} (h : t.fullB.smf a b = some c) :
    a.g.k = b.g.k ∧ a.g.e = b.g.e ∧ c = ⟨⟨a.g.m &&& b.g.m, a.g.d &&& b.g.d, a.g.k, a.g.e⟩, min a.sm b.sm⟩ := by
  rw [t.fullB_eq] at h
  exact t.smfB_some h

theorem Gol.sibB (hn : 2 ≤ t.n) (hL : t.L < 2147483646) : Sib t.fullB t.rankB := by
  intro s ls v h hq
  have H := (t.canB_layered hn hL 0).of_path h hq
  rw [Int.zero_add] at H
  refine kids_apart H (fun a c h => by
    obtain ⟨_, _, rfl⟩ := t.smfB_full h
    simp [Nat.and_self]) ?_
  intro l l' a b c ha hb qa qb hm
  obtain ⟨i, rfl, rfl⟩ := t.stepB_full ha
  obtain ⟨j, rfl, rfl⟩ := t.stepB_full hb
  obtain ⟨_, e, _⟩ := t.smfB_full hm
  have hk : s.g.k + 1 ≠ t.n := by
    intro hk
    simp [Gol.nextB, hk, Gol.fullB, Gol.mdlB, Gol.targetB, Gol.target] at qa
  simp only [Gol.nextB, if_neg hk] at e
  rw [e]

theorem Gol.oneEndB (hn : 2 ≤ t.n) (hL : t.L < 2147483646) : OneEnd t.fullB t.rankB t.fullB.sti 0 := by
  refine one_end (t.canB_layered hn hL 0) fun s v l s' hr hs hq => ?_
  obtain ⟨i, _, rfl⟩ := t.stepB_full hs
  by_cases hk : s.g.k + 1 = t.n
  · unfold Gol.nextB; rw [if_pos hk]; rfl
  · unfold Gol.nextB at hq
    rw [if_neg hk] at hq
    simp [Gol.fullB, Gol.mdlB] at hq
    omega

/-- C129 for examples/gruler_midlb.cpp. -/
theorem midlb_width_stays (hn : 2 ≤ t.n) (hL : t.L < 2147483646) (hopt : t.OptOk) {w dfuel fuel : Nat} {lim : Nat → Bool} {s : BS GolB}
    (h : searchP t.fullB t.midB w dfuel lim fuel 2147483647 = some s) : s.wrel = w := by
  obtain ⟨Q, hQ, _⟩ := t.midB_covers hn hopt
  exact (search_width (fun _ => t.midB_ok hn hL hopt hQ) (t.canB_layered hn hL Q) rfl h).2 (t.sibB hn hL) (t.oneEndB hn hL)

/-- C105, for any width: the same for examples/gruler_midlb.cpp.  Missing: the same. -/
theorem midlb_shortcut_partial (hn : 2 ≤ t.n) (hL : t.L < 2147483646) (hopt : t.OptOk) {w dfuel fuel : Nat} {lim : Nat → Bool} {s : BS GolB}
    (h : searchP t.fullB t.midB w dfuel lim fuel 2147483647 = some s)
    (hok : scLoopP t.fullB t.midB w dfuel lim fuel 0 (init t.fullB w 2147483647) = true) (hns : s.stopped = false) :
    (∃ q : Nat, s.primal = q ∧ Shortest t.n q ∧ ∃ ms : List Nat, s.inc = ms.map (fun i : Nat => (i : Int)) ∧ Golomb (0 :: ms) ∧
      ms.length + 1 = t.n ∧ ms.getLast?.getD 0 = q) ∨
    (s.primal = 2147483647 ∧ ∀ ms : List Nat, Golomb (0 :: ms) → ms.length + 1 = t.n → t.L + 1 < ms.getLast?.getD 0) := by
  obtain ⟨Q, hQ, _⟩ := t.midB_covers hn hopt
  exact midlb_partial t hn hL hopt h
    (shortcuts_only (fun _ => t.midB_ok hn hL hopt hQ) (t.canB_layered hn hL Q) rfl (t.detB hn) (t.sibB hn hL) (t.oneEndB hn hL) rfl hok) hns
end

/-! ### Tours -/

theorem Tsp.sib (t : Tsp) {D : Int} (hD : t.Bnd D) (hn : 1 < t.nv) : Sib t.mdl t.rank := by
  intro s ls v h hq
  have H0 : Layered t.mdl t.rank t.mdl.sti 0 := t.layered hD hn (s0 := ⟨0, 1, 0⟩) (v0 := 0) (by dsimp only; omega) ⟨hn, fun _ => hn⟩ (by simp)
  have hr := h.relx (rank := t.rank) (v0 := 0) Relx.root
  have H := H0.of_path h hq
  rw [Int.zero_add] at H
  have hs : s.hops < t.nv := by
    rcases (t.relx hD hn (s0 := ⟨0, 1, 0⟩) (v0 := 0) (by dsimp only; omega) ⟨hn, fun _ => hn⟩ (by simp) hr).1 with h | h
    · exact h
    · rw [h] at hq; simp [Tsp.mdl] at hq
  have smf : ∀ a b c, t.mdl.smf a b = some c → a.e = b.e ∧ c = ⟨a.s &&& b.s, a.e, a.hops⟩ := by
    intro a b c h
    simp only [Tsp.mdl] at h
    split at h
    · rename_i hc
      simp at h
      exact ⟨hc.1, h.symm⟩
    · simp at h
  refine kids_apart H (fun a c h => by
    obtain ⟨_, rfl⟩ := smf _ _ _ h
    simp [Nat.and_self]) ?_
  intro l l' a b c ha hb qa qb hm
  rcases (t.step_iff hs).1 ha with ⟨_, _, rfl⟩ | ⟨_, i, _, _, _, _, _, rfl⟩
  · simp [Tsp.mdl] at qa
  · rcases (t.step_iff hs).1 hb with ⟨_, _, rfl⟩ | ⟨_, j, _, _, _, _, _, rfl⟩
    · simp [Tsp.mdl] at qb
    · have := (smf _ _ _ hm).1
      dsimp only at this
      rw [this]

theorem Tsp.oneEnd (t : Tsp) {D : Int} (hD : t.Bnd D) (hn : 1 < t.nv) : OneEnd t.mdl t.rank t.mdl.sti 0 := by
  intro s v h hq
  rcases (t.relx hD hn (s0 := ⟨0, 1, 0⟩) (v0 := 0) (by dsimp only; omega) ⟨hn, fun _ => hn⟩ (by simp) h).1 with h | h
  · simp [Tsp.mdl] at hq; omega
  · exact h

/-- C129 for examples/tsp.cpp. -/
theorem tsp_width_stays (t : Tsp) {D : Int} (hD : t.Bnd D) (hn : 1 < t.nv) {w dfuel fuel : Nat} {lim : Nat → Bool} {s : BS TspS}
    (h : search t.mdl w dfuel lim fuel 2147483647 = some s) : s.wrel = w := by
  have H0 : Layered t.mdl t.rank t.mdl.sti 0 := t.layered hD hn (s0 := ⟨0, 1, 0⟩) (v0 := 0) (by dsimp only; omega) ⟨hn, fun _ => hn⟩ (by simp)
  exact (search_width (fun _ => Fam.const H0) H0 rfl h).2 (t.sib hD hn) (t.oneEnd hD hn)

/-- C129: every subproblem examples/tsp.cpp splits off lies deeper in the tour than the one it is split from. -/
theorem tsp_deeper (t : Tsp) {D : Int} (hD : t.Bnd D) (hn : 1 < t.nv) {p : Int} {w fuel : Nat} {r : Src TspS} {g : G TspS}
    (hr : Path t.mdl t.mdl.sti r.lab r.bound r.st) (hq : t.mdl.eqs r.st = false) (h : relaxed t.mdl p w fuel r = some g) {cs : List Nat}
    (hc : cutSet g = some cs) : ∀ n, n ∈ cs → r.st.hops < (g.st n).hops := by
  have H0 : Layered t.mdl t.rank t.mdl.sti 0 := t.layered hD hn (s0 := ⟨0, 1, 0⟩) (v0 := 0) (by dsimp only; omega) ⟨hn, fun _ => hn⟩ (by simp)
  exact cut_root (Fam.const H0) (t.sib hD hn) (t.oneEnd hD hn) hr hq h hc

theorem Tsp4.sib (t : Tsp4) {J D : Int} (hD : t.Bnd D) (hd : t.Nonneg) (hn : 1 ≤ t.nv) (hJ : ∀ ls c, t.Tour ls c → J ≤ c) : Sib (t.mdl J) t.rank := by
  intro s ls v h hq
  have H0 : Layered (t.mdl J) t.rank (t.mdl J).sti 0 := t.layered hD hd (s0 := ⟨1, 0, 0⟩) (v0 := 0) (t.ok_root hn) (by simp)
    (fun _ c ⟨ls, h⟩ => hJ ls c ((t.sol_iff hn ls c).1 h))
  have hr := h.relx (rank := t.rank) (v0 := 0) Relx.root
  have H := H0.of_path h hq
  rw [Int.zero_add] at H
  have hs : t.Ok s := by
    rcases (t.relx hD (s0 := ⟨1, 0, 0⟩) (v0 := 0) (t.ok_root hn) (by simp) hr).1 with h | h
    · exact h.1
    · rw [h] at hq; simp [Tsp4.mdl] at hq
  refine kids_apart H (fun a c h => by
    obtain ⟨_, _, rfl⟩ := t.smf_some h
    simp [Nat.and_self]) ?_
  intro l l' a b c ha hb qa qb hm
  rcases (t.step_iff hs).1 ha with ⟨_, _, rfl⟩ | ⟨_, i, _, _, _, rfl⟩
  · simp [Tsp4.mdl] at qa
  · rcases (t.step_iff hs).1 hb with ⟨_, _, rfl⟩ | ⟨_, j, _, _, _, rfl⟩
    · simp [Tsp4.mdl] at qb
    · have := (t.smf_some hm).1
      dsimp only at this
      rw [this]

theorem Tsp4.oneEnd (t : Tsp4) {J D : Int} (hD : t.Bnd D) (hn : 1 ≤ t.nv) : OneEnd (t.mdl J) t.rank (t.mdl J).sti 0 := by
  intro s v h hq
  rcases (t.relx hD (s0 := ⟨1, 0, 0⟩) (v0 := 0) (t.ok_root hn) (by simp) h).1 with h | h
  · rw [t.eqs_false h.1.hops] at hq; cases hq
  · exact h

/-- C129 for examples/tsp_test4.cpp, if the value read at the root is harmless. -/
theorem tsp4_width_stays (t : Tsp4) {J D : Int} (hD : t.Bnd D) (hd : t.Nonneg) (hn : 1 ≤ t.nv) (hJ : ∀ ls c, t.Tour ls c → J ≤ c) {w dfuel fuel : Nat} {lim : Nat → Bool} {s : BS Tsp4S}
    (h : search (t.mdl J) w dfuel lim fuel 2147483647 = some s) : s.wrel = w := by
  have H0 : Layered (t.mdl J) t.rank (t.mdl J).sti 0 := t.layered hD hd (s0 := ⟨1, 0, 0⟩) (v0 := 0) (t.ok_root hn) (by simp)
    (fun _ c ⟨ls, h⟩ => hJ ls c ((t.sol_iff hn ls c).1 h))
  exact (search_width (fun _ => Fam.const H0) H0 rfl h).2 (t.sib hD hd hn hJ) (t.oneEnd hD hn)

/-! ### Cases -/

/-- Four marks within length 9, width 1: diagrams are split, the width stays and the answer is the shortest ruler. -/
example : ∃ s, searchP g48.full g48.fam 1 20 (fun _ => false) 30 2147483647 = some s ∧
    1 < s.pn ∧ s.wrel = 1 ∧ s.primal = 6 ∧ Shortest 4 6 := by
  have hv : (searchP g48.full g48.fam 1 20 (fun _ => false) 30 2147483647).map
      (fun s => (decide (1 < s.pn), s.primal, s.stopped)) = some (true, 6, false) := by decide +kernel
  simp only [Option.map_eq_some_iff] at hv
  obtain ⟨s, h1, h2⟩ := hv
  simp at h2
  have ht := gruler_table (n := 4) (by decide) 8
  rcases gruler_shortcut_partial g48 (by decide) (by decide) ht h1 (by decide +kernel) h2.2.2 with
    ⟨q, a, b, _⟩ | ⟨a, _⟩
  · have e : q = 6 := by omega
    subst e
    exact ⟨s, h1, h2.1, gruler_width_stays _ (by decide) (by decide) ht h1, h2.2.1, b⟩
  · omega

/-- The same with the middle mark bounded. -/
example : ∃ s, searchP g48.full g48.mid 1 20 (fun _ => false) 30 2147483647 = some s ∧
    s.wrel = 1 ∧ s.primal = 6 ∧ Shortest 4 6 := by
  have hv : (searchP g48.full g48.mid 1 20 (fun _ => false) 30 2147483647).map
      (fun s => (s.primal, s.stopped)) = some (6, false) := by decide +kernel
  simp only [Option.map_eq_some_iff] at hv
  obtain ⟨s, h1, h2⟩ := hv
  simp at h2
  have ht := gruler_table (n := 4) (by decide) 8
  rcases gruler_mid_shortcut_partial g48 (by decide) (by decide) ht h1 (by decide +kernel) h2.2 with
    ⟨q, a, b, _⟩ | ⟨a, _⟩
  · have e : q = 6 := by omega
    subst e
    exact ⟨s, h1, gruler_mid_width_stays _ (by decide) (by decide) ht h1, h2.1, b⟩
  · omega

/-- The same with the smallest unused distance. -/
example : ∃ s, searchP b48.fullB b48.midB 1 20 (fun _ => false) 30 2147483647 = some s ∧
    s.wrel = 1 ∧ s.primal = 6 ∧ Shortest 4 6 := by
  have hv : (searchP b48.fullB b48.midB 1 20 (fun _ => false) 30 2147483647).map
      (fun s => (s.primal, s.stopped)) = some (6, false) := by decide +kernel
  simp only [Option.map_eq_some_iff] at hv
  obtain ⟨s, h1, h2⟩ := hv
  simp at h2
  have ht := gruler_table19 (n := 4) (by decide) 8
  rcases midlb_shortcut_partial b48 (by decide) (by decide) ht h1 (by decide +kernel) h2.2 with
    ⟨q, a, b, _⟩ | ⟨a, _⟩
  · have e : q = 6 := by omega
    subst e
    exact ⟨s, h1, midlb_width_stays _ (by decide) (by decide) ht h1, h2.1, b⟩
  · omega

/-- Four cities, width 1: the search splits and the width stays. -/
example : ∃ s, search t4.mdl 1 50 (fun _ => false) 50 2147483647 = some s ∧ 1 < s.pn ∧ s.wrel = 1 := by
  have hv : (search t4.mdl 1 50 (fun _ => false) 50 2147483647).map (fun s => decide (1 < s.pn)) = some true := by decide +kernel
  simp only [Option.map_eq_some_iff] at hv
  obtain ⟨s, h1, h2⟩ := hv
  exact ⟨s, h1, by simpa using h2, tsp_width_stays t4 t4_bnd (by decide) h1⟩

/-- Five cities with local bounds, width 1: a cut set of four nodes is handled and the width stays. -/
example : ∃ s, search (q5.mdl 0) 1 50 (fun _ => false) 50 2147483647 = some s ∧ s.log.length = 4 ∧ s.wrel = 1 := by
  have hv : (search (q5.mdl 0) 1 50 (fun _ => false) 50 2147483647).map (fun s => decide (s.log.length = 4)) = some true := by decide +kernel
  simp only [Option.map_eq_some_iff] at hv
  obtain ⟨s, h1, h2⟩ := hv
  have hlen : ∀ (p : List Nat) (a : Nat), a < 5 → (∀ i, i ∈ p → i < 5) → 0 ≤ q5.length a p := by
    intro p
    induction p with
    | nil => intro a _ _; simp [Tsp4.length]
    | cons b p ih =>
      intro a ha hp
      have := ih b (hp b (by simp)) (fun i hi => hp i (by simp [hi]))
      have := q5_nonneg a b ha (hp b (by simp))
      simp only [Tsp4.length]; omega
  exact ⟨s, h1, by simpa using h2, tsp4_width_stays q5 q5_bnd q5_nonneg (by decide) (fun ls c ⟨p, _, _, h4, h5⟩ => by
    rw [h5]
    refine hlen _ 0 (by decide) (fun i hi => ?_)
    rcases List.mem_append.1 hi with hi | hi
    · exact ((h4 i).1 hi).1
    · simp at hi; omega) h1⟩

/-- Where siblings do merge the width grows: `widening_false` (Props/BB.lean). -/
example : ∃ s, search f2 1 50 (fun _ => false) 50 2147483647 = some s ∧ s.wrel = 2 := by
  obtain ⟨s, _, h, _, _, h1, _⟩ := widening_false
  exact ⟨s, h, h1⟩

end Verif.Ex
