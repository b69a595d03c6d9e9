import Verif.NoMerge
import Verif.Props.TspToy
/-!
# C98, C99, C100: the searches of the toy TSP examples
-/
namespace Verif.Ex
open Verif.DD

variable (t : Toy) {ok : Nat → Nat → Bool}

/-! ### tsptoy: the searches -/

/-- C98: tsptoy asks for the distance between two different cities only: `es.at` never throws. -/
theorem toy_arcs (hn : 1 < t.n) {x x' : TspS} {v : Int} {l : Int} (h : Relx (t.mdl ok) t.rank (t.mdl ok).sti 0 x v) (hst : Step (t.mdl ok) x l x') :
    x.e ∈ t.cs ∧ ∃ i, l = (i : Nat) ∧ i ∈ t.cs ∧ i ≠ x.e := by
  have key : (x = (t.mdl ok).stt) ∨ (x.hops < t.n ∧ x.e ∈ t.cs ∧ (x.e = 1 → x.hops = 0)) := by
    clear hst
    induction h with
    | swap _ _ hsw _ ihsw => obtain rfl := (same_iff _ _).1 hsw; exact ihsw
    | root => exact .inr ⟨by show 0 < t.n; omega, t.mem_cs.2 ⟨Nat.le_refl 1, Nat.le_of_lt hn⟩, fun _ => rfl⟩
    | @step x x' l v _ hst ih =>
      rcases ih with rfl | ⟨h1, _, _⟩
      · have := hst.1; simp [Toy.mdl] at this
      · rcases (t.step_iff h1).1 hst with ⟨_, _, h3⟩ | ⟨h1, i, _, h3, _, h5, _, h7⟩
        · exact .inl h3
        · subst h7; exact .inr ⟨h1, h3, fun h => absurd h h5⟩
    | @mergeL a b c v v' _ _ ha hb hr hm ih1 ih2 =>
      rcases ih1 with rfl | ih1
      · simp [Toy.mdl] at ha
      · simp only [Toy.mdl] at hm
        split at hm
        · simp at hm; subst hm; exact .inr ih1
        · simp at hm
    | @mergeR a b c v v' _ _ ha hb hr hm ih1 ih2 =>
      rcases ih1 with rfl | ih1
      · simp [Toy.mdl] at ha
      · simp only [Toy.mdl] at hm
        split at hm
        · simp at hm; subst hm; exact .inr ih1
        · simp at hm
  rcases key with rfl | ⟨h1, h2, h3⟩
  · have := hst.1; simp [Toy.mdl] at this
  · refine ⟨h2, ?_⟩
    rcases (t.step_iff h1).1 hst with ⟨h4, h5, _⟩ | ⟨_, i, h4, h5, _, _, h6, _⟩
    · exact ⟨1, h5, t.mem_cs.2 ⟨Nat.le_refl 1, Nat.le_of_lt hn⟩, fun h => by have := h3 h.symm; omega⟩
    · exact ⟨i, h4, h5, h6⟩

/-- C99: the searches of tsptoy, from the bounds of `Bounds`, for any distances and at any width: every reported solution is a tour
with its length; the search ends; if the width is enough for the open states of every rank it ends with a
shortest tour. -/
theorem toy_search (hn : 1 < t.n) {D : Int} (hD : t.Bnd D) (hlow : ∀ ls c, t.Tour ls c → -2147483647 ≤ c) (w : Nat) {dfuel : Nat} (hf : t.n + 2 ≤ dfuel) (lim : Nat → Bool) :
    (∃ L, ∀ fuel, L < fuel → ∃ s, BB.search (t.mdl ok) w dfuel lim fuel 2147483647 = some s ∧ (s.stopped = true ∨ Heap.empty s.pq = true)) ∧
    ∀ fuel s, BB.search (t.mdl ok) w dfuel lim fuel 2147483647 = some s → (∀ x, x ∈ s.sols → t.Tour x.2 x.1) ∧
      (Room (t.mdl ok) t.rank (t.mdl ok).sti w → s.stopped = false → ShortestTour t.Tour s.primal ∧ t.Tour s.inc s.primal) := by
  have P := t.prog (ok := ok) hn hD hlow
  exact ⟨P.ends w hf lim, fun fuel s h => ⟨P.sound h, fun hR hns => P.room hR h hns⟩⟩

/-- C99, any width: if along the run nothing was dropped for a bad reason, tsptoy ends with a shortest tour.
Missing: the other runs (`toy_search_false`). -/
theorem toy_search_partial (hn : 1 < t.n) {D : Int} (hD : t.Bnd D) (hlow : ∀ ls c, t.Tour ls c → -2147483647 ≤ c) {w dfuel fuel : Nat} {lim : Nat → Bool}
    {s : BB.BS TspS} (h : BB.search (t.mdl ok) w dfuel lim fuel 2147483647 = some s)
    (hok : BB.okLoop (t.mdl ok) w dfuel lim fuel 0 (BB.init (t.mdl ok) w 2147483647) = true) (hns : s.stopped = false) :
    ShortestTour t.Tour s.primal ∧ t.Tour s.inc s.primal :=
  (t.prog hn hD hlow).okrun h hok hns

/-! ### tsptoy2 -/

/-- Terminal states of tsptoy2 other than the root: the engine never asks `eqs` of the root. -/
def Toy2S.fin (x : Toy2S) : Bool := decide (x.e = 1) && decide (x.s ≠ 0)

/-- Rank of a state of tsptoy2: cities visited. -/
def Toy.rank2 (t : Toy) (x : Toy2S) : Nat := t.size x.s

/-- Open states of tsptoy2. -/
def Toy.W (t : Toy) (x : Toy2S) : Prop :=
  (∀ i, x.s.testBit i = true → i ∈ t.cs ∧ i ≠ 1) ∧ ((x.e = 1 ∧ x.s = 0) ∨ x.s.testBit x.e = true)

theorem Toy.W.e_ne {x : Toy2S} (h : t.W x) (h1 : x.s ≠ 0) : x.e ≠ 1 := by
  rcases h.2 with ⟨_, h2⟩ | h2
  · exact absurd h2 h1
  · exact (h.1 _ h2).2

theorem Toy.W.fin {x : Toy2S} (h : t.W x) : x.fin = false := by
  by_cases h1 : x.s = 0
  · simp [Toy2S.fin, h1]
  · simp [Toy2S.fin, h.e_ne t h1]

theorem Toy.size_zero : t.size 0 = 0 := by
  unfold Toy.size
  rw [List.length_eq_zero_iff, List.filter_eq_nil_iff]
  intro i _
  simp

theorem Toy.up_root : (⟨0, 1, t.size 0⟩ : TspS) = ⟨0, 1, 0⟩ := by rw [t.size_zero]

theorem Toy.size_ins {s i : Nat} (hi : i ∈ t.cs) (hb : s.testBit i = false) : t.size (s ||| 2 ^ i) = t.size s + 1 := by
  unfold Toy.size
  have : (t.cs.filter fun j => (s ||| 2 ^ i).testBit j).Perm (i :: t.cs.filter fun j => s.testBit j) := by
    rw [List.perm_ext_iff_of_nodup (List.Pairwise.filter _ t.cs_nodup)]
    · intro j
      rw [List.mem_cons, List.mem_filter, List.mem_filter, Nat.testBit_or, Nat.testBit_two_pow]
      by_cases h : i = j
      · subst h; simp [hi]
      · simp [h, Ne.symm h]
    · rw [List.nodup_cons]
      exact ⟨fun h => by rw [List.mem_filter, hb] at h; simp at h, List.Pairwise.filter _ t.cs_nodup⟩
  rw [this.length_eq, List.length_cons]

theorem Toy.W.size_lt (hn : 1 < t.n) {x : Toy2S} (h : t.W x) : t.size x.s < t.n := by
  have h1c : 1 ∈ t.cs := t.mem_cs.2 ⟨Nat.le_refl 1, Nat.le_of_lt hn⟩
  unfold Toy.size
  have : (t.cs.filter fun j => x.s.testBit j).length < t.cs.length := by
    rw [List.length_filter_lt_length_iff_exists]
    exact ⟨1, h1c, fun h1 => (h.1 1 h1).2 rfl⟩
  rwa [t.cs_len] at this

theorem Toy.W.ins {x : Toy2S} (h : t.W x) {i : Nat} (hi : i ∈ t.cs) (h1 : i ≠ 1) : t.W ⟨x.s ||| 2 ^ i, i⟩ := by
  refine ⟨fun j hj => ?_, .inr (by simp [Nat.testBit_or, Nat.testBit_two_pow_self])⟩
  dsimp only at hj
  rw [Nat.testBit_or, Nat.testBit_two_pow, Bool.or_eq_true] at hj
  rcases hj with hj | hj
  · exact h.1 j hj
  · have : i = j := by simpa using hj
    subst this; exact ⟨hi, h1⟩

theorem Toy.W.root : t.W ⟨0, 1⟩ := ⟨fun i hi => by simp at hi, .inl ⟨rfl, rfl⟩⟩

theorem Toy.step2_iff (hn : 1 < t.n) {x x' : Toy2S} (hx : t.W x) {l : Int} :
    Step (t.mdl2.bare Toy2S.fin) x l x' ↔ (t.n = t.size x.s + 1 ∧ l = 1 ∧ x' = t.mdl2.stt) ∨
      (t.size x.s + 1 < t.n ∧ ∃ i : Nat, l = i ∧ i ∈ t.cs ∧ x.s.testBit i = false ∧ i ≠ 1 ∧ x' = ⟨x.s ||| 2 ^ i, i⟩) := by
  have h0 : (t.mdl2.bare Toy2S.fin).eqs x = false := hx.fin
  have hlt := hx.size_lt t hn
  have h1c : 1 ∈ t.cs := t.mem_cs.2 ⟨Nat.le_refl 1, Nat.le_of_lt hn⟩
  have hlg : ∀ l, l ∈ (t.mdl2.bare Toy2S.fin).lgf x ↔ ∃ i : Nat, (i ∈ t.cs ∧ (x.s.testBit i = false ∨ i = 1)) ∧ (i : Int) = l := fun l => by
    show l ∈ List.map _ _ ↔ _
    rw [List.mem_map]
    simp only [List.mem_filter, Bool.or_eq_true, Bool.not_eq_true', decide_eq_true_iff]
  have hsf : (t.mdl2.bare Toy2S.fin).stf = t.mdl2.stf := rfl
  unfold Step
  rw [h0, hlg, hsf]
  constructor
  · rintro ⟨_, ⟨i, ⟨hi, hb⟩, rfl⟩, hs⟩
    simp only [Toy.mdl2] at hs
    split at hs
    · simp at hs
    · rename_i hbad
      by_cases hi1 : i = 1
      · subst hi1
        have : ¬ t.size x.s + 1 < t.n := fun h => hbad (.inl ⟨rfl, h⟩)
        rw [if_pos ⟨rfl, by omega⟩] at hs
        exact .inl ⟨by omega, rfl, (Option.some.inj hs).symm⟩
      · have hi1' : ¬ ((i : Int) = 1) := by omega
        have : t.size x.s + 1 < t.n := by
          rcases Nat.lt_or_ge (t.size x.s + 1) t.n with h | h
          · exact h
          · exact absurd (.inr ⟨hi1', h⟩) hbad
        rw [if_neg (fun h => hi1' h.1)] at hs
        split at hs
        · have e := (Option.some.inj hs).symm
          rw [show ((i : Int)).toNat = i by omega] at e
          exact .inr ⟨this, i, rfl, hi, hb.resolve_right hi1, hi1, e⟩
        · simp at hs
  · rintro (⟨h1, rfl, rfl⟩ | ⟨h1, i, rfl, hi, hb, hi1, rfl⟩)
    · refine ⟨rfl, ⟨1, ⟨h1c, .inr rfl⟩, rfl⟩, ?_⟩
      simp only [Toy.mdl2]
      rw [if_neg (by omega), if_pos ⟨by trivial, by omega⟩]
    · refine ⟨rfl, ⟨i, ⟨hi, .inl hb⟩, rfl⟩, ?_⟩
      have hne : x.e ≠ i := by
        rintro rfl
        rcases hx.2 with ⟨h, _⟩ | h
        · exact hi1 h
        · rw [h] at hb; simp at hb
      simp only [Toy.mdl2]
      rw [if_neg (by omega), if_neg (by omega), if_pos ⟨by simpa using hb, by omega⟩]
      simp

/-- The state of tsptoy a state of tsptoy2 stands for. -/
def Toy.up (t : Toy) (x : Toy2S) : TspS := ⟨x.s, x.e, t.size x.s⟩

/-- Steps of tsptoy2 are steps of tsptoy. -/
theorem Toy.step_up (hn : 1 < t.n) {x x' : Toy2S} (hx : t.W x) {l : Int} (h : Step (t.mdl2.bare Toy2S.fin) x l x') :
    (x' = t.mdl2.stt ∧ Step (t.mdl ok) (t.up x) l (t.mdl ok).stt) ∨ (t.W x' ∧ Step (t.mdl ok) (t.up x) l (t.up x')) := by
  have hlt := hx.size_lt t hn
  rcases (t.step2_iff hn hx).1 h with ⟨h1, h2, h3⟩ | ⟨h1, i, h2, hi, hb, hi1, h3⟩
  · exact .inl ⟨h3, (t.step_iff (x := t.up x) hlt).2 (.inl ⟨h1, h2, rfl⟩)⟩
  · subst h3
    refine .inr ⟨hx.ins t hi hi1, (t.step_iff (x := t.up x) hlt).2 (.inr ⟨h1, i, h2, hi, hb, hi1, fun h => ?_, ?_⟩)⟩
    · change i = x.e at h
      rcases hx.2 with ⟨h', _⟩ | h'
      · omega
      · rw [h, h'] at hb; simp at hb
    · unfold Toy.up
      dsimp only
      rw [t.size_ins hi hb]

/-- Steps of tsptoy are steps of tsptoy2. -/
theorem Toy.step_down (hn : 1 < t.n) {x : Toy2S} (hx : t.W x) {l : Int} {y : TspS} (h : Step (t.mdl ok) (t.up x) l y) :
    (y = (t.mdl ok).stt ∧ Step (t.mdl2.bare Toy2S.fin) x l t.mdl2.stt) ∨ ∃ x', t.W x' ∧ y = t.up x' ∧ Step (t.mdl2.bare Toy2S.fin) x l x' := by
  have hlt := hx.size_lt t hn
  rcases (t.step_iff (x := t.up x) hlt).1 h with ⟨h1, h2, h3⟩ | ⟨h1, i, h2, hi, hb, hi1, _, h3⟩
  · exact .inl ⟨h3, (t.step2_iff hn hx).2 (.inl ⟨h1, h2, rfl⟩)⟩
  · refine .inr ⟨⟨x.s ||| 2 ^ i, i⟩, hx.ins t hi hi1, ?_, (t.step2_iff hn hx).2 (.inr ⟨h1, i, h2, hi, hb, hi1, rfl⟩)⟩
    rw [h3]
    unfold Toy.up
    dsimp only
    rw [t.size_ins hi (s := x.s) hb]

theorem Toy.stt_fin (hn : 1 < t.n) : Toy2S.fin t.mdl2.stt = true := by
  have : 2 < 2 ^ (t.n + 1) := Nat.lt_of_lt_of_le (by decide : 2 < 2 ^ 2) (Nat.pow_le_pow_right (by decide) (by omega))
  have h0 : t.all ≠ 0 := by unfold Toy.all; omega
  simp [Toy2S.fin, Toy.mdl2, h0]

theorem Toy.path_up (hn : 1 < t.n) : ∀ {x z : Toy2S} {ls : List Int} {c : Int}, Path (t.mdl2.bare Toy2S.fin) x ls c z → t.W x →
    (z = t.mdl2.stt ∧ Path (t.mdl ok) (t.up x) ls c (t.mdl ok).stt) ∨ (t.W z ∧ Path (t.mdl ok) (t.up x) ls c (t.up z)) := by
  intro x z ls c h
  induction h with
  | nil x => exact fun hx => .inr ⟨hx, Path.nil _⟩
  | @cons x x' z l ls c hst hp ih =>
    intro hx
    rcases t.step_up (ok := ok) hn hx hst with ⟨h1, h2⟩ | ⟨h1, h2⟩
    · subst h1
      obtain ⟨e1, e2, e3⟩ := hp.of_terminal (t.stt_fin hn)
      subst e1; subst e2; subst e3
      exact .inl ⟨rfl, Path.cons (m := t.mdl ok) h2 (Path.nil _)⟩
    · rcases ih h1 with ⟨h3, h4⟩ | ⟨h3, h4⟩
      · exact .inl ⟨h3, Path.cons (m := t.mdl ok) h2 h4⟩
      · exact .inr ⟨h3, Path.cons (m := t.mdl ok) h2 h4⟩

theorem Toy.path_down (hn : 1 < t.n) : ∀ {y z : TspS} {ls : List Int} {c : Int}, Path (t.mdl ok) y ls c z → z = (t.mdl ok).stt → ∀ x, t.W x → y = t.up x →
    Path (t.mdl2.bare Toy2S.fin) x ls c t.mdl2.stt := by
  intro y z ls c h
  induction h with
  | nil y =>
    intro hz x hx hy
    subst hy
    have := hx.size_lt t hn
    rw [show t.size x.s = (t.up x).hops from rfl, hz] at this
    simp [Toy.mdl] at this
  | @cons y y' z l ls c hst hp ih =>
    intro hz x hx hy
    subst hy
    rcases t.step_down hn hx hst with ⟨h1, h2⟩ | ⟨x', h1, h2, h3⟩
    · subst h1
      obtain ⟨e1, e2, _⟩ := hp.of_terminal (by simp [Toy.mdl])
      subst e1; subst e2
      exact Path.cons (m := t.mdl2.bare Toy2S.fin) h2 (Path.nil _)
    · exact Path.cons (m := t.mdl2.bare Toy2S.fin) h3 (ih hz x' h1 h2)

theorem Toy.sol2_iff (hn : 1 < t.n) (ls : List Int) (c : Int) : Sol (t.mdl2.bare Toy2S.fin) ls c ↔ t.Tour ls c := by
  have hup : t.up ⟨0, 1⟩ = ⟨0, 1, 0⟩ := t.up_root
  rw [← t.sol_iff (ok := fun _ _ => false) hn]
  unfold Sol
  constructor
  · intro h
    rcases t.path_up (ok := fun _ _ => false) hn h (Toy.W.root t) with ⟨_, h⟩ | ⟨h, _⟩
    · have := h; rw [show ((t.mdl2.bare Toy2S.fin).sti) = ⟨0, 1⟩ from rfl, hup] at this; exact this
    · have := h.fin
      rw [show (t.mdl2.bare Toy2S.fin).stt = t.mdl2.stt from rfl, t.stt_fin hn] at this
      cases this
  · intro h
    exact t.path_down hn h rfl ⟨0, 1⟩ (Toy.W.root t) hup.symm

/-- Every reachable state of tsptoy2 is the target or an open state; its values are those of tsptoy. -/
theorem Toy.relx2 (hn : 1 < t.n) {x : Toy2S} {v : Int} (h : Relx (t.mdl2.bare Toy2S.fin) t.rank2 ⟨0, 1⟩ 0 x v) :
    (x = t.mdl2.stt ∧ Relx (t.mdl ok) t.rank ⟨0, 1, 0⟩ 0 (t.mdl ok).stt v) ∨ (t.W x ∧ Relx (t.mdl ok) t.rank ⟨0, 1, 0⟩ 0 (t.up x) v) := by
  have hup : t.up ⟨0, 1⟩ = ⟨0, 1, 0⟩ := t.up_root
  induction h with
  | swap _ _ hsw _ ihsw => obtain rfl := (same_iff _ _).1 hsw; exact ihsw
  | root => exact .inr ⟨Toy.W.root t, by rw [hup]; exact .root⟩
  | @step x x' l v _ hst ih =>
    rcases ih with ⟨rfl, _⟩ | ⟨h1, h2⟩
    · have := hst.1; rw [show (t.mdl2.bare Toy2S.fin).eqs = Toy2S.fin from rfl, t.stt_fin hn] at this; cases this
    · rcases t.step_up (ok := ok) hn h1 hst with ⟨h3, h4⟩ | ⟨h3, h4⟩
      · exact .inl ⟨h3, h2.step h4⟩
      · exact .inr ⟨h3, h2.step h4⟩
  | mergeL _ _ _ _ _ hm => cases hm
  | mergeR _ _ _ _ _ hm => cases hm

theorem Toy.layered2 (hn : 1 < t.n) {D : Int} (hD : t.Bnd D) : Layered (t.mdl2.bare Toy2S.fin) t.rank2 ⟨0, 1⟩ 0 where
  sink := t.stt_fin hn
  src := (Toy.W.root t).fin
  range := fun x v h => by
    have H : Layered (t.mdl fun _ _ => false) t.rank ⟨0, 1, 0⟩ 0 := t.layered hD hn (by show 0 < _; omega) (t.mem_cs.2 ⟨Nat.le_refl 1, Nat.le_of_lt hn⟩) (by simp)
    rcases t.relx2 (ok := fun _ _ => false) hn h with ⟨_, h⟩ | ⟨_, h⟩
    · exact H.range _ _ h
    · exact H.range _ _ h
  step := fun x v l x' h hst => by
    rcases t.relx2 (ok := fun _ _ => false) hn h with ⟨rfl, _⟩ | ⟨h1, _⟩
    · have := hst.1; rw [show (t.mdl2.bare Toy2S.fin).eqs = Toy2S.fin from rfl, t.stt_fin hn] at this; cases this
    · rcases (t.step2_iff hn h1).1 hst with ⟨_, _, h3⟩ | ⟨_, i, _, hi, hb, _, h3⟩
      · exact .inl (by rw [h3]; exact t.stt_fin hn)
      · exact .inr (by rw [h3]; exact t.size_ins hi hb)
  merge := fun a b c va vb ra rb ha hb hr hm => by cases hm
  local_ := fun f hf => by cases hf
  dom := fun f hf => by cases hf

/-- Every set of visited cities is reachable with every one of its cities last. -/
theorem Toy.reach (hn : 1 < t.n) : ∀ (k : Nat) (x : Toy2S), t.size x.s = k → t.W x → ∃ ls v, Path (t.mdl2.bare Toy2S.fin) ⟨0, 1⟩ ls v x := by
  intro k
  induction k with
  | zero =>
    intro x hk hx
    have h0 : x.s = 0 := by
      refine Nat.eq_of_testBit_eq fun i => ?_
      rw [Nat.zero_testBit]
      cases hb : x.s.testBit i with
      | false => rfl
      | true =>
        have : i ∈ t.cs.filter fun j => x.s.testBit j := List.mem_filter.2 ⟨(hx.1 i hb).1, hb⟩
        rw [List.eq_nil_of_length_eq_zero hk] at this
        cases this
    rcases hx.2 with ⟨h1, _⟩ | h1
    · obtain ⟨s, e⟩ := x
      dsimp only at h0 h1
      subst h0 h1
      exact ⟨_, _, Path.nil _⟩
    · rw [h0] at h1; simp at h1
  | succ k ih =>
    intro x hk hx
    have hb : x.s.testBit x.e = true := by
      rcases hx.2 with ⟨_, h⟩ | h
      · rw [h, t.size_zero] at hk; cases hk
      · exact h
    obtain ⟨hec, he1⟩ := hx.1 _ hb
    -- the set without the last city
    have hT : ∀ i, (x.s ^^^ 2 ^ x.e).testBit i = (x.s.testBit i && decide (i ≠ x.e)) := fun i => by
      rw [Nat.testBit_xor, Nat.testBit_two_pow]
      by_cases h : i = x.e
      · subst h; simp [hb]
      · simp [h, Ne.symm h]
    generalize hTd : x.s ^^^ 2 ^ x.e = T at hT
    have hTe : T.testBit x.e = false := by rw [hT]; simp
    have hor : T ||| 2 ^ x.e = x.s := by
      refine Nat.eq_of_testBit_eq fun i => ?_
      rw [Nat.testBit_or, hT, Nat.testBit_two_pow]
      by_cases h : i = x.e
      · subst h; simp [hb]
      · simp [h, Ne.symm h]
    have hsz : t.size T = k := by
      have := t.size_ins hec hTe
      rw [hor] at this
      omega
    have hlt := hx.size_lt t hn
    have fin : ∀ j, t.W ⟨T, j⟩ → ∃ ls v, Path (t.mdl2.bare Toy2S.fin) ⟨0, 1⟩ ls v x := fun j hj => by
      obtain ⟨ls, v, hp⟩ := ih ⟨T, j⟩ hsz hj
      have hst : Step (t.mdl2.bare Toy2S.fin) ⟨T, j⟩ x.e x :=
        (t.step2_iff hn hj).2 (.inr ⟨by show t.size T + 1 < _; omega, x.e, rfl, hec, hTe, he1, by rw [hor]⟩)
      exact ⟨_, _, hp.snoc hst⟩
    by_cases h0 : T = 0
    · exact fin 1 (by rw [h0]; exact Toy.W.root t)
    · obtain ⟨j, hj⟩ := Nat.exists_testBit_of_ne_zero h0
      refine fin j ⟨fun i hi => ?_, .inr hj⟩
      dsimp only at hi
      rw [hT, Bool.and_eq_true] at hi
      exact hx.1 i hi.1

/-- The states reached by tsptoy2. -/
theorem Toy.path2_W (hn : 1 < t.n) {x : Toy2S} {ls : List Int} {v : Int} (h : Path (t.mdl2.bare Toy2S.fin) ⟨0, 1⟩ ls v x) (hf : x.fin = false) : t.W x := by
  rcases t.path_up (ok := fun _ _ => false) hn h (Toy.W.root t) with ⟨h1, _⟩ | ⟨h1, _⟩
  · rw [h1, t.stt_fin hn] at hf; cases hf
  · exact h1

/-- Two sets of as many visited cities have fewer cities in common, unless they are the same. -/
theorem Toy.size_and {a b : Nat} (ha : ∀ i, a.testBit i = true → i ∈ t.cs) (hb : ∀ i, b.testBit i = true → i ∈ t.cs) (h : t.size a = t.size b)
    (hne : a ≠ b) : t.size (a &&& b) < t.size a := by
  rcases Nat.lt_or_ge (t.size (a &&& b)) (t.size a) with h1 | h1
  · exact h1
  · exfalso
    have nd : ∀ s : Nat, (t.cs.filter fun j => s.testBit j).Nodup := fun s => List.Pairwise.filter _ t.cs_nodup
    have s1 : ∀ i, a.testBit i = true → b.testBit i = true := fun i hi => by
      have := nodup_full (t.cs.filter fun j => (a &&& b).testBit j) (t.cs.filter fun j => a.testBit j) (nd _) (fun j hj => by
        rw [List.mem_filter, Nat.testBit_and, Bool.and_eq_true] at hj
        exact List.mem_filter.2 ⟨hj.1, hj.2.1⟩) h1 i (List.mem_filter.2 ⟨ha i hi, hi⟩)
      rw [List.mem_filter, Nat.testBit_and, Bool.and_eq_true] at this
      exact this.2.2
    have s2 : ∀ i, b.testBit i = true → a.testBit i = true := fun i hi => by
      have := nodup_full (t.cs.filter fun j => a.testBit j) (t.cs.filter fun j => b.testBit j) (nd _) (fun j hj => by
        rw [List.mem_filter] at hj ⊢
        exact ⟨hj.1, s1 j hj.2⟩) (Nat.le_of_eq h.symm) i (List.mem_filter.2 ⟨hb i hi, hi⟩)
      exact (List.mem_filter.1 this).2
    exact hne (Nat.eq_of_testBit_eq fun i => Bool.eq_iff_iff.2 ⟨s1 i, s2 i⟩)

/-- The merge of two different states of a layer of tsptoy2 is always a state of a lower layer. -/
theorem Toy.refused2 (hn : 1 < t.n) : Refused t.mdl2 Toy2S.fin t.rank2 ⟨0, 1⟩ := by
  intro a b c la va lb vb pa pb fa fb hr hne hm
  have wa := t.path2_W hn pa fa
  have wb := t.path2_W hn pb fb
  simp only [Toy.mdl2] at hm
  split at hm
  · rename_i he
    simp at hm
    have hs : a.s ≠ b.s := fun h => hne (by obtain ⟨x, y⟩ := a; obtain ⟨u, w⟩ := b; dsimp only at h he; subst h he; rfl)
    have hlt := t.size_and (fun i hi => (wa.1 i hi).1) (fun i hi => (wb.1 i hi).1) hr hs
    have hbit : a.s.testBit a.e = true ∧ b.s.testBit a.e = true := by
      have e0 : ∀ {x : Toy2S}, t.W x → 0 < t.size x.s → x.s.testBit x.e = true := fun hx h => by
        rcases hx.2 with ⟨_, h'⟩ | h'
        · rw [h', t.size_zero] at h; exact absurd h (Nat.lt_irrefl 0)
        · exact h'
      refine ⟨e0 wa (by omega), ?_⟩
      rw [he]
      exact e0 wb (by rw [show t.size b.s = t.size a.s from hr.symm]; omega)
    have wc : t.W c := by
      subst hm
      refine ⟨fun i hi => ?_, .inr ?_⟩
      · dsimp only at hi
        rw [Nat.testBit_and, Bool.and_eq_true] at hi
        exact wa.1 i hi.1
      · dsimp only
        rw [Nat.testBit_and, hbit.1, hbit.2]; rfl
    exact ⟨wc.fin, by subst hm; exact hlt, t.reach hn _ c rfl wc⟩
  · simp at hm

/-- `eqs` and the test for terminal states other than the root agree on the states transitions lead to. -/
theorem Toy.sameEnd2 (hn : 1 < t.n) : SameEnd t.mdl2 Toy2S.fin := by
  intro s l s' h
  simp only [Toy.mdl2] at h
  split at h
  · simp at h
  · rename_i hbad
    split at h
    · have := Option.some.inj h
      subst this
      rw [show (⟨t.all, 1⟩ : Toy2S) = t.mdl2.stt from rfl, t.stt_fin hn]
      simp [Toy.mdl2]
    · rename_i h1
      split at h
      · have := Option.some.inj h
        subst this
        have : l.toNat ≠ 1 := by omega
        simp [Toy.mdl2, Toy2S.fin, this]
      · simp at h

/-- C100: whatever the width, the distances and the primal bound, a relaxed diagram of tsptoy2 is exact: no merge is ever made, and
the width is not kept. -/
theorem toy2_relaxed_exact (hn : 1 < t.n) {D : Int} (hD : t.Bnd D) {prim : Int} {w f : Nat} {g : G Toy2S}
    (h : relaxed t.mdl2 prim w f t.mdl2.src0 = some g) : g.exact = true := by
  have := relaxed_bare (r := t.mdl2.src0) (prim := prim) (rank := t.rank2) rfl rfl (t.sameEnd2 hn) (t.layered2 hn hD) (t.refused2 hn) w f
  rw [this.1] at h
  exact this.2 g h

/-- C100: tsptoy2 finds a shortest tour at every width, for all distances: the search ends, every reported
solution is a tour with its length, and a search that is not stopped ends with a shortest tour. -/
theorem toy2_search (hn : 1 < t.n) {D : Int} (hD : t.Bnd D) (hlow : ∀ ls c, t.Tour ls c → -2147483647 ≤ c) (w : Nat) {dfuel : Nat} (hf : t.n + 2 ≤ dfuel) (lim : Nat → Bool) :
    (∃ L, ∀ fuel, L < fuel → ∃ s, BB.search t.mdl2 w dfuel lim fuel 2147483647 = some s ∧ (s.stopped = true ∨ Heap.empty s.pq = true)) ∧
    ∀ fuel s, BB.search t.mdl2 w dfuel lim fuel 2147483647 = some s → (∀ x, x ∈ s.sols → t.Tour x.2 x.1) ∧
      (s.stopped = false → ShortestTour t.Tour s.primal ∧ t.Tour s.inc s.primal) := by
  have H := t.layered2 hn hD
  have P : TspProg (t.mdl2.bare Toy2S.fin) t.rank2 t.n t.Tour := by
    refine ⟨rfl, rfl, H, fun x v hr hq => ?_, t.sol2_iff hn, fun _ => hlow, (t.prog (ok := fun _ _ => false) hn hD hlow).some_⟩
    rcases t.relx2 (ok := fun _ _ => false) hn hr with ⟨rfl, _⟩ | ⟨h, _⟩
    · rw [show (t.mdl2.bare Toy2S.fin).eqs = Toy2S.fin from rfl, t.stt_fin hn] at hq; cases hq
    · exact Nat.le_of_lt (h.size_lt t hn)
  have hb : ∀ fuel, BB.search t.mdl2 w dfuel lim fuel 2147483647 = BB.search (t.mdl2.bare Toy2S.fin) w dfuel lim fuel 2147483647 := fun fuel =>
    BB.search_bare (m := t.mdl2) (rank := t.rank2) rfl rfl (t.sameEnd2 hn) H (t.refused2 hn)
  refine ⟨?_, fun fuel s h => ⟨?_, fun hns => ?_⟩⟩
  · obtain ⟨L, hL⟩ := P.ends w hf lim
    exact ⟨L, fun fuel h => by rw [hb]; exact hL fuel h⟩
  · rw [hb] at h
    exact P.sound h
  · obtain ⟨h1, h2⟩ := BB.search_refused (m := t.mdl2) (rank := t.rank2) (e0 := Toy2S.fin) rfl rfl (t.sameEnd2 hn) H (t.refused2 hn) (p0 := 2147483647) rfl
      (P.hworst rfl) h hns
    exact P.answer h1 h2

/-- C100: tsptoy2 asks for the distance between two different cities only: `es.at` never throws. -/
theorem toy2_arcs (hn : 1 < t.n) {x x' : Toy2S} {v : Int} {l : Int} {ls : List Int} (h : Path (t.mdl2.bare Toy2S.fin) ⟨0, 1⟩ ls v x)
    (hst : Step (t.mdl2.bare Toy2S.fin) x l x') : x.e ∈ t.cs ∧ ∃ i, l = (i : Nat) ∧ i ∈ t.cs ∧ i ≠ x.e := by
  have hx := t.path2_W hn h hst.1
  have hup : t.up ⟨0, 1⟩ = ⟨0, 1, 0⟩ := t.up_root
  have hr : Relx (t.mdl fun _ _ => false) t.rank ⟨0, 1, 0⟩ 0 (t.up x) (0 + v) := by
    rcases t.path_up (ok := fun _ _ => false) hn h (Toy.W.root t) with ⟨h1, _⟩ | ⟨_, h1⟩
    · rw [h1] at hx; have := hx.fin; rw [t.stt_fin hn] at this; cases this
    · rw [hup] at h1; exact Path.relx h1 .root
  rcases t.step_up (ok := fun _ _ => false) hn hx hst with ⟨_, h2⟩ | ⟨_, h2⟩
  · exact toy_arcs t hn hr h2
  · exact toy_arcs t hn hr h2

/-! ### Instances -/

/-- The programs' distances between the first four cities. -/
def toy4 : Toy := ⟨4, toy6.d⟩

theorem toy4_bnd : toy4.Bnd 100 := by
  refine ⟨by decide, ?_, by decide⟩
  have h : ∀ i, i < 5 → ∀ j, j < 5 → toy4.d i j ≤ 100 := by decide
  intro i j hi hj
  have := toy4.mem_cs.1 hi
  have := toy4.mem_cs.1 hj
  simp only [toy4] at *
  exact h i (by omega) j (by omega)

theorem toy4_low : ∀ ls c, toy4.Tour ls c → -2147483647 ≤ c := by
  have h0 : ∀ i j, 0 ≤ toy4.d i j := by
    have h : ∀ i, i < 7 → ∀ j, j < 7 → 0 ≤ toy4.d i j := by decide
    intro i j
    by_cases hi : i < 7
    · by_cases hj : j < 7
      · exact h i hi j hj
      · simp only [toy4, toy6]
        have hl : ∀ i, i < 7 → ((([[], [0,0,10,15,20,6,20], [0,10,0,35,25,100,5], [0,15,35,0,30,100,100], [0,20,25,30,0,3,30], [0,6,100,100,3,0,100],
          [0,20,5,100,30,100,0]] : List (List Int)).getD i []).length ≤ 7) := by decide
        rw [List.getD_eq_getElem?_getD, List.getElem?_eq_none (by have := hl i hi; omega)]
        exact Int.le_refl 0
    · simp only [toy4, toy6]
      rw [List.getD_eq_getElem?_getD (a := []), List.getElem?_eq_none (by show 7 ≤ i; omega)]
      simp
  have hl : ∀ p e, 0 ≤ toy4.length e p := by
    intro p
    induction p with
    | nil => intro e; exact Int.le_refl 0
    | cons i p ih =>
      intro e
      have := h0 e i
      have := ih i
      simp only [Toy.length]
      omega
  rintro ls c ⟨p, _, _, _, rfl⟩
  have := hl (p ++ [1]) 1
  omega

/-- Six cities, distances not symmetric. -/
def toy6a : Toy := ⟨6, tab [[], [0,0,4,2,4,3,3], [0,1,0,4,3,3,3], [0,4,1,0,3,1,3], [0,4,1,1,0,1,3], [0,4,1,2,3,0,1], [0,3,1,3,4,4,0]]⟩

theorem toy6a_run : (BB.search (toy6a.mdl nearEnough) 14 10 (fun _ => false) 50 2147483647).map (fun s => (s.stopped, Heap.empty s.pq, s.primal)) =
    some (false, true, 10) := by decide +kernel

/-- C99 is false for small widths: at width 14 tsptoy ends with 10 on `toy6a`, which has a tour of length 9. -/
theorem toy_search_false :
    (∃ s, BB.search (toy6a.mdl nearEnough) 14 10 (fun _ => false) 50 2147483647 = some s ∧ s.stopped = false ∧ Heap.empty s.pq = true ∧ s.primal = 10) ∧
    toy6a.Tour [4, 3, 5, 6, 2, 1] 9 := by
  refine ⟨?_, [4, 3, 5, 6, 2], by decide, by decide, ?_, by decide⟩
  · have hv := toy6a_run
    simp only [Option.map_eq_some_iff] at hv
    obtain ⟨s, h1, h2⟩ := hv
    simp at h2
    exact ⟨s, h1, h2.1, h2.2.1, h2.2.2⟩
  · intro i
    rw [toy6a.mem_cs, show toy6a.n = 6 from rfl]
    simp only [List.mem_cons, List.not_mem_nil, or_false]
    omega

/-- tsptoy2 at width 1 on four cities: the answer is a shortest tour, of length 80, and the relaxed diagram has three
nodes on a layer. -/
example : (∃ s, BB.search toy4.mdl2 1 10 (fun _ => false) 30 2147483647 = some s ∧ s.primal = 80 ∧ ShortestTour toy4.Tour 80) ∧
    ∃ g, relaxed toy4.mdl2 2147483647 1 10 toy4.mdl2.src0 = some g ∧ g.exact = true ∧ ((List.range g.nn).filter (fun i => g.layer i = 1)).length = 3 := by
  constructor
  · have hv : (BB.search toy4.mdl2 1 10 (fun _ => false) 30 2147483647).map (fun s => (s.primal, s.stopped)) = some (80, false) := by decide +kernel
    simp only [Option.map_eq_some_iff] at hv
    obtain ⟨s, h1, h2⟩ := hv
    simp at h2
    have := (((toy2_search toy4 (by decide) toy4_bnd toy4_low 1 (by decide) (fun _ => false)).2 30 s h1).2 h2.2).1
    rw [h2.1] at this
    exact ⟨s, h1, h2.1, this⟩
  · have hv : (relaxed toy4.mdl2 2147483647 1 10 toy4.mdl2.src0).map (fun g => ((List.range g.nn).filter (fun i => g.layer i = 1)).length) = some 3 := by decide +kernel
    simp only [Option.map_eq_some_iff] at hv
    obtain ⟨g, h1, h2⟩ := hv
    exact ⟨g, h1, toy2_relaxed_exact toy4 (by decide) toy4_bnd h1, h2⟩

/-- C100: the merge of tsptoy2 would not be a valid relaxation: from ⟨{2,4},4⟩ the tour is completed by 3 and 1; the
merged state of ⟨{2,4},4⟩ and ⟨{3,4},4⟩ has no completion by these. -/
theorem toy2_merge_invalid : toy4.mdl2.smf ⟨20, 4⟩ ⟨24, 4⟩ = some ⟨16, 4⟩ ∧ (∃ v, Path (toy4.mdl2.bare Toy2S.fin) ⟨20, 4⟩ [3, 1] v toy4.mdl2.stt) ∧
    ¬ ∃ v, Path (toy4.mdl2.bare Toy2S.fin) ⟨16, 4⟩ [3, 1] v toy4.mdl2.stt := by
  refine ⟨rfl, ⟨_, Path.cons (s' := ⟨28, 3⟩) ⟨by decide, by decide, by decide⟩ (Path.cons (s' := toy4.mdl2.stt) ⟨by decide, by decide, by decide⟩ (Path.nil _))⟩, ?_⟩
  rintro ⟨v, h⟩
  cases h with
  | cons h1 h2 =>
    have e1 := h1.2.2
    rw [show (toy4.mdl2.bare Toy2S.fin).stf ⟨16, 4⟩ 3 = some ⟨24, 3⟩ by decide] at e1
    cases e1
    cases h2 with
    | cons h3 _ => exact absurd h3.2.2 (by rw [show (toy4.mdl2.bare Toy2S.fin).stf ⟨24, 3⟩ 1 = none by decide]; simp)

/-- tsptoy's model at width 1 with a merge test that always holds: four nodes are processed, and the answer is a shortest tour. -/
example : ∃ s, BB.search (toy4.mdl fun _ _ => true) 1 10 (fun _ => false) 30 2147483647 = some s ∧ s.pn = 4 ∧ ShortestTour toy4.Tour s.primal := by
  have hv : (BB.search (toy4.mdl fun _ _ => true) 1 10 (fun _ => false) 30 2147483647).map (fun s => (s.pn, s.stopped)) = some (4, false) := by decide +kernel
  have hok : BB.okLoop (toy4.mdl fun _ _ => true) 1 10 (fun _ => false) 30 0 (BB.init (toy4.mdl fun _ _ => true) 1 2147483647) = true := by decide +kernel
  simp only [Option.map_eq_some_iff] at hv
  obtain ⟨s, h1, h2⟩ := hv
  simp at h2
  exact ⟨s, h1, h2.1, (toy_search_partial toy4 (by decide) toy4_bnd toy4_low h1 hok h2.2).1⟩

end Verif.Ex
