import Verif.GrulerMid
import Verif.Props.Gruler
/-!
# C102, C103: the Golomb ruler example with the middle mark bounded
-/
namespace Verif.Ex
open Verif.DD
variable (t : Gol)

/-! ### Rulers and their mirror images -/

/-- The ruler read from its other end. -/
def mirror (z : Nat) (ms : List Nat) : List Nat := ms.reverse.map (z - ·)

theorem Golomb.mirror {ms : List Nat} (h : Golomb ms) {z : Nat} (hz : ∀ a ∈ ms, a ≤ z) : Golomb (mirror z ms) := by
  unfold Ex.mirror
  refine ⟨?_, ?_⟩
  · rw [List.pairwise_map, List.pairwise_reverse]
    refine h.1.imp_of_mem ?_
    intro a b ha hb hab
    have := hz b hb
    omega
  · intro a b c d ha hb hc hd hab hcd he
    simp only [List.mem_map, List.mem_reverse] at ha hb hc hd
    obtain ⟨a', ha', rfl⟩ := ha
    obtain ⟨b', hb', rfl⟩ := hb
    obtain ⟨c', hc', rfl⟩ := hc
    obtain ⟨d', hd', rfl⟩ := hd
    have := hz a' ha'; have := hz b' hb'; have := hz c' hc'; have := hz d' hd'
    have := h.2 b' a' d' c' hb' ha' hd' hc' (by omega) (by omega) (by omega)
    omega

/-- One of the two has its first half of marks in the first half of the length. -/
theorem mirror_half {ms : List Nat} (h : ms.Pairwise (· < ·)) {z : Nat} (hz : ∀ a ∈ ms, a ≤ z) :
    (∀ b ∈ ms.take (ms.length / 2), b ≤ z / 2) ∨ (∀ b ∈ (mirror z ms).take (ms.length / 2), b ≤ z / 2) := by
  by_cases hc : ∀ b ∈ ms.take (ms.length / 2), b ≤ z / 2
  · exact .inl hc
  · right
    simp only [Classical.not_forall] at hc
    obtain ⟨b1, hb1, hb2⟩ := hc
    intro b hb
    unfold mirror at hb
    rw [← List.map_take, List.take_reverse] at hb
    obtain ⟨c, hc, rfl⟩ := List.mem_map.1 hb
    rw [List.mem_reverse] at hc
    have hlt : b1 < c := by
      rw [← List.take_append_drop (ms.length - ms.length / 2) ms, List.pairwise_append] at h
      refine h.2.2 b1 ?_ c hc
      exact (List.take_sublist_take_left (by omega : ms.length / 2 ≤ ms.length - ms.length / 2)).subset hb1
    have := hz c (List.mem_of_mem_drop hc)
    omega

/-! ### Fewer labels -/

/-- The problem with the labels `P` allows. -/
def Gol.sub (P : GolS → Int → Bool) : Mdl GolS := { t.full with lgf := fun x => (t.full.lgf x).filter (P x) }

theorem Gol.sub_step {P : GolS → Int → Bool} {x x' : GolS} {l : Int} : Step (t.sub P) x l x' ↔ Step t.full x l x' ∧ P x l = true := by
  unfold Step
  simp only [Gol.sub]
  rw [List.mem_filter]
  constructor
  · rintro ⟨a, ⟨b, c⟩, d⟩; exact ⟨⟨a, b, d⟩, c⟩
  · rintro ⟨⟨a, b, d⟩, c⟩; exact ⟨a, ⟨b, c⟩, d⟩

theorem Gol.sub_path {P : GolS → Int → Bool} {x y : GolS} {ls : List Int} {c : Int} (h : Path (t.sub P) x ls c y) : Path t.full x ls c y := by
  induction h with
  | nil s => exact Path.nil s
  | cons hs _ ih => exact Path.cons ((t.sub_step).1 hs).1 ih

theorem Gol.sub_mono {P Q : GolS → Int → Bool} (hPQ : ∀ x l, P x l = true → Q x l = true) {x y : GolS} {ls : List Int} {c : Int}
    (h : Path (t.sub P) x ls c y) : Path (t.sub Q) x ls c y := by
  induction h with
  | nil s => exact Path.nil s
  | cons hs _ ih =>
    obtain ⟨a, b⟩ := (t.sub_step).1 hs
    exact Path.cons ((t.sub_step).2 ⟨a, hPQ _ _ b⟩) ih

theorem Gol.sub_and {P Q : GolS → Int → Bool} {x y : GolS} {ls : List Int} {c : Int}
    (h : Path (t.sub P) x ls c y) : ∀ {y' : GolS} {c' : Int}, Path (t.sub Q) x ls c' y' → Path (t.sub fun x l => P x l && Q x l) x ls c y := by
  induction h with
  | nil s => intro _ _ _; exact Path.nil s
  | cons hs _ ih =>
    intro y' c' h'
    cases h' with
    | cons hs' hp' =>
      obtain ⟨a, b⟩ := (t.sub_step).1 hs
      obtain ⟨a', b'⟩ := (t.sub_step).1 hs'
      have e := a.2.2.symm.trans a'.2.2
      injection e with e
      subst e
      exact Path.cons ((t.sub_step).2 ⟨a, by rw [b, b']; rfl⟩) (ih hp')

/-- Limits that only look at the number of marks and the last one. -/
def Kel (P : GolS → Int → Bool) : Prop := ∀ x y : GolS, x.k = y.k → x.e = y.e → P x = P y

theorem GolS.Le.sub {P : GolS → Int → Bool} (hP : Kel P) {y z : GolS} {ls : List Int} {c : Int} (h : Path (t.sub P) y ls c z) :
    ∀ {x : GolS}, x.Le y → z = t.target → Path (t.sub P) x ls c t.target := by
  induction h with
  | nil s =>
    intro x hx hz
    have := GolS.Le.path t (ub := none) (Path.nil s) hx hz
    have e := BB.path_nil this
    rw [e]; exact Path.nil _
  | cons hs _ ih =>
    intro x hx hz
    obtain ⟨a, b⟩ := (t.sub_step).1 hs
    obtain ⟨x', h1, h2, h3⟩ := hx.step t a
    have hp := Path.cons ((t.sub_step (P := P)).2 ⟨h1, by rw [hP _ _ hx.1 hx.2.1]; exact b⟩) (ih h2 hz)
    have e : (t.sub P).stc x _ = (t.sub P).stc _ _ := h3
    rwa [e] at hp

/-- The hypotheses of the engine: the generator shows `P`, and the completions within `Q` are looked after. -/
theorem Gol.sub_layered {P Q : GolS → Int → Bool} (hQ : Kel Q) (hQP : ∀ x l, Q x l = true → P x l = true)
    (hL : t.L < 2147483646) {s0 : GolS} {v0 : Int} (h0 : t.Ok s0 v0) (hq : t.full.eqs s0 = false) :
    LayeredV (Val (t.sub Q)) (t.sub P) t.rank s0 v0 := by
  have L := t.layered (ub := none) hL h0 hq
  have hr : ∀ {s v}, Relx (t.sub P) t.rank s0 v0 s v → Relx t.full t.rank s0 v0 s v := fun h =>
    relx_sub (m := t.full) (m' := t.sub P) rfl (fun s l h => (List.mem_filter.1 h).1) h
  refine ⟨L.sink, ?_, hq, fun s v h => L.range s v (hr h), fun s v l s' h hs => L.step s v l s' (hr h) ((t.sub_step).1 hs).1, ?_, ?_, ?_, Fair.ofEq⟩
  · intro s c h
    rcases val_closed _ s c h with x | ⟨l, s', c', h1, h2, h3⟩
    · exact .inl x
    · obtain ⟨a, b⟩ := (t.sub_step).1 h1
      exact .inr ⟨l, s', c', (t.sub_step).2 ⟨a, hQP _ _ b⟩, h2, h3⟩
  · intro a b c va vb h1 h2 q1 q2 hk hm
    obtain ⟨e1, e2, rfl⟩ := t.smf_some (ub := none) hm
    refine ⟨q1, rfl, ?_, ?_⟩
    · rintro v ⟨ls, hv⟩
      refine ⟨v, ⟨ls, GolS.Le.sub t hQ hv ⟨rfl, rfl, fun i h => ?_, fun i h => ?_⟩ rfl⟩, by rw [Sense.betterEQ_iff]; omega⟩
      · simp only [Nat.testBit_and, Bool.and_eq_true] at h; exact h.1
      · simp only [Nat.testBit_and, Bool.and_eq_true] at h; exact h.1
    · rintro v ⟨ls, hv⟩
      refine ⟨v, ⟨ls, GolS.Le.sub t hQ hv ⟨e1, e2, fun i h => ?_, fun i h => ?_⟩ rfl⟩, by rw [Sense.betterEQ_iff]; omega⟩
      · simp only [Nat.testBit_and, Bool.and_eq_true] at h; exact h.2
      · simp only [Nat.testBit_and, Bool.and_eq_true] at h; exact h.2
  · intro f hf; simp [Gol.sub, Gol.full, Gol.mdl] at hf
  · intro f hf; simp [Gol.sub, Gol.full, Gol.mdl] at hf

/-! ### The limits of the two generators -/

/-- What examples/gruler.cpp shows. -/
def Gol.limGru (p : Int) (x : GolS) (l : Int) : Bool := decide ((t.lb x : Int) ≤ l ∧ l ≤ t.ub p x)

/-- What examples/gruler_mid.cpp shows. -/
def Gol.limMid (p : Int) (x : GolS) (l : Int) : Bool := decide ((t.lb x : Int) ≤ l ∧ l ≤ t.ubMid p x.k)

/-- The marks of the first half leave room for the other marks of that half up to `Q`. -/
def Gol.can (Q : Nat) (x : GolS) (l : Int) : Bool := decide (x.k < t.n / 2 → l + t.opt (t.n / 2 - x.k) ≤ Q)

theorem Gol.lt_lb (x : GolS) : x.e < t.lb x := by unfold Gol.lb; omega

theorem Gol.fam_eq (p : Int) : t.fam p = t.sub (t.limGru p) := by
  simp only [Gol.fam, Gol.sub, Gol.full, Gol.mdl]
  congr 1
  funext x
  rw [List.filter_filter]
  refine List.filter_congr fun l _ => ?_
  have := t.lt_lb x
  rw [Bool.eq_iff_iff, Bool.and_eq_true]
  refine ⟨fun h => ⟨h, decide_eq_true ?_⟩, fun h => h.1⟩
  have := of_decide_eq_true h
  omega

theorem Gol.mid_eq (p : Int) : t.mid p = t.sub (t.limMid p) := by
  simp only [Gol.mid, Gol.sub, Gol.full, Gol.mdl]
  congr 1
  funext x
  rw [List.filter_filter]
  refine List.filter_congr fun l _ => ?_
  have := t.lt_lb x
  rw [Bool.eq_iff_iff, Bool.and_eq_true]
  refine ⟨fun h => ⟨h, decide_eq_true ?_⟩, fun h => h.1⟩
  have := of_decide_eq_true h
  omega

theorem Gol.kel_can (Q : Nat) : Kel (t.can Q) := by
  intro x y h1 h2; funext l; simp only [Gol.can, h1]

theorem Gol.kel_mid (p : Int) : Kel (t.limMid p) := by
  intro x y h1 h2; funext l; have e : t.lb x = t.lb y := by simp only [Gol.lb, h1, h2]
  simp only [Gol.limMid, e, h1]

theorem Kel.and {P Q : GolS → Int → Bool} (hP : Kel P) (hQ : Kel Q) : Kel fun x l => P x l && Q x l := by
  intro x y h1 h2; funext l
  show (P x l && Q x l) = (P y l && Q y l)
  rw [hP x y h1 h2, hQ x y h1 h2]

/-! ### The shown rulers -/

/-- From a ruler's state, a ruler short enough for the bound is shown by examples/gruler.cpp. -/
theorem Gol.shown (hn : 2 ≤ t.n) (hopt : t.OptOk) {p : Int} {s : GolS} {ls ls' : List Int} {v c : Int} (hp : Path t.full t.full.sti ls v s)
    (hv : Path t.full s ls' c t.target) (hb : v + c < p) : Path (t.sub (t.limGru p)) s ls' c t.target := by
  rw [← Gol.fam_eq]
  obtain ⟨hok, hr⟩ := t.reach hn hp
  rcases hr with hr | ⟨ms, g1, g2, g3⟩
  · obtain ⟨e1, e2, e3⟩ := hv.of_terminal (by rw [hr]; simp [Gol.full, Gol.mdl, Gol.target])
    subst e1; subst e2
    rw [e3]; exact Path.nil _
  · have hk : s.k < t.n := by rw [g2.2.2.1]; simpa using g3
    obtain ⟨o1, o2, o3, o4⟩ := hok.open t (ub := none) (by simp [Gol.mdl]; omega)
    obtain ⟨ns, h1, h2, h3, h4, h5⟩ := t.path_at hv g1 g2 hk o4
    have hlen : (0 :: ms).length + ns.length = t.n := by
      rcases h5 with ⟨a, b⟩ | ⟨a, _⟩
      · have := b.2.2.1
        simp [Gol.target] at this a; omega
      · exact a
    have hne : ns ≠ [] := by intro e; subst e; simp at hlen; omega
    obtain ⟨z, hz⟩ : ∃ z, ns.getLast? = some z := by
      cases hl : ns.getLast? with
      | none => rw [List.getLast?_eq_none_iff] at hl; exact absurd hl hne
      | some v => exact ⟨v, rfl⟩
    rw [hz, Option.getD_some] at h4
    have := t.path_of (ub := some p) (fun _ => hopt) ns (z := z) hne h2 g2 ⟨ms, rfl⟩ hlen (by rw [hz]; rfl)
      (h3 z (List.mem_of_getLast? hz)) (by intro q hq; injection hq with hq; omega)
    rw [← h4, ← h1] at this
    exact this

/-- No ruler within the given length is shorter than twice `Q`. -/
def Gol.Half (Q : Nat) : Prop :=
  ∀ ms : List Nat, Golomb (0 :: ms) → ms.length + 1 = t.n → ms.getLast?.getD 0 ≤ t.L + 1 → 2 * Q ≤ ms.getLast?.getD 0

/-- C102: what the generator hides: only marks that lead to no ruler shorter than the primal bound
with its first half of marks up to `Q`. -/
theorem Gol.mid_ok (hn : 2 ≤ t.n) (hL : t.L < 2147483646) (hopt : t.OptOk) {Q : Nat} (hQ : t.Half Q) :
    FamV (Val (t.sub (t.can Q))) (fun p => Val (t.sub fun x l => t.can Q x l && t.limMid p x l)) t.full t.rank t.mid where
  same := fun _ => rfl
  sub := by
    intro p s l h
    rw [t.mid_eq] at h
    exact (List.mem_filter.1 h).1
  keep := by
    rintro p s ls v c hp ⟨ls', hv⟩ hb
    have hb : v + c < p := by simpa [Gol.full, Gol.mdl, Sense.better] using hb
    have hv : Path (t.sub (t.can Q)) s ls' c t.target := hv
    have hf := t.sub_path hv
    have hsol : Sol t.full (ls ++ ls') (v + c) := hp.trans hf
    obtain ⟨ms, _, m2, m3, m4, m5⟩ := (gruler_sol t hn _ _).1 hsol
    have h2 := hQ ms m2 m3 (by omega)
    refine ⟨ls', t.sub_mono ?_ (t.sub_and hv (t.shown hn hopt hp hf hb))⟩
    intro x l h
    show (t.can Q x l && t.limMid p x l) = true
    have h : (t.can Q x l && t.limGru p x l) = true := h
    rw [Bool.and_eq_true] at h ⊢
    have h1 : x.k < t.n / 2 → l + t.opt (t.n / 2 - x.k) ≤ Q := of_decide_eq_true h.1
    have h3 : (t.lb x : Int) ≤ l ∧ l ≤ t.ub p x := of_decide_eq_true h.2
    refine ⟨h.1, decide_eq_true ⟨h3.1, ?_⟩⟩
    unfold Gol.ub at h3
    unfold Gol.ubMid
    by_cases hk : x.k < t.n / 2
    · rw [if_pos hk]; have := h1 hk; omega
    · rw [if_neg hk]; omega
  back := by
    rintro p s c ⟨ls, h⟩
    exact ⟨ls, t.sub_mono (fun x l h => (Bool.and_eq_true _ _ ▸ h).1) h⟩
  lay := by
    intro p s ls v hp hq
    rw [t.mid_eq]
    exact t.sub_layered ((t.kel_can Q).and (t.kel_mid p)) (fun x l h => (Bool.and_eq_true _ _ ▸ h).2) hL (t.reach hn hp).1 hq

/-- A ruler with its first half of marks up to `Q` is one of those looked after. -/
theorem Gol.can_path (hopt : t.OptOk) {Q : Nat} : ∀ (ns : List Nat) {ms : List Nat} {x : GolS} {ls : List Int} {c : Int},
    Path t.full x ls c t.target → ls = ns.map (fun i : Nat => (i : Int)) → Golomb (ms ++ ns) → At ms x → ms.length + ns.length = t.n →
    (∀ b ∈ (ms ++ ns).take (t.n / 2), b ≤ Q) → Path (t.sub (t.can Q)) x ls c t.target := by
  intro ns
  induction ns with
  | nil =>
    intro ms x ls c h e hg ha hl _
    subst e
    cases h
    exact Path.nil _
  | cons l ns ih =>
    intro ms x ls c h e hg ha hl hb
    subst e
    rw [List.map_cons] at h ⊢
    cases h with
    | @cons _ x' _ _ _ c' hs hp =>
      have hkl := ha.2.2.1
      have hk : x.k < t.n := by simp at hl; omega
      obtain ⟨l', e', a1, a2, a3, a4⟩ := (t.step_iff (ub := none) hk).1 hs
      have e' : l' = l := by omega
      subst e'
      have hlt := a2.lt
      have hcan : t.can Q x (l' : Int) = true := by
        simp only [Gol.can, decide_eq_true_iff]
        intro hkh
        have hsub : ((l' :: ns).take (t.n / 2 - x.k)).Sublist (ms ++ l' :: ns) :=
          (List.take_sublist _ _).trans (List.sublist_append_right _ _)
        have hlen : ((l' :: ns).take (t.n / 2 - x.k)).length = t.n / 2 - x.k := by
          rw [List.length_take]; omega
        have hg2 := hg.sub hsub
        obtain ⟨a, ha', b, hb', hab⟩ := hopt _ hg2 (by omega) (by omega)
        rw [hlen] at hab
        have hla : l' ≤ a := by
          have hp : (l' :: ns).Pairwise (· < ·) := hg.1.sublist (List.sublist_append_right _ _)
          rcases List.mem_cons.1 (List.mem_of_mem_take ha') with e | e
          · omega
          · have := (List.pairwise_cons.1 hp).1 a e; omega
        have := hb b (by
          rw [List.take_append, List.mem_append]
          right
          rw [← hkl]; exact hb')
        omega
      refine Path.cons ((t.sub_step).2 ⟨hs, hcan⟩) ?_
      unfold Gol.next at a4
      by_cases hn : x.k + 1 = t.n
      · rw [if_pos hn] at a4
        subst a4
        have e : ns = [] := List.eq_nil_of_length_eq_zero (by simp at hl; omega)
        subst e
        cases hp
        exact Path.nil _
      · rw [if_neg hn] at a4
        subst a4
        exact ih (ms := ms ++ [l']) hp rfl (by simpa using hg) (ha.next hlt) (by simp at hl ⊢; omega) (by simpa using hb)

theorem exists_least {P : Nat → Prop} (h : ∃ n, P n) : ∃ n, P n ∧ ∀ k, P k → n ≤ k := by
  obtain ⟨n, hn⟩ := h
  induction n using Nat.strongRecOn with
  | _ n ih =>
    by_cases hc : ∃ k, k < n ∧ P k
    · obtain ⟨k, h1, h2⟩ := hc
      exact ih k h1 h2
    · refine ⟨n, hn, fun k hk => ?_⟩
      by_cases hlt : k < n
      · exact absurd ⟨k, hlt, hk⟩ hc
      · omega

theorem last_append {d : Nat} {ms : List Nat} {a : Nat} : (ms ++ [a]).getLast?.getD d = a := by simp

/-- C102: whichever ruler fits, one that is no longer is looked after: the shortest one or its mirror image. -/
theorem Gol.mid_covers (hn : 2 ≤ t.n) (hopt : t.OptOk) : ∃ Q, t.Half Q ∧
    ∀ ls c, Sol t.full ls c → ∃ ls' c', Path (t.sub (t.can Q)) t.full.sti ls' c' t.target ∧ c' ≤ c := by
  by_cases hex : ∃ z, ∃ ms : List Nat, Golomb (0 :: ms) ∧ ms.length + 1 = t.n ∧ ms.getLast?.getD 0 = z ∧ z ≤ t.L + 1
  · obtain ⟨q, ⟨ms, h1, h2, h3, h4⟩, hmin⟩ := exists_least hex
    have hmax : ∀ a ∈ 0 :: ms, a ≤ q := by
      intro a ha
      rcases List.mem_cons.1 ha with e | e
      · omega
      · rw [← h3]; exact last_max (List.pairwise_cons.1 h1.1).2 e
    have hQ : t.Half (q / 2) := by
      intro ms' a b c
      have := hmin _ ⟨ms', a, b, rfl, c⟩
      omega
    have key : ∀ ms : List Nat, Golomb (0 :: ms) → ms.length + 1 = t.n → ms.getLast?.getD 0 = q →
        (∀ b ∈ (0 :: ms).take (t.n / 2), b ≤ q / 2) → ∃ ls', Path (t.sub (t.can (q / 2))) t.full.sti ls' (q : Int) t.target := by
      intro ms h1 h2 h3 h5
      have hs := (gruler_sol t hn _ (q : Int)).2 ⟨ms, rfl, h1, h2, by rw [h3], by omega⟩
      exact ⟨_, t.can_path hopt ms (ms := [0]) hs rfl (by simpa using h1) (at_root t none) (by simp; omega) (by simpa using h5)⟩
    refine ⟨q / 2, hQ, fun ls c hs => ?_⟩
    obtain ⟨ls', hp⟩ : ∃ ls', Path (t.sub (t.can (q / 2))) t.full.sti ls' (q : Int) t.target := by
      have hl : (0 :: ms).length = t.n := by simpa using h2
      rcases mirror_half h1.1 hmax with x | x
      · rw [hl] at x
        exact key ms h1 h2 h3 x
      · rw [hl] at x
        have hg := h1.mirror hmax
        -- the mirror image starts at 0 and ends at `q`
        obtain ⟨ns, hns⟩ : ∃ ns, mirror q (0 :: ms) = 0 :: ns := by
          have hne : ms ≠ [] := by intro e; subst e; simp at h2; omega
          obtain ⟨as, a, e⟩ : ∃ as a, ms = as ++ [a] := ⟨ms.dropLast, ms.getLast hne, (List.dropLast_concat_getLast hne).symm⟩
          have ea : a = q := by rw [← h3, e, last_append]
          refine ⟨(0 :: as).reverse.map (q - ·), ?_⟩
          unfold mirror
          rw [e, ← List.cons_append, List.reverse_append]
          simp [ea]
        have hlen : ns.length + 1 = t.n := by
          have : (mirror q (0 :: ms)).length = t.n := by unfold mirror; simpa using h2
          rw [hns] at this; simpa using this
        have hlast : ns.getLast?.getD 0 = q := by
          have : (mirror q (0 :: ms)).getLast?.getD 0 = q := by
            unfold mirror
            rw [List.reverse_cons, List.map_append, List.map_singleton, last_append]; omega
          rw [hns, List.getLast?_cons] at this
          simpa using this
        rw [hns] at hg x
        exact key ns hg hlen hlast x
    refine ⟨ls', q, hp, ?_⟩
    obtain ⟨ms', _, m2, m3, m4, m5⟩ := (gruler_sol t hn _ _).1 hs
    have := hmin _ ⟨ms', m2, m3, rfl, by omega⟩
    omega
  · refine ⟨0, fun _ _ _ _ => by omega, fun ls c hs => ?_⟩
    obtain ⟨ms', _, m2, m3, m4, m5⟩ := (gruler_sol t hn _ _).1 hs
    exact absurd ⟨_, ms', m2, m3, rfl, by omega⟩ hex

theorem Gol.half_zero : t.Half 0 := fun _ _ _ _ => by omega

theorem Gol.can_layered (hn : 2 ≤ t.n) (hL : t.L < 2147483646) (Q : Nat) : LayeredV (Val (t.sub (t.can Q))) t.full t.rank t.full.sti 0 := by
  have h := t.sub_layered (P := fun _ _ => true) (t.kel_can Q) (fun _ _ _ => rfl) hL (t.ok_root hn) (by simp [Gol.full, Gol.mdl]; omega)
  have e : t.sub (fun _ _ => true) = t.full := by
    have e1 : (fun x => (t.full.lgf x).filter fun _ => true) = t.full.lgf := by
      funext x
      rw [List.filter_eq_self]
      simp
    simp only [Gol.sub, e1]
  rwa [e] at h

/-! ### With the engine -/

/-- C102: at any primal bound, and whatever the width, the relaxed diagram bounds from below every ruler
shorter than the primal bound, although the generator hides about half of them. -/
theorem gruler_mid_dual (hn : 2 ≤ t.n) (hL : t.L < 2147483646) (hopt : t.OptOk) {p : Int} {w f : Nat} {g : G GolS}
    (h : relaxed (t.mid p) p w f (t.mid p).src0 = some g) {ms : List Nat} (hg : Golomb (0 :: ms)) (hm : ms.length + 1 = t.n)
    {z : Nat} (hz : ms.getLast?.getD 0 = z) (hzL : z ≤ t.L + 1) (hp : (z : Int) < p) : g.bound g.trg ≤ z := by
  obtain ⟨Q, hQ, hcov⟩ := t.mid_covers hn hopt
  have hs := (gruler_sol t hn _ (z : Int)).2 ⟨ms, rfl, hg, hm, by rw [hz], by omega⟩
  obtain ⟨ls', c', h1, h2⟩ := hcov _ _ hs
  have := (t.mid_ok hn hL hopt hQ).relaxed_dual (r := (t.mid p).src0) (Path.nil _) (t.layered_root hn hL).src h (c := c') ⟨_, h1⟩ (by
    simp [Mdl.src0, Gol.mid, Gol.full, Gol.mdl, Sense.better]; omega)
  have : g.bound g.trg ≤ 0 + c' := by simpa [Mdl.src0, Gol.mid, Gol.full, Gol.mdl, Sense.betterEQ] using this
  omega

/-- C103: everything the search reports is a ruler with `n` marks whose length is the reported value. -/
theorem gruler_mid_sound (hn : 2 ≤ t.n) (hL : t.L < 2147483646) (hopt : t.OptOk) {w dfuel fuel : Nat} {lim : Nat → Bool} {s : BB.BS GolS}
    (h : BB.searchP t.full t.mid w dfuel lim fuel 2147483647 = some s) :
    ∀ x, x ∈ s.sols → ∃ ms : List Nat, x.2 = ms.map (fun i : Nat => (i : Int)) ∧ Golomb (0 :: ms) ∧ ms.length + 1 = t.n ∧
      x.1 = ((ms.getLast?.getD 0 : Nat) : Int) := by
  intro x hx
  obtain ⟨ms, h1, h2, h3, h4, _⟩ := (gruler_sol t hn _ _).1
    ((BB.searchT_sound (fun _ => t.mid_ok hn hL hopt t.half_zero) (t.can_layered hn hL 0) rfl h).1 x hx)
  exact ⟨ms, h1, h2, h3, h4⟩

/-- C103: the search ends. -/
theorem gruler_mid_ends (hn : 2 ≤ t.n) (hL : t.L < 2147483646) (hopt : t.OptOk) (w : Nat) {dfuel : Nat} (hf : t.n + 2 ≤ dfuel)
    (lim : Nat → Bool) : ∃ N, ∀ fuel, N < fuel → ∃ s, BB.searchP t.full t.mid w dfuel lim fuel 2147483647 = some s ∧
      (s.stopped = true ∨ Heap.empty s.pq = true) :=
  BB.searchT_ends (fun _ => t.mid_ok hn hL hopt t.half_zero) (t.can_layered hn hL 0) rfl (t.rankBound hn) w hf lim

theorem Gol.mid_answer (hn : 2 ≤ t.n) (hL : t.L < 2147483646) {Q : Nat} (hcov : ∀ ls c, Sol t.full ls c →
      ∃ ls' c', Path (t.sub (t.can Q)) t.full.sti ls' c' t.target ∧ c' ≤ c) {pr : Int} {inc : List Int}
    (h1 : ∀ c, Val (t.sub (t.can Q)) t.full.sti c → t.full.sense.betterEQ pr c = true)
    (h2 : Sol t.full inc pr ∨ (pr = 2147483647 ∧ ∀ c, Val (t.sub (t.can Q)) t.full.sti c → t.full.sense.better c 2147483647 = false)) :
    (∃ q : Nat, pr = q ∧ Shortest t.n q ∧ ∃ ms : List Nat, inc = ms.map (fun i : Nat => (i : Int)) ∧ Golomb (0 :: ms) ∧
      ms.length + 1 = t.n ∧ ms.getLast?.getD 0 = q) ∨
    (pr = 2147483647 ∧ ∀ ms : List Nat, Golomb (0 :: ms) → ms.length + 1 = t.n → t.L + 1 < ms.getLast?.getD 0) := by
  have hle : ∀ ls c, Sol t.full ls c → pr ≤ c := by
    intro ls c hs
    obtain ⟨ls', c', a, b⟩ := hcov ls c hs
    have := h1 c' ⟨ls', a⟩
    have : pr ≤ c' := by simpa [Gol.full, Gol.mdl, Sense.betterEQ] using this
    omega
  refine t.answer hn hL (fun ls c hs => ?_) (h2.imp id fun ⟨x, _⟩ => ⟨x, fun ls c hs => ?_⟩)
  · have := hle ls c hs
    simpa [Gol.full, Gol.mdl, Sense.betterEQ] using this
  · have := hle ls c hs
    rw [x] at this
    simpa [Gol.full, Gol.mdl, Sense.better] using this

theorem Gol.can_nonneg (hn : 2 ≤ t.n) {Q : Nat} {c : Int} (h : Val (t.sub (t.can Q)) t.full.sti c) : 0 ≤ c := by
  obtain ⟨ls, h⟩ := h
  exact t.sol_nonneg hn (t.sub_path h)

/-- C103: with a width no layer exceeds, the search ends with the shortest ruler, or nothing when that is
longer than `L + 1`. -/
theorem gruler_mid_room (hn : 2 ≤ t.n) (hL : t.L < 2147483646) (hopt : t.OptOk) {w dfuel fuel : Nat} (hR : Room t.full t.rank t.full.sti w)
    {lim : Nat → Bool} {s : BB.BS GolS} (h : BB.searchP t.full t.mid w dfuel lim fuel 2147483647 = some s) (hns : s.stopped = false) :
    (∃ q : Nat, s.primal = q ∧ Shortest t.n q ∧ ∃ ms : List Nat, s.inc = ms.map (fun i : Nat => (i : Int)) ∧ Golomb (0 :: ms) ∧
      ms.length + 1 = t.n ∧ ms.getLast?.getD 0 = q) ∨
    (s.primal = 2147483647 ∧ ∀ ms : List Nat, Golomb (0 :: ms) → ms.length + 1 = t.n → t.L + 1 < ms.getLast?.getD 0) := by
  obtain ⟨Q, hQ, hcov⟩ := t.mid_covers hn hopt
  obtain ⟨h1, h2⟩ := BB.searchV_room (fun _ => t.mid_ok hn hL hopt hQ) (t.can_layered hn hL Q) rfl (fun _ c hs => by
    have := t.can_nonneg hn hs
    simp [Gol.full, Gol.mdl, Sense.betterEQ, Sense.worst0]; omega) hR h hns
  exact t.mid_answer hn hL hcov h1 h2

/-- C103, for any width: if along the run nothing was dropped for a bad reason (`okLoopP`), the search ends
with the shortest ruler, or nothing when that is longer than `L + 1`. -/
theorem gruler_mid_partial (hn : 2 ≤ t.n) (hL : t.L < 2147483646) (hopt : t.OptOk) {w dfuel fuel : Nat} {lim : Nat → Bool} {s : BB.BS GolS}
    (h : BB.searchP t.full t.mid w dfuel lim fuel 2147483647 = some s)
    (hok : BB.okLoopP t.full t.mid w dfuel lim fuel 0 (BB.init t.full w 2147483647) = true) (hns : s.stopped = false) :
    (∃ q : Nat, s.primal = q ∧ Shortest t.n q ∧ ∃ ms : List Nat, s.inc = ms.map (fun i : Nat => (i : Int)) ∧ Golomb (0 :: ms) ∧
      ms.length + 1 = t.n ∧ ms.getLast?.getD 0 = q) ∨
    (s.primal = 2147483647 ∧ ∀ ms : List Nat, Golomb (0 :: ms) → ms.length + 1 = t.n → t.L + 1 < ms.getLast?.getD 0) := by
  obtain ⟨Q, hQ, hcov⟩ := t.mid_covers hn hopt
  have F := t.mid_ok hn hL hopt hQ
  obtain ⟨h1, h2⟩ := BB.searchV_answer_partial (fun _ => F) (fun _ => BB.LcOK.of_fam F) (t.can_layered hn hL Q)
    (by intro sd hsd; simp [Gol.full, Gol.mdl] at hsd) rfl (fun _ c hs => by
    have := t.can_nonneg hn hs
    simp [Gol.full, Gol.mdl, Sense.betterEQ, Sense.worst0]; omega) h hok hns
  exact t.mid_answer hn hL hcov h1 h2

/-! ### Cases -/

/-- Four marks within length 9. -/
def g48 : Gol := ⟨4, 8, optTable⟩

/-- The generator hides the ruler 0 5 6 8 and shows its mirror image 0 2 3 8, so it is not one of the
generators of `Fam`. -/
theorem gruler_mid_hides : Sol g48.full [5, 6, 8] 8 ∧ (∀ p c, ¬ Sol (g48.mid p) [5, 6, 8] c) ∧ Sol (g48.mid 2147483647) [2, 3, 8] 8 ∧
    mirror 8 [0, 5, 6, 8] = [0, 2, 3, 8] := by
  refine ⟨?_, ?_, ?_, rfl⟩
  · exact Path.cons (c := 3) (l := 5) ⟨by decide +kernel, by decide +kernel, rfl⟩ (Path.cons (c := 2) (l := 6) ⟨by decide +kernel, by decide +kernel, rfl⟩
      (Path.cons (c := 0) (l := 8) ⟨by decide +kernel, by decide +kernel, rfl⟩ (Path.nil _)))
  · rintro p c h
    cases h with
    | cons hs _ =>
      have h := (List.mem_filter.1 hs.2.1).2
      have h := (of_decide_eq_true h).2
      have e : g48.ubMid p 1 ≤ 4 := by
        show min (p / 2 - 0) ((8 + 1) / 2 - 0) ≤ 4
        omega
      have h : (5 : Int) ≤ g48.ubMid p 1 := h
      omega
  · exact Path.cons (c := 6) (l := 2) ⟨by decide +kernel, by decide +kernel, rfl⟩ (Path.cons (c := 5) (l := 3) ⟨by decide +kernel, by decide +kernel, rfl⟩
      (Path.cons (c := 0) (l := 8) ⟨by decide +kernel, by decide +kernel, rfl⟩ (Path.nil _)))

/-- The bound of a relaxed diagram of width 2 at primal bound 9: it holds for the hidden ruler too. -/
example : ∃ g, relaxed (g48.mid 9) 9 2 20 (g48.mid 9).src0 = some g ∧ g.bound g.trg ≤ 8 := by
  have hv : (relaxed (g48.mid 9) 9 2 20 (g48.mid 9).src0).isSome = true := by decide +kernel
  obtain ⟨g, hg⟩ := Option.isSome_iff_exists.1 hv
  exact ⟨g, hg, gruler_mid_dual g48 (by decide) (by decide) (gruler_table (by decide) 8) hg (ms := [5, 6, 8]) (z := 8)
    ((gruler_sol g48 (by decide) [5, 6, 8] 8).1 gruler_mid_hides.1 |>.elim fun ms h => by
      have e : ms = [5, 6, 8] := by
        have := h.1
        rcases ms with _ | ⟨a, _ | ⟨b, _ | ⟨c, _ | ⟨d, r⟩⟩⟩⟩ <;> simp at this ⊢
        omega
      rw [← e]; exact h.2.1) rfl rfl (by decide) (by decide)⟩

/-- The program for four marks within length 9, width 3: the answer is 6, and no ruler is shorter. -/
example : ∃ s, BB.searchP g48.full g48.mid 3 20 (fun _ => false) 20 2147483647 = some s ∧
    s.primal = 6 ∧ s.inc = [1, 4, 6] ∧ Shortest 4 6 := by
  have hv : (BB.searchP g48.full g48.mid 3 20 (fun _ => false) 20 2147483647).map
      (fun s => (s.primal, s.inc, s.stopped)) = some (6, [1, 4, 6], false) := by decide +kernel
  simp only [Option.map_eq_some_iff] at hv
  obtain ⟨s, h1, h2⟩ := hv
  simp at h2
  rcases gruler_mid_partial g48 (by decide) (by decide) (gruler_table (by decide) 8) h1 (by decide +kernel) h2.2.2 with
    ⟨q, a, b, _⟩ | ⟨a, _⟩
  · have e : q = 6 := by omega
    subst e
    exact ⟨s, h1, h2.1, h2.2.1, b⟩
  · omega

/-- Room for every layer: three marks within length 4. -/
example : ∃ s, BB.searchP (⟨3, 3, optTable⟩ : Gol).full (⟨3, 3, optTable⟩ : Gol).mid 60 20 (fun _ => false) 20 2147483647 = some s ∧
    s.primal = 3 ∧ Shortest 3 3 := by
  have hv : (BB.searchP (⟨3, 3, optTable⟩ : Gol).full (⟨3, 3, optTable⟩ : Gol).mid 60 20 (fun _ => false) 20 2147483647).map
      (fun s => (s.primal, s.stopped)) = some (3, false) := by decide +kernel
  simp only [Option.map_eq_some_iff] at hv
  obtain ⟨s, h1, h2⟩ := hv
  simp at h2
  rcases gruler_mid_room ⟨3, 3, optTable⟩ (by decide) (by decide) (gruler_table (by decide) 3) (w := 60)
    (BB.room_level (Gol.layered_root ⟨3, 3, optTable⟩ (by decide) (by decide)) (Gol.rankBound ⟨3, 3, optTable⟩ (by decide)) (fun d hd => by
      have : ∀ d, d < 4 → (BB.level (⟨3, 3, optTable⟩ : Gol).full d).length ≤ 60 := by decide +kernel
      exact this d (by simp only at hd; omega))) h1 h2.2 with ⟨q, a, b, _⟩ | ⟨a, _⟩
  · have e : q = 3 := by omega
    subst e
    exact ⟨s, h1, h2.1, b⟩
  · omega

end Verif.Ex
