import Verif.Props.TspV
import Verif.Props.MispRoom
/-!
# C127: a width that is always enough for the TSP examples
-/
namespace Verif.DD

/-! ### Counting sets -/

/-- The number of sets of `k` elements out of `n`. -/
def ch : Nat → Nat → Nat
  | _, 0 => 1
  | 0, _ + 1 => 0
  | n + 1, k + 1 => ch n k + ch n (k + 1)

theorem ch_zero (n : Nat) : ch n 0 = 1 := by cases n <;> rfl

theorem ch_up : ∀ n k, (k + 1) * ch (n + 1) (k + 1) = (n + 1) * ch n k := by
  intro n
  induction n with
  | zero =>
    intro k
    cases k with
    | zero => rfl
    | succ k => simp [ch]
  | succ n ih =>
    intro k
    cases k with
    | zero =>
      have h := ih 0
      rw [ch_zero] at h ⊢
      rw [ch, ch_zero]
      omega
    | succ k =>
      have h1 := ih (k + 1)
      have h2 := ih k
      rw [ch, Nat.mul_add, h1, Nat.add_mul (k + 1) 1, h2, Nat.one_mul]
      rw [Nat.add_mul (n + 1) 1, Nat.one_mul]
      have h3 : ch (n + 1) (k + 1) = ch n k + ch n (k + 1) := rfl
      have h4 : (n + 1) * ch (n + 1) (k + 1) = (n + 1) * ch n k + (n + 1) * ch n (k + 1) := by rw [h3, Nat.mul_add]
      omega

theorem ch_next (n k : Nat) : (k + 1) * ch n (k + 1) + (k + 1) * ch n k = (n + 1) * ch n k := by
  rw [← ch_up n k]
  show _ = (k + 1) * (ch n k + ch n (k + 1))
  rw [Nat.mul_add]
  omega

theorem ch_inc {n k : Nat} (h : 2 * (k + 1) ≤ n + 1) : ch n k ≤ ch n (k + 1) := by
  have h1 := ch_next n k
  have h2 : 2 * (k + 1) * ch n k ≤ (n + 1) * ch n k := Nat.mul_le_mul_right _ h
  rw [Nat.mul_assoc] at h2
  exact Nat.le_of_mul_le_mul_left (show (k + 1) * ch n k ≤ (k + 1) * ch n (k + 1) by omega) (by omega)

theorem ch_dec {n k : Nat} (h : n + 1 ≤ 2 * (k + 1)) : ch n (k + 1) ≤ ch n k := by
  have h1 := ch_next n k
  have h2 : (n + 1) * ch n k ≤ 2 * (k + 1) * ch n k := Nat.mul_le_mul_right _ h
  rw [Nat.mul_assoc] at h2
  exact Nat.le_of_mul_le_mul_left (show (k + 1) * ch n (k + 1) ≤ (k + 1) * ch n k by omega) (by omega)

/-- No size has more sets than half of the elements. -/
theorem ch_mid (n k : Nat) : ch n k ≤ ch n (n / 2) := by
  by_cases hk : k ≤ n / 2
  · obtain ⟨d, hd⟩ : ∃ d, d = n / 2 - k := ⟨_, rfl⟩
    induction d generalizing k with
    | zero => rw [show k = n / 2 by omega]; exact Nat.le_refl _
    | succ d ih => exact Nat.le_trans (ch_inc (by omega)) (ih (k + 1) (by omega) (by omega))
  · obtain ⟨d, hd⟩ : ∃ d, k = n / 2 + d := ⟨k - n / 2, by omega⟩
    subst hd
    clear hk
    induction d with
    | zero => exact Nat.le_refl _
    | succ d ih => exact Nat.le_trans (ch_dec (k := n / 2 + d) (by omega)) ih

/-- The masks of the sets of `k` elements of a list. -/
def subs : List Nat → Nat → List Nat
  | _, 0 => [0]
  | [], _ + 1 => []
  | a :: L, k + 1 => (subs L k).map (· ||| 2 ^ a) ++ subs L (k + 1)

theorem subs_length : ∀ (L : List Nat) (k : Nat), (subs L k).length = ch L.length k := by
  intro L
  induction L with
  | nil => intro k; cases k <;> rfl
  | cons a L ih =>
    intro k
    cases k with
    | zero => rfl
    | succ k => simp [subs, ih, ch]

theorem subs_mem : ∀ (L : List Nat) (k s : Nat), L.Nodup → (∀ i, s.testBit i = true → i ∈ L) → L.countP (fun i => s.testBit i) = k → s ∈ subs L k := by
  intro L
  induction L with
  | nil =>
    intro k s _ hs hk
    have : s = 0 := Nat.eq_of_testBit_eq fun i => by
      rw [Nat.zero_testBit]
      cases hb : s.testBit i with
      | false => rfl
      | true => exact absurd (hs i hb) (by simp)
    subst this
    have : k = 0 := by rw [← hk]; rfl
    subst this
    simp [subs]
  | cons a L ih =>
    intro k s hn hs hk
    obtain ⟨ha, hn⟩ := List.nodup_cons.1 hn
    cases k with
    | zero =>
      have : s = 0 := Nat.eq_of_testBit_eq fun i => by
        rw [Nat.zero_testBit]
        cases hb : s.testBit i with
        | false => rfl
        | true =>
          have := List.countP_eq_zero.1 hk i (hs i hb)
          rw [hb] at this
          exact absurd rfl this
      subst this
      simp [subs]
    | succ k =>
      rw [subs, List.mem_append]
      cases hb : s.testBit a with
      | true =>
        left
        have hbit : ∀ i, (s ^^^ 2 ^ a).testBit i = (s.testBit i && decide (i ≠ a)) := fun i => by
          rw [Nat.testBit_xor, Nat.testBit_two_pow]
          by_cases h : i = a
          · subst h; simp [hb]
          · simp [h, Ne.symm h]
        rw [List.countP_cons_of_pos (by exact hb)] at hk
        refine List.mem_map.2 ⟨s ^^^ 2 ^ a, ih k _ hn (fun i hi => ?_) ?_, ?_⟩
        · rw [hbit, Bool.and_eq_true, decide_eq_true_iff] at hi
          rcases List.mem_cons.1 (hs i hi.1) with h | h
          · exact absurd h hi.2
          · exact h
        · have : L.countP (fun i => (s ^^^ 2 ^ a).testBit i) = L.countP (fun i => s.testBit i) := List.countP_congr fun i hi => by
            have : i ≠ a := fun e => ha (e ▸ hi)
            rw [hbit]; simp [this]
          rw [this]; omega
        · refine Nat.eq_of_testBit_eq fun i => ?_
          rw [Nat.testBit_or, hbit, Nat.testBit_two_pow]
          by_cases h : i = a
          · subst h; simp [hb]
          · simp [h, Ne.symm h]
      | false =>
        right
        rw [List.countP_cons_of_neg (by simp [hb])] at hk
        refine ih (k + 1) s hn (fun i hi => ?_) hk
        rcases List.mem_cons.1 (hs i hi) with h | h
        · subst h; rw [hb] at hi; cases hi
        · exact h

theorem flatMap_length_mem {α β : Type} (f : α → List β) (b : Nat) : ∀ l : List α, (∀ x, x ∈ l → (f x).length ≤ b) → (l.flatMap f).length ≤ l.length * b := by
  intro l
  induction l with
  | nil => simp
  | cons x l ih =>
    intro h
    have h1 := h x (.head _)
    have h2 := ih fun y hy => h y (.tail _ hy)
    rw [List.flatMap_cons, List.length_append, List.length_cons, Nat.add_mul]
    omega

/-- What an open state of a tour is: the start, or a set of cities of the list and the last of them. -/
structure OnWay {σ : Type} (m : Mdl σ) (L : List Nat) (V e h : σ → Nat) (x : σ) : Prop where
  way : (x = m.sti ∧ h x = 0) ∨ (e x ∈ L ∧ (V x).testBit (e x) = true)
  bits : ∀ i, (V x).testBit i = true → i ∈ L
  card : L.countP (fun i => (V x).testBit i) = h x

/-- A layer has at most one state for each city and each set of the right size of the others. -/
theorem room_onWay {σ : Type} {m : Mdl σ} {rank : σ → Nat} {L : List Nat} (hL : L.Nodup) {V e h : σ → Nat}
    {Q : σ → Prop} (hinj : ∀ x y, Q x → Q y → V x = V y → e x = e y → h x = h y → x = y) (hrank : ∀ x, rank x = h x)
    (hway : ∀ x ls c, Path m m.sti ls c x → m.eqs x = false → Q x ∧ OnWay m L V e h x) {w : Nat} (hw : 1 ≤ w) (hw2 : L.length * ch (L.length - 1) ((L.length - 1) / 2) ≤ w) :
    Room m rank m.sti w := by
  intro k S hS hmem
  have key : ∀ x, x ∈ S → OnWay m L V e h x ∧ h x = k ∧ Q x := fun x hx => by
    obtain ⟨h1, h2, ls, c, hp⟩ := hmem x hx
    exact ⟨(hway x ls c hp h1).2, by rw [← hrank]; exact h2, (hway x ls c hp h1).1⟩
  cases k with
  | zero =>
    have hz : ∀ x, x ∈ S → x = m.sti := fun x hx => by
      obtain ⟨h1, h2, _⟩ := key x hx
      rcases h1.way with h3 | ⟨h3, h4⟩
      · exact h3.1
      · have := List.countP_eq_zero.1 (h1.card.trans h2) _ h3
        exact absurd h4 this
    have := hS.length_le_of_subset (l₂ := [m.sti]) (fun x hx => by simp [hz x hx])
    simp at this
    omega
  | succ k =>
    have hm : (S.map fun x => (V x ^^^ 2 ^ e x, e x)).Nodup := by
      unfold List.Nodup at hS ⊢
      rw [List.pairwise_map]
      refine List.Pairwise.imp_of_mem ?_ hS
      intro a b ha hb hab hc
      obtain ⟨_, a2, a1⟩ := key a ha
      obtain ⟨_, b2, b1⟩ := key b hb
      simp only [Prod.mk.injEq] at hc
      obtain ⟨c1, c2⟩ := hc
      refine hab (hinj a b a1 b1 ?_ c2 (by omega))
      rw [c2] at c1
      have := congrArg (· ^^^ 2 ^ e b) c1
      simpa [Nat.xor_assoc] using this
    have hsub : ∀ p, p ∈ S.map (fun x => (V x ^^^ 2 ^ e x, e x)) → p ∈ L.flatMap fun c => (subs (L.erase c) k).map fun s => (s, c) := by
      intro p hp
      obtain ⟨x, hx, rfl⟩ := List.mem_map.1 hp
      obtain ⟨h1, h2, _⟩ := key x hx
      have hne : e x ∈ L ∧ (V x).testBit (e x) = true := by
        rcases h1.way with h3 | h3
        · omega
        · exact h3
      obtain ⟨h3, h4⟩ := hne
      have hbit : ∀ i, (V x ^^^ 2 ^ e x).testBit i = ((V x).testBit i && decide (i ≠ e x)) := fun i => by
        rw [Nat.testBit_xor, Nat.testBit_two_pow]
        by_cases h : i = e x
        · rw [h]; simp [h4]
        · simp [h, Ne.symm h]
      refine List.mem_flatMap.2 ⟨e x, h3, List.mem_map.2 ⟨_, subs_mem _ _ _ (hL.erase _) (fun i hi => ?_) ?_, rfl⟩⟩
      · rw [hbit, Bool.and_eq_true, decide_eq_true_iff] at hi
        exact (List.mem_erase_of_ne hi.2).2 (h1.bits i hi.1)
      · have hc : L.countP (fun i => (V x).testBit i) = 1 + (L.erase (e x)).countP fun i => (V x).testBit i := by
          rw [(List.perm_cons_erase h3).countP_eq, List.countP_cons_of_pos (by exact h4)]
          omega
        have hc2 : (L.erase (e x)).countP (fun i => (V x ^^^ 2 ^ e x).testBit i) = (L.erase (e x)).countP fun i => (V x).testBit i := List.countP_congr fun i hi => by
          have : i ≠ e x := fun he => (List.Nodup.not_mem_erase hL) (he ▸ hi)
          rw [hbit]; simp [this]
        have := h1.card
        omega
    have h1 := hm.length_le_of_subset hsub
    have h2 := flatMap_length_mem (fun c => (subs (L.erase c) k).map fun s => (s, c)) (ch (L.length - 1) k) L (fun c hc => ?_)
    · have h3 : L.length * ch (L.length - 1) k ≤ L.length * ch (L.length - 1) ((L.length - 1) / 2) := Nat.mul_le_mul_left _ (ch_mid _ _)
      rw [List.length_map] at h1
      omega
    · rw [List.length_map, subs_length, List.length_erase_of_mem hc]
      exact Nat.le_refl _

/-- One more city on the way. -/
theorem OnWay.step {σ : Type} {m : Mdl σ} {L : List Nat} {V e h : σ → Nat} {x x' : σ} (hL : L.Nodup) (hx : OnWay m L V e h x) {i : Nat} (hi : i ∈ L)
    (hf : (V x).testBit i = false) (hV : ∀ j, (V x').testBit j = ((V x).testBit j || decide (j = i))) (he : e x' = i) (hh : h x' = h x + 1) :
    OnWay m L V e h x' where
  way := .inr ⟨by rw [he]; exact hi, by rw [he, hV]; simp⟩
  bits j hj := by
    rw [hV, Bool.or_eq_true, decide_eq_true_iff] at hj
    rcases hj with hj | rfl
    · exact hx.bits j hj
    · exact hi
  card := by
    rw [hh, ← hx.card, (List.perm_cons_erase hi).countP_eq, (List.perm_cons_erase hi).countP_eq, List.countP_cons_of_pos (by rw [hV]; simp),
      List.countP_cons_of_neg (by simp [hf])]
    congr 1
    refine List.countP_congr fun j hj => ?_
    have : j ≠ i := fun e => (List.Nodup.not_mem_erase hL) (e ▸ hj)
    rw [hV]; simp [this]

theorem path_inv {σ : Type} {m : Mdl σ} {P : σ → Prop} (hs : ∀ x l x', P x → Step m x l x' → P x' ∨ m.eqs x' = true) {x z : σ} {ls : List Int} {c : Int}
    (hp : Path m x ls c z) : P x → P z ∨ m.eqs z = true := by
  induction hp with
  | nil => exact fun h => .inl h
  | cons hst hp ih =>
    intro h
    rcases hs _ _ _ h hst with h | h
    · exact ih h
    · obtain ⟨_, _, rfl⟩ := hp.of_terminal h
      exact .inr h

end Verif.DD

namespace Verif.Ex
open Verif.DD

theorem one_bit {i : Nat} (h : i ≠ 0) : Nat.testBit 1 i = false := by
  have := Nat.testBit_two_pow (n := 0) (m := i)
  rw [Nat.pow_zero] at this
  rw [this]; simp [Ne.symm h]

/-- The cities without the depot. -/
def others (n depot : Nat) : List Nat := (List.range n).erase depot

theorem others_nodup (n c : Nat) : (others n c).Nodup := List.nodup_range.erase _

theorem others_length {n c : Nat} (h : c < n) : (others n c).length = n - 1 := by
  unfold others
  rw [List.length_erase_of_mem (List.mem_range.2 h), List.length_range]

theorem mem_others {n c i : Nat} : i ∈ others n c ↔ i ≠ c ∧ i < n := by
  unfold others
  rw [List.nodup_range.mem_erase_iff, List.mem_range]

/-- A width that is always enough for `n` cities: `n - 1` times the middle of row `n - 2` of Pascal's triangle. -/
def tourWidth (n : Nat) : Nat := (n - 1) * ch (n - 2) ((n - 2) / 2)

/-- C127: with that width no layer of tsp.cpp has more states than the width. -/
theorem tsp_room (t : Tsp) (hn : 1 < t.nv) {w : Nat} (hw : 1 ≤ w) (hw2 : tourWidth t.nv ≤ w) : Room t.mdl t.rank t.mdl.sti w := by
  have hlen := others_length hn
  refine room_onWay (Q := fun x => x.hops < t.nv) (others_nodup t.nv 1) (V := TspS.s) (e := TspS.e) (h := TspS.hops) (fun x y _ _ h1 h2 h3 => by cases x; cases y; simp_all) (fun x => rfl)
    (fun x ls c hp he => ?_) hw (by rw [hlen]; exact hw2)
  refine ((path_inv (P := fun x => x.hops < t.nv ∧ OnWay t.mdl (others t.nv 1) TspS.s TspS.e TspS.hops x) ?_ hp) ⟨by show 0 < _; omega, ?_⟩).resolve_right (by simp [he])
  · intro x l x' ⟨hx, ho⟩ hst
    rcases (t.step_iff hx).1 hst with ⟨_, _, h⟩ | ⟨h1, i, _, h2, h3, h4, _, h⟩
    · right; subst h; simp [Tsp.mdl]
    · left
      subst h
      refine ⟨h1, ho.step (others_nodup _ _) (mem_others.2 ⟨h4, h2⟩) h3 (fun j => ?_) rfl rfl⟩
      dsimp only
      rw [Nat.testBit_or, Nat.testBit_two_pow]
      simp [eq_comm]
  · exact ⟨.inl ⟨rfl, rfl⟩, by simp [Tsp.mdl], by simp [Tsp.mdl]⟩

theorem Tsp4.room_mdl (t : Tsp4) (hn : 1 ≤ t.nv) {w : Nat} (hw : 1 ≤ w) (hw2 : tourWidth t.nv ≤ w) : Room (t.mdl 0) t.rank (t.mdl 0).sti w := by
  have hlen := others_length (show 0 < t.nv by omega)
  refine room_onWay (Q := t.Ok) (others_nodup t.nv 0) (V := fun x => x.A ^^^ 1) (e := Tsp4S.e) (h := Tsp4S.hops)
    (fun x y _ _ h1 h2 h3 => ?_) (fun x => rfl) (fun x ls c hp he => ?_) hw (by rw [hlen]; exact hw2)
  · have := congrArg (· ^^^ 1) h1
    simp only [Nat.xor_assoc, Nat.xor_self, Nat.xor_zero] at this
    cases x; cases y; simp_all
  refine ((path_inv (P := fun x => t.Ok x ∧ OnWay (t.mdl 0) (others t.nv 0) (fun x => x.A ^^^ 1) Tsp4S.e Tsp4S.hops x) ?_ hp) ⟨t.ok_root hn, ?_⟩).resolve_right (by simp [he])
  · intro x l x' ⟨hx, ho⟩ hst
    rcases (t.step_iff hx).1 hst with ⟨_, _, h⟩ | ⟨h1, i, _, h2, h3, h⟩
    · right; subst h; simp [Tsp4.mdl]
    · left
      subst h
      have hi : i ≠ 0 := fun e => by rw [e, hx.depot] at h3; cases h3
      refine ⟨hx.step h1 h2 h3, ho.step (others_nodup _ _) (mem_others.2 ⟨hi, h2⟩) ?_ (fun j => ?_) rfl rfl⟩
      · rw [Nat.testBit_xor, h3]; simp [one_bit hi]
      · dsimp only
        rw [Nat.testBit_xor, Nat.testBit_xor, Nat.testBit_or, Nat.testBit_two_pow]
        by_cases hj : j = i
        · subst hj; simp [h3, one_bit hi]
        · simp [hj, Ne.symm hj]
  · exact ⟨.inl ⟨rfl, rfl⟩, by simp [Tsp4.mdl], by simp [Tsp4.mdl]⟩

/-- C127: nor of tsptw.cpp, tsp_test2.cpp, tsp_test4.cpp and tsp_test3.cpp. -/
theorem tspv_room (t : Tsp4) (hn : 1 ≤ t.nv) {w : Nat} (hw : 1 ≤ w) (hw2 : tourWidth t.nv ≤ w) {u : Nat} {J : Int} :
    (∀ m, t.Progs u J m → Room m t.rank m.sti w) ∧ Room (t.mdl3 J) t.rank3 (t.mdl3 J).sti w := by
  refine ⟨fun m hm => ?_, ?_⟩
  · obtain ⟨sm, lc, rfl, _⟩ := hm.gen
    intro k L hL h
    refine t.room_mdl hn hw hw2 k L hL fun s hs => ?_
    obtain ⟨h1, h2, ls, c, hp⟩ := h s hs
    exact ⟨h1, h2, ls, c, (t.gen_path).1 hp⟩
  have hlen := others_length (show 0 < t.nv by omega)
  refine room_onWay (Q := fun x => t.Ok3 x ∧ x.A = x.S) (others_nodup t.nv 0) (V := fun x => x.A ^^^ 1) (e := Tsp3S.e) (h := Tsp3S.hops)
    (fun x y hx hy h1 h2 h3 => ?_) (fun x => rfl) (fun x ls c hp he => ?_) hw (by rw [hlen]; exact hw2)
  · have := congrArg (· ^^^ 1) h1
    simp only [Nat.xor_assoc, Nat.xor_self, Nat.xor_zero] at this
    have hx := hx.2
    have hy := hy.2
    cases x; cases y; simp_all
  refine ((path_inv (P := fun x => (t.Ok3 x ∧ x.A = x.S) ∧ OnWay (t.mdl3 J) (others t.nv 0) (fun x => x.A ^^^ 1) Tsp3S.e Tsp3S.hops x) ?_ hp) ⟨⟨t.ok3_root hn, rfl⟩, ?_⟩).resolve_right (by simp [he])
  · intro x l x' ⟨⟨hx, hS⟩, ho⟩ hst
    rcases (t.step3_iff hx).1 hst with ⟨_, _, h⟩ | ⟨h1, i, _, h2, h3, h⟩
    · right; subst h; simp [Tsp4.mdl3]
    · left
      subst h
      have h4 := t.out3_sub hx h3
      have hi : i ≠ 0 := fun e => by rw [e, hx.ok.depot] at h4; cases h4
      refine ⟨⟨hx.step h1 h2 h3, by dsimp only; rw [hS]⟩, ho.step (others_nodup _ _) (mem_others.2 ⟨hi, h2⟩) ?_ (fun j => ?_) rfl rfl⟩
      · rw [Nat.testBit_xor, h4]; simp [one_bit hi]
      · dsimp only
        rw [Nat.testBit_xor, Nat.testBit_xor, Nat.testBit_or, Nat.testBit_two_pow]
        by_cases hj : j = i
        · subst hj; simp [h4, one_bit hi]
        · simp [hj, Ne.symm hj]
  · exact ⟨.inl ⟨rfl, rfl⟩, by simp [Tsp4.mdl3], by simp [Tsp4.mdl3]⟩

/-- No distance between two cities is negative; the diagonal is not looked at. -/
def Tsp.Nonneg (t : Tsp) : Prop := ∀ i j, i < t.nv → j < t.nv → i ≠ j → 0 ≤ t.d i j

theorem Tsp.length_nonneg {t : Tsp} (hd : t.Nonneg) {z : Nat} (hz : z < t.nv) : ∀ (p : List Nat) (a : Nat), a < t.nv → (∀ i, i ∈ p → i < t.nv) → (a :: p).Nodup → z ∉ p →
    (p = [] → a ≠ z) → 0 ≤ t.length a (p ++ [z]) := by
  intro p
  induction p with
  | nil =>
    intro a ha _ _ _ h
    have := hd a z ha hz (h rfl)
    simpa [Tsp.length] using this
  | cons b p ih =>
    intro a ha hp hn hzp _
    obtain ⟨hab, hn⟩ := List.nodup_cons.1 hn
    have hb := hp b (.head _)
    have h1 := ih b hb (fun i hi => hp i (.tail _ hi)) hn (fun h => hzp (.tail _ h)) (fun _ e => hzp (e ▸ .head _))
    have h2 := hd a b ha hb (fun e => hab (e ▸ .head _))
    simp only [List.cons_append, Tsp.length]
    omega

theorem Tsp.tour_nonneg {t : Tsp} (hn : 1 < t.nv) (hd : t.Nonneg) (ls : List Int) (c : Int) (h : t.Tour ls c) : 0 ≤ c := by
  obtain ⟨p, _, h3, h4, rfl⟩ := h
  have h1 : 1 ∉ p := fun h => ((h4 1).1 h).2 rfl
  refine Tsp.length_nonneg hd hn p 1 hn (fun i hi => ((h4 i).1 hi).1) (List.nodup_cons.2 ⟨h1, h3⟩) h1 (fun e => ?_)
  have := (h4 0).2 ⟨by omega, by decide⟩
  rw [e] at this
  cases this

/-- C127: with that width tsp.cpp ends with a shortest tour. -/
theorem tsp_search_width (t : Tsp) (hn : 1 < t.nv) {D : Int} (hD : t.Bnd D) (hlow : ∀ ls c, t.Tour ls c → -2147483647 ≤ c)
    {w dfuel fuel : Nat} (hw : 1 ≤ w) (hw2 : tourWidth t.nv ≤ w) {lim : Nat → Bool} {s : BB.BS TspS}
    (h : BB.search t.mdl w dfuel lim fuel 2147483647 = some s) (hns : s.stopped = false) :
    ShortestTour t.Tour s.primal ∧ t.Tour s.inc s.primal := tsp_search_room t hn hD hlow (tsp_room t hn hw hw2) h hns

/-- C127: and so do the other four programs, if what they read at the root before setting it is at most the length of every tour.
Missing: other values there (`tspv_root_false`). -/
theorem tspv_search_width_partial {t : Tsp4} {u : Nat} {J : Int} (hn : 1 ≤ t.nv) (hd : t.Nonneg) {D : Int} (hD : t.Bnd D) (hJ : ∀ ls c, t.Tour ls c → J ≤ c)
    {w dfuel fuel : Nat} (hw : 1 ≤ w) (hw2 : tourWidth t.nv ≤ w) {lim : Nat → Bool} :
    (∀ m, t.Progs u J m → ∀ s, BB.search m w dfuel lim fuel 2147483647 = some s → s.stopped = false →
      ShortestTour t.Tour s.primal ∧ t.Tour s.inc s.primal) ∧
    (∀ s, BB.search (t.mdl3 J) w dfuel lim fuel 2147483647 = some s → s.stopped = false →
      ShortestTour t.Tour s.primal ∧ t.Tour s.inc s.primal) :=
  ⟨fun m hm => (tspv_search_room_partial t hn hd hD hJ).1 m hm ((tspv_room t hn hw hw2).1 m hm),
    (tspv_search_room_partial t (u := u) hn hd hD hJ).2 (tspv_room t (u := u) hn hw hw2).2⟩

/-- Ten cities need 9 · 70 states; seventeen need 16 · 6435. -/
theorem tourWidth_ex : tourWidth 10 = 630 ∧ tourWidth 17 = 102960 ∧ tourWidth 2 = 1 ∧ tourWidth 1 = 0 := by decide +kernel

/-- The width 6 is enough for the four cities of `t4`, and 12 for the five of `q5`. -/
example : ShortestTour t4.Tour 19 := by
  have hd : t4.Nonneg := fun i j hi hj _ => (by decide : ∀ i, i < 4 → ∀ j, j < 4 → 0 ≤ t4.d i j) i hi j hj
  have hv : (BB.search t4.mdl 6 30 (fun _ => false) 50 2147483647).map (fun s => (s.stopped, s.primal)) = some (false, 19) := by decide +kernel
  simp only [Option.map_eq_some_iff] at hv
  obtain ⟨s, h1, h2⟩ := hv
  simp at h2
  have := (tsp_search_width t4 (by decide) t4_bnd (fun ls c h => by have := Tsp.tour_nonneg (t := t4) (by decide) hd ls c h; omega) (by decide) (by decide +kernel) h1 h2.1).1
  rwa [h2.2] at this

example : ShortestTour q5.Tour 17 := by
  have hJ : ∀ ls c, q5.Tour ls c → (0 : Int) ≤ c := q5.tour_nonneg (by decide) q5_nonneg
  have hv : (BB.search (q5.mdl 0) 12 30 (fun _ => false) 50 2147483647).map (fun s => (s.stopped, s.primal)) = some (false, 17) := by decide +kernel
  simp only [Option.map_eq_some_iff] at hv
  obtain ⟨s, h1, h2⟩ := hv
  simp at h2
  have := ((tspv_search_width_partial (u := 1) (by decide) q5_nonneg q5_bnd hJ (by decide) (by decide +kernel)).1 _ (.inl rfl) s h1 h2.1).1
  rwa [h2.2] at this

end Verif.Ex
