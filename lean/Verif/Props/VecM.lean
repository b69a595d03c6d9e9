import Verif.VecM
import Verif.Props.Vec
/-!
# C155: copies, assignments and moves of `Vec`

The specification gives each name a list, or nothing: a name that was never made, or the source of a move construction.
-/
namespace Verif.VecM
open Verif.Vec (V Rep Op Out growTo stepL)
variable {α : Type}

/-- The names a call reads or writes and which must hold a vector. -/
def uses : Op α → List Nat
  | .make _ _ => []
  | .push r _ | .pop r | .clear r | .remove r _ | .get r _ | .size r | .iter r => [r]
  | .copy _ q => [q]
  | .assign r q => [r, q]

/-- The name a call gives a value. -/
def gives : Op α → Option Nat
  | .make r _ => some r
  | .push r _ => some r
  | .pop r => some r
  | .clear r => some r
  | .remove r _ => some r
  | .get _ _ => none
  | .size _ => none
  | .iter _ => none
  | .copy r _ => some r
  | .assign r _ => some r

/-- What the calls mean: after a move construction the source may not be used until it is given a value by a construction
or a move assignment; after a move assignment the source is empty. -/
def stepS (b : Nat) (el : Nat → Option (List α)) : OpM α → Option ((Nat → Option (List α)) × Out α)
  | .base o =>
    if ∀ q, q ∈ uses o → (el q).isSome = true then
      (stepL b (fun q => (el q).getD []) o).map fun p => (fun q => if (el q).isSome = true ∨ gives o = some q then some (p.1 q) else none, p.2)
    else none
  | .moveC r q => if r ≠ q then (el q).map fun l => (upd (upd el q none) r (some l), .unit) else none
  | .moveA r q => if r ≠ q then (el q).map fun l => (upd (upd el q (some [])) r (some l), .unit) else none

def runS (b : Nat) : (Nat → Option (List α)) → List (OpM α) → Option ((Nat → Option (List α)) × List (Out α))
  | el, [] => some (el, [])
  | el, o :: os => (stepS b el o).bind fun p => (runS b p.1 os).map fun q => (q.1, p.2 :: q.2)

/-- No two usable vectors share an array. -/
structure Good (s : St α) (L : Nat → Prop) : Prop where
  lt : ∀ r k, L r → (s.w r).blk = some k → k < s.nxt
  some_ : ∀ r, L r → 0 < (s.w r).msz → (s.w r).blk.isSome = true
  sep : ∀ r q k, L r → L q → r ≠ q → (s.w r).blk = some k → (s.w q).blk ≠ some k

/-- What a step on `r` leaves. -/
structure Next (s s' : St α) (L : Nat → Prop) (r : Nat) (v : V α) : Prop where
  good : Good s' (fun q => L q ∨ q = r)
  new : s'.view r = v
  old : ∀ q, L q → q ≠ r → s'.view q = s.view q

theorem Next.trans {s s' s'' : St α} {L : Nat → Prop} {r : Nat} {v v' : V α} (h : Next s s' L r v) (h' : Next s' s'' (fun q => L q ∨ q = r) r v') : Next s s'' L r v' :=
  ⟨⟨fun q k hq => h'.good.lt q k (.inl hq), fun q hq => h'.good.some_ q (.inl hq), fun q p k hq hp => h'.good.sep q p k (.inl hq) (.inl hp)⟩, h'.new,
    fun q hq hne => (h'.old q (.inl hq) hne).trans (h.old q hq hne)⟩

theorem Good.fresh {s : St α} {L : Nat → Prop} (G : Good s L) (r sz msz : Nat) (f : Nat → Option α) : Next s (s.fresh r sz msz f) L r ⟨sz, msz, f⟩ where
  good := by
    refine ⟨fun q k hq hk => ?_, fun q hq hk => ?_, fun p q k hp hq hne h1 h2 => ?_⟩
    · by_cases h : q = r
      · subst h; simp only [St.fresh, upd_same, Option.some.injEq] at hk ⊢; omega
      · simp only [St.fresh, upd_ne _ _ h] at hk ⊢
        have := G.lt q k (hq.resolve_right h) hk; omega
    · by_cases h : q = r
      · subst h; simp only [St.fresh, upd_same, Option.isSome_some]
      · simp only [St.fresh, upd_ne _ _ h] at hk ⊢
        exact G.some_ q (hq.resolve_right h) hk
    · by_cases h : p = r
      · subst h
        have hq' : q ≠ p := fun h => hne h.symm
        simp only [St.fresh, upd_same, upd_ne _ _ hq', Option.some.injEq] at h1 h2
        have := G.lt q k (hq.resolve_right hq') h2; omega
      · by_cases h' : q = r
        · subst h'
          simp only [St.fresh, upd_same, upd_ne _ _ h, Option.some.injEq] at h1 h2
          have := G.lt p k (hp.resolve_right h) h1; omega
        · simp only [St.fresh, upd_ne _ _ h, upd_ne _ _ h'] at h1 h2
          exact G.sep p q k (hp.resolve_right h) (hq.resolve_right h') hne h1 h2
  new := by
    unfold St.view St.at St.fresh
    simp only [upd_same, Option.bind_some]
  old := fun q hq hne => by
    have : (s.fresh r sz msz f).at q = s.at q := by
      funext i
      unfold St.at
      simp only [St.fresh, upd_ne _ _ hne]
      cases hk : (s.w q).blk with
      | none => rfl
      | some k => simp only [Option.bind_some]; rw [upd_ne _ _ (by have := G.lt q k hq hk; omega)]
    unfold St.view
    rw [this]
    simp only [St.fresh, upd_ne _ _ hne]

theorem Good.head {s : St α} {L : Nat → Prop} (G : Good s L) {r : Nat} (hr : L r) (n : Nat) :
    Next s (s.resize r n) L r ⟨n, (s.view r).msz, (s.view r).data⟩ where
  good := by
    have hb : ∀ q, ((s.resize r n).w q).blk = (s.w q).blk ∧ ((s.resize r n).w q).msz = (s.w q).msz := by
      intro q
      by_cases h : q = r
      · subst h; simp only [St.resize, upd_same, and_self]
      · simp only [St.resize, upd_ne _ _ h, and_self]
    have hl : ∀ q, L q ∨ q = r → L q := fun q h => h.elim id (fun h => h ▸ hr)
    exact ⟨fun q k hq hk => G.lt q k (hl q hq) ((hb q).1 ▸ hk), fun q hq hk => by rw [(hb q).1]; exact G.some_ q (hl q hq) ((hb q).2 ▸ hk),
      fun p q k hp hq hne h1 => by rw [(hb q).1]; exact G.sep p q k (hl p hp) (hl q hq) hne ((hb p).1 ▸ h1)⟩
  new := by
    unfold St.view
    simp only [St.resize, upd_same]
    congr 1
    funext i
    unfold St.at
    simp only [upd_same]
  old := fun q _ hne => by
    unfold St.view
    simp only [St.resize, upd_ne _ _ hne]
    congr 1
    funext i
    unfold St.at
    simp only [upd_ne _ _ hne]

theorem Good.fill {s : St α} {L : Nat → Prop} (G : Good s L) {r : Nat} (hr : L r) (hm : 0 < (s.w r).msz) (f : (Nat → Option α) → Nat → Option α) :
    ∃ s', s.fill r f = some s' ∧ s'.w = s.w ∧ Next s s' L r ⟨(s.view r).sz, (s.view r).msz, f (s.at r)⟩ := by
  obtain ⟨k, hk⟩ := Option.isSome_iff_exists.1 (G.some_ r hr hm)
  have hl : ∀ q, L q ∨ q = r → L q := fun q h => h.elim id (fun h => h ▸ hr)
  refine ⟨{ s with cell := upd s.cell k (f (s.cell k)) }, by unfold St.fill; rw [hk]; rfl, rfl,
    ⟨fun q k hq hk => G.lt q k (hl q hq) hk, fun q hq h => G.some_ q (hl q hq) h, fun p q k hp hq hne h => G.sep p q k (hl p hp) (hl q hq) hne h⟩, ?_, fun q hq hne => ?_⟩
  · have e1 : s.at r = s.cell k := by funext i; unfold St.at; rw [hk]; rfl
    unfold St.view
    congr 1
    rw [e1]
    funext i
    unfold St.at
    simp only [hk, Option.bind_some, upd_same]
  · unfold St.view
    congr 1
    funext i
    unfold St.at
    cases h : (s.w q).blk with
    | none => rfl
    | some j =>
      have : j ≠ k := fun hj => G.sep q r j hq hr hne h (hj ▸ hk)
      simp only [Option.bind_some, upd_ne _ _ this]

theorem growTo_gt {b p : Nat} : ∀ (f n k : Nat), growTo b p f n = some k → p < k := by
  intro f
  induction f with
  | zero => intro n k h; cases h
  | succ f ih =>
    intro n k h
    unfold growTo at h
    split at h
    · exact ih _ _ h
    · cases h; omega

theorem Good.grow {s : St α} {L : Nat → Prop} (G : Good s L) {r : Nat} (hr : L r) {b p : Nat} {v : V α} (h : Vec.makeValid b (s.view r) p = some v) :
    ∃ s', makeValid b s r p = some s' ∧ Next s s' L r v ∧ 0 < (s'.w r).msz := by
  unfold Vec.makeValid at h
  unfold makeValid
  obtain ⟨n, h1, h2⟩ := Option.map_eq_some_iff.1 h
  have h1 : growTo b p (b + 1) (if (s.w r).msz = 0 then 1 else (s.w r).msz) = some n := h1
  have hp := growTo_gt _ _ _ h1
  rw [h1, Option.map_some]
  refine ⟨_, rfl, ?_⟩
  have h2 : (if n ≠ (s.w r).msz then (⟨(s.w r).sz, n, fun i => if i < (s.w r).msz then s.at r i else none⟩ : V α) else s.view r) = v := h2
  by_cases hc : n ≠ (s.w r).msz
  · rw [if_pos hc] at h2
    subst h2
    rw [if_pos hc]
    refine ⟨G.fresh r _ _ _, ?_⟩
    simp only [St.fresh, upd_same]; omega
  · rw [if_neg hc] at h2
    subst h2
    rw [if_neg hc]
    exact ⟨⟨⟨fun q k hq => G.lt q k (hq.elim id (fun h => h ▸ hr)), fun q hq => G.some_ q (hq.elim id (fun h => h ▸ hr)),
      fun p q k hp hq => G.sep p q k (hp.elim id (fun h => h ▸ hr)) (hq.elim id (fun h => h ▸ hr))⟩, rfl, fun _ _ _ => rfl⟩, by omega⟩

theorem Good.stay {s : St α} {L : Nat → Prop} (G : Good s L) {r : Nat} (hr : L r) : Next s s L r (s.view r) :=
  ⟨⟨fun q k hq => G.lt q k (hq.elim id (fun h => h ▸ hr)), fun q hq => G.some_ q (hq.elim id (fun h => h ▸ hr)),
      fun p q k hp hq => G.sep p q k (hp.elim id (fun h => h ▸ hr)) (hq.elim id (fun h => h ▸ hr))⟩, rfl, fun _ _ _ => rfl⟩

theorem Good.bare {s : St α} {L : Nat → Prop} (G : Good s L) (r n : Nat) : Next s { s with w := upd s.w r ⟨n, 0, none⟩ } L r ⟨n, 0, fun _ => none⟩ where
  good := by
    refine ⟨fun q k hq hk => ?_, fun q hq hk => ?_, fun p q k hp hq hne h1 h2 => ?_⟩
    · by_cases h : q = r
      · subst h; simp only [upd_same] at hk; cases hk
      · simp only [upd_ne _ _ h] at hk; exact G.lt q k (hq.resolve_right h) hk
    · by_cases h : q = r
      · subst h; simp only [upd_same] at hk; omega
      · simp only [upd_ne _ _ h] at hk ⊢; exact G.some_ q (hq.resolve_right h) hk
    · by_cases h : p = r
      · subst h; simp only [upd_same] at h1; cases h1
      · by_cases h' : q = r
        · subst h'; simp only [upd_same] at h2; cases h2
        · simp only [upd_ne _ _ h, upd_ne _ _ h'] at h1 h2
          exact G.sep p q k (hp.resolve_right h) (hq.resolve_right h') hne h1 h2
  new := by
    unfold St.view
    simp only [upd_same]
    congr 1
    funext i
    unfold St.at
    simp only [upd_same, Option.bind_none]
  old := fun q _ hne => by
    unfold St.view
    simp only [upd_ne _ _ hne]
    congr 1
    funext i
    unfold St.at
    simp only [upd_ne _ _ hne]

open Classical in
/-- The vectors the usable names hold. -/
noncomputable def fam (s : St α) (L : Nat → Prop) (q : Nat) : V α := if L q then s.view q else Vec.mk' 0

theorem fam_pos {s : St α} {L : Nat → Prop} {q : Nat} (h : L q) : fam s L q = s.view q := by unfold fam; rw [if_pos h]

/-- A call on vectors with their own storage is the call on pointers. -/
theorem sim {b : Nat} {s : St α} {L : Nat → Prop} (G : Good s L) (hc : ∀ q, L q → (s.w q).sz ≤ (s.w q).msz) {o : Op α} (hu : ∀ q, q ∈ uses o → L q)
    {e' : Nat → V α} {y : Out α} (h : Vec.step b (fam s L) o = some (e', y)) :
    ∃ s', step b s (.base o) = some (s', y) ∧
      ((gives o = none ∧ s' = s ∧ e' = fam s L) ∨ ∃ r, gives o = some r ∧ Next s s' L r (e' r) ∧ ∀ q, q ≠ r → e' q = fam s L q) := by
  cases o with
  | make r c =>
    simp only [Vec.step, Option.some.injEq, Prod.mk.injEq] at h
    obtain ⟨rfl, rfl⟩ := h
    refine ⟨_, rfl, .inr ⟨r, rfl, ?_, fun q hq => upd_ne _ _ hq⟩⟩
    rw [upd_same]
    unfold make
    by_cases h : 0 < c
    · rw [if_pos h]; exact G.fresh r 0 c _
    · rw [if_neg h, show c = 0 by omega]; exact G.bare r 0
  | push r x =>
    have hr := hu r (by simp [uses])
    simp only [Vec.step, Vec.push, fam_pos hr] at h
    obtain ⟨p, h1, h2⟩ := Option.map_eq_some_iff.1 h
    obtain ⟨v, h3, rfl⟩ := Option.map_eq_some_iff.1 h1
    simp only [Prod.mk.injEq] at h2
    obtain ⟨rfl, rfl⟩ := h2
    obtain ⟨s1, a1, a2, a3⟩ := G.grow hr h3
    obtain ⟨s2, b1, b2, b3⟩ := a2.good.fill (r := r) (.inr rfl) a3 (fun a => upd a (s1.w r).sz (some x))
    have e1 : (s1.w r).sz = v.sz := congrArg V.sz a2.new
    have e2 : (s2.w r).sz = v.sz := by rw [b2]; exact e1
    refine ⟨s2.resize r ((s2.w r).sz + 1), ?_, .inr ⟨r, rfl, ?_, fun q hq => upd_ne _ _ hq⟩⟩
    · show (push b s r x).map _ = _
      unfold push
      rw [show makeValid b s r (s.w r).sz = some s1 from a1, Option.bind_some, b1, Option.map_some, Option.map_some, e2]
    · rw [upd_same]
      have k := (a2.trans b3).trans (Good.head (a2.trans b3).good (r := r) (.inr rfl) ((s2.w r).sz + 1))
      have e3 : s1.at r = v.data := congrArg V.data a2.new
      have e4 : (s1.w r).msz = v.msz := congrArg V.msz a2.new
      rw [b3.new, e2] at k
      have k : Next s _ L r (⟨v.sz + 1, (s1.w r).msz, upd (s1.at r) (s1.w r).sz (some x)⟩ : V α) := k
      rw [e1, e3, e4] at k
      rw [e2]
      exact k
  | pop r =>
    have hr := hu r (by simp [uses])
    simp only [Vec.step, Vec.pop, fam_pos hr] at h
    obtain ⟨p, h1, h2⟩ := Option.map_eq_some_iff.1 h
    simp only [Prod.mk.injEq] at h2
    obtain ⟨rfl, rfl⟩ := h2
    have h1 : (if (s.w r).sz = 0 then none else (s.at r ((s.w r).sz - 1)).map fun x => (({ s.view r with sz := (s.w r).sz - 1 } : V α), x)) = some p := h1
    split at h1
    · cases h1
    · rename_i h0
      obtain ⟨x, h3, rfl⟩ := Option.map_eq_some_iff.1 h1
      refine ⟨s.resize r ((s.w r).sz - 1), ?_, .inr ⟨r, rfl, ?_, fun q hq => upd_ne _ _ hq⟩⟩
      · show (pop s r).map _ = _
        unfold pop
        rw [if_neg h0, h3]; rfl
      · rw [upd_same]; exact G.head hr _
  | clear r =>
    have hr := hu r (by simp [uses])
    simp only [Vec.step, Option.some.injEq, Prod.mk.injEq] at h
    obtain ⟨rfl, rfl⟩ := h
    refine ⟨_, rfl, .inr ⟨r, rfl, ?_, fun q hq => upd_ne _ _ hq⟩⟩
    rw [upd_same, fam_pos hr]
    exact G.head hr 0
  | remove r i =>
    have hr := hu r (by simp [uses])
    simp only [Vec.step, Vec.remove, fam_pos hr] at h
    obtain ⟨p, h1, h2⟩ := Option.map_eq_some_iff.1 h
    simp only [Prod.mk.injEq] at h2
    obtain ⟨rfl, rfl⟩ := h2
    split at h1
    · rename_i h0
      have h0 : i < (s.w r).sz := h0
      obtain ⟨l, h3, h4⟩ := Option.bind_eq_some_iff.1 h1
      have h3 : s.at r ((s.w r).sz - 1) = some l := h3
      obtain ⟨x, h5, rfl⟩ := Option.map_eq_some_iff.1 h4
      have hm : 0 < (s.w r).msz := by have := hc r hr; omega
      by_cases hi : i < (s.w r).sz - 1
      · have e0 : (if i < (s.view r).sz - 1 then Vec.setAt (s.view r) i l else s.view r) = Vec.setAt (s.view r) i l := if_pos hi
        rw [e0] at h5 ⊢
        obtain ⟨s1, b1, b2, b3⟩ := G.fill hr hm (fun a => upd a i (some l))
        have e1 : (s1.w r).sz = (s.w r).sz := by rw [b2]
        have e2 : s1.at r i = some x := by
          rw [show s1.at r = upd (s.at r) i (some l) from congrArg V.data b3.new]
          exact h5
        refine ⟨s1.resize r ((s1.w r).sz - 1), ?_, .inr ⟨r, rfl, ?_, fun q hq => upd_ne _ _ hq⟩⟩
        · show (remove s r i).map _ = _
          unfold remove
          rw [if_pos h0, h3, Option.bind_some, if_pos hi, b1, Option.bind_some, e2, Option.map_some, Option.map_some, e1]
          rfl
        · rw [upd_same, e1]
          have k := b3.trans (Good.head b3.good (r := r) (.inr rfl) ((s.w r).sz - 1))
          rw [b3.new] at k
          exact k
      · have e0 : (if i < (s.view r).sz - 1 then Vec.setAt (s.view r) i l else s.view r) = s.view r := if_neg hi
        rw [e0] at h5 ⊢
        have h5 : s.at r i = some x := h5
        refine ⟨s.resize r ((s.w r).sz - 1), ?_, .inr ⟨r, rfl, ?_, fun q hq => upd_ne _ _ hq⟩⟩
        · show (remove s r i).map _ = _
          unfold remove
          rw [if_pos h0, h3, Option.bind_some, if_neg hi, Option.bind_some, h5]
          rfl
        · rw [upd_same]; exact G.head hr _
    · cases h1
  | get r i =>
    have hr := hu r (by simp [uses])
    simp only [Vec.step, Vec.get, fam_pos hr] at h
    obtain ⟨x, h1, h2⟩ := Option.map_eq_some_iff.1 h
    simp only [Prod.mk.injEq] at h2
    obtain ⟨rfl, rfl⟩ := h2
    have h1 : (if i < (s.w r).sz then s.at r i else none) = some x := h1
    exact ⟨s, by show Option.map _ (if i < (s.w r).sz then s.at r i else none) = _; rw [h1]; rfl, .inl ⟨rfl, rfl, rfl⟩⟩
  | size r =>
    have hr := hu r (by simp [uses])
    simp only [Vec.step, fam_pos hr, Option.some.injEq, Prod.mk.injEq] at h
    obtain ⟨rfl, rfl⟩ := h
    exact ⟨s, rfl, .inl ⟨rfl, rfl, rfl⟩⟩
  | iter r =>
    have hr := hu r (by simp [uses])
    simp only [Vec.step, fam_pos hr, Option.some.injEq, Prod.mk.injEq] at h
    obtain ⟨rfl, rfl⟩ := h
    exact ⟨s, rfl, .inl ⟨rfl, rfl, rfl⟩⟩
  | copy r q =>
    have hq := hu q (by simp [uses])
    simp only [Vec.step, fam_pos hq, Option.some.injEq, Prod.mk.injEq] at h
    obtain ⟨rfl, rfl⟩ := h
    refine ⟨_, rfl, .inr ⟨r, rfl, ?_, fun q hq => upd_ne _ _ hq⟩⟩
    rw [upd_same]
    unfold copy
    by_cases h : 0 < (s.w q).msz
    · rw [if_pos h]; exact G.fresh r _ _ _
    · rw [if_neg h]
      have := hc q hq
      have e1 : (s.w q).msz = 0 := by omega
      have e2 : (s.w q).sz = 0 := by omega
      have : Vec.copy (s.view q) = ⟨0, 0, fun _ => none⟩ := by
        show (⟨(s.w q).sz, (s.w q).msz, fun i => if i < (s.w q).sz then s.at q i else none⟩ : V α) = _
        rw [e1, e2]; rfl
      rw [this, e1, e2]
      exact G.bare r 0
  | assign r q =>
    have hr := hu r (by simp [uses])
    have hq := hu q (by simp [uses])
    simp only [Vec.step, fam_pos hr, fam_pos hq, Option.some.injEq, Prod.mk.injEq] at h
    obtain ⟨rfl, rfl⟩ := h
    have hcq := hc q hq
    obtain ⟨s1, d1, hs1, k1, hm⟩ : ∃ s1 d1, s1 = (if (s.w r).msz < (s.w q).msz then s.fresh r (s.w r).sz (s.w q).msz (fun _ => none) else s) ∧
        Next s s1 L r d1 ∧ d1 = (if (s.w r).msz < (s.w q).msz then ({ s.view r with msz := (s.w q).msz, data := fun _ => none } : V α) else s.view r) ∧ (s.w q).msz ≤ (s1.w r).msz := by
      by_cases h : (s.w r).msz < (s.w q).msz
      · refine ⟨_, _, rfl, ?_, rfl, ?_⟩
        · rw [if_pos h, if_pos h]; exact G.fresh r _ _ _
        · rw [if_pos h]; simp only [St.fresh, upd_same]; omega
      · refine ⟨_, _, rfl, ?_, rfl, ?_⟩
        · rw [if_neg h, if_neg h]; exact G.stay hr
        · rw [if_neg h]; omega
    obtain ⟨hd1, hm⟩ := hm
    have e0 : Vec.assign (s.view r) (s.view q) = ⟨(s.w q).sz, d1.msz, fun i => if i < (s.w q).sz then s.at q i else d1.data i⟩ := by rw [hd1]; rfl
    by_cases hz : (s.w q).sz = 0
    · refine ⟨s1.resize r (s.w q).sz, ?_, .inr ⟨r, rfl, ?_, fun q hq => upd_ne _ _ hq⟩⟩
      · show (assign s r q).map _ = _
        unfold assign
        dsimp only
        rw [if_pos hz, ← hs1]; rfl
      · rw [upd_same, e0]
        have k := k1.trans (Good.head k1.good (r := r) (.inr rfl) (s.w q).sz)
        rw [k1.new] at k
        have e : (fun i => if i < (s.w q).sz then s.at q i else d1.data i) = d1.data := by funext i; rw [hz]; rfl
        rw [e]
        exact k
    · obtain ⟨s2, b1, b2, b3⟩ := k1.good.fill (r := r) (.inr rfl) (by omega) (fun a i => if i < (s.w q).sz then s.at q i else a i)
      refine ⟨s2.resize r (s.w q).sz, ?_, .inr ⟨r, rfl, ?_, fun q hq => upd_ne _ _ hq⟩⟩
      · show (assign s r q).map _ = _
        unfold assign
        dsimp only
        rw [if_neg hz, ← hs1, b1]; rfl
      · rw [upd_same, e0]
        have k := (k1.trans b3).trans (Good.head (k1.trans b3).good (r := r) (.inr rfl) (s.w q).sz)
        rw [b3.new] at k
        have k : Next s _ L r (⟨(s.w q).sz, (s1.w r).msz, fun i => if i < (s.w q).sz then s.at q i else s1.at r i⟩ : V α) := k
        rw [show s1.at r = d1.data from congrArg V.data k1.new, show (s1.w r).msz = d1.msz from congrArg V.msz k1.new] at k
        exact k

/-- The usable names hold the lists, and share nothing. -/
structure Holds (s : St α) (el : Nat → Option (List α)) : Prop where
  good : Good s (fun q => (el q).isSome = true)
  rep : ∀ q l, el q = some l → Rep (s.view q) l

theorem Holds.step {b : Nat} {s : St α} {el el' : Nat → Option (List α)} {o : OpM α} {y : Out α} (H : Holds s el) (h : stepS b el o = some (el', y)) :
    ∃ s', step b s o = some (s', y) ∧ Holds s' el' := by
  cases o with
  | base o =>
    simp only [stepS] at h
    split at h
    · rename_i hu
      obtain ⟨p, h1, h2⟩ := Option.map_eq_some_iff.1 h
      simp only [Prod.mk.injEq] at h2
      obtain ⟨h2, rfl⟩ := h2
      have hrep : ∀ q, Rep (fam s (fun q => (el q).isSome = true) q) ((el q).getD []) := by
        intro q
        cases hq : el q with
        | none => unfold fam; rw [if_neg (by show ¬ (el q).isSome = true; rw [hq]; simp)]; exact ⟨rfl, Nat.le_refl _, fun i hi => by cases hi⟩
        | some l => rw [fam_pos (by rw [hq]; rfl)]; exact H.rep q l hq
      obtain ⟨e', h3, h4⟩ := Vec.step_refines hrep (show stepL b _ o = some (p.1, p.2) from h1)
      obtain ⟨s', h5, h6⟩ := sim H.good (fun q hq => by
        obtain ⟨l, hl⟩ := Option.isSome_iff_exists.1 hq
        exact (H.rep q l hl).cap) hu h3
      refine ⟨s', h5, ?_⟩
      rcases h6 with ⟨g1, rfl, rfl⟩ | ⟨r, g1, g2, g3⟩
      · have e : ∀ q, (el' q).isSome = (el q).isSome := by
          intro q
          rw [← h2]
          simp only [g1, reduceCtorEq, or_false]
          cases el q <;> rfl
        refine ⟨by simp only [e]; exact H.good, fun q l hl => ?_⟩
        rw [← h2] at hl
        simp only [g1, reduceCtorEq, or_false] at hl
        split at hl
        · rename_i hq
          cases hl
          have := h4 q
          rwa [fam_pos hq] at this
        · cases hl
      · have e : ∀ q, (el' q).isSome = true ↔ ((el q).isSome = true ∨ q = r) := by
          intro q
          rw [← h2]
          simp only [g1, Option.some.injEq]
          by_cases hq : (el q).isSome = true ∨ r = q
          · rw [if_pos hq]; exact ⟨fun _ => hq.imp id Eq.symm, fun _ => rfl⟩
          · rw [if_neg hq]; exact ⟨(fun h => by cases h), fun h => absurd (h.imp id Eq.symm) hq⟩
        refine ⟨by simp only [e]; exact g2.good, fun q l hl => ?_⟩
        rw [← h2] at hl
        simp only [g1, Option.some.injEq] at hl
        split at hl
        · rename_i hq
          cases hl
          have k := h4 q
          by_cases hqr : q = r
          · subst hqr; rw [g2.new]; exact k
          · have hq := hq.resolve_right (fun h => hqr h.symm)
            rw [g2.old q hq hqr]
            rwa [g3 q hqr, fam_pos hq] at k
        · cases hl
    · cases h
  | moveC r q =>
    simp only [stepS] at h
    split at h
    · rename_i hne
      obtain ⟨l, h1, h2⟩ := Option.map_eq_some_iff.1 h
      simp only [Prod.mk.injEq] at h2
      obtain ⟨rfl, rfl⟩ := h2
      have live : ∀ p, ((upd (upd el q none) r (some l)) p).isSome = true → p ≠ r → p ≠ q ∧ (el p).isSome = true := by
        intro p hp hpr
        rw [upd_ne _ _ hpr] at hp
        by_cases hpq : p = q
        · subst hpq; rw [upd_same] at hp; cases hp
        · rw [upd_ne _ _ hpq] at hp; exact ⟨hpq, hp⟩
      have hq : (el q).isSome = true := by rw [h1]; rfl
      have ew : ∀ p, p ≠ r → (moveC s r q).w p = s.w p := fun p hp => upd_ne _ _ hp
      have er : (moveC s r q).w r = s.w q := upd_same _ _ _
      refine ⟨_, rfl, ⟨fun p k hp hk => ?_, fun p hp hk => ?_, fun p p' k hp hp' hd h3 h4 => ?_⟩, fun p l' hl => ?_⟩
      · by_cases hpr : p = r
        · subst hpr; rw [er] at hk; exact H.good.lt q k hq hk
        · rw [ew p hpr] at hk; exact H.good.lt p k (live p hp hpr).2 hk
      · by_cases hpr : p = r
        · subst hpr; rw [er] at hk ⊢; exact H.good.some_ q hq hk
        · rw [ew p hpr] at hk ⊢; exact H.good.some_ p (live p hp hpr).2 hk
      · by_cases hpr : p = r
        · subst hpr
          have hp'r : p' ≠ p := fun h => hd h.symm
          rw [er] at h3; rw [ew p' hp'r] at h4
          exact H.good.sep q p' k hq (live p' hp' hp'r).2 (live p' hp' hp'r).1.symm h3 h4
        · rw [ew p hpr] at h3
          by_cases hp'r : p' = r
          · subst hp'r; rw [er] at h4
            exact H.good.sep p q k (live p hp hpr).2 hq (live p hp hpr).1 h3 h4
          · rw [ew p' hp'r] at h4
            exact H.good.sep p p' k (live p hp hpr).2 (live p' hp' hp'r).2 hd h3 h4
      · by_cases hpr : p = r
        · subst hpr
          rw [upd_same] at hl; cases hl
          have : (moveC s p q).view p = s.view q := by unfold St.view St.at; rw [er]; rfl
          rw [this]; exact H.rep q l h1
        · have hl0 := hl
          rw [upd_ne _ _ hpr, upd_ne _ _ (live p (by rw [hl0]; rfl) hpr).1] at hl
          have : (moveC s r q).view p = s.view p := by unfold St.view St.at; rw [ew p hpr]; rfl
          rw [this]; exact H.rep p l' hl
    · cases h
  | moveA r q =>
    simp only [stepS] at h
    split at h
    · rename_i hne
      obtain ⟨l, h1, h2⟩ := Option.map_eq_some_iff.1 h
      simp only [Prod.mk.injEq] at h2
      obtain ⟨rfl, rfl⟩ := h2
      have live : ∀ p, ((upd (upd el q (some [])) r (some l)) p).isSome = true → p ≠ r → p ≠ q → (el p).isSome = true := by
        intro p hp hpr hpq
        rw [upd_ne _ _ hpr, upd_ne _ _ hpq] at hp
        exact hp
      have hq : (el q).isSome = true := by rw [h1]; rfl
      have ew : ∀ p, p ≠ r → p ≠ q → (moveA s r q).w p = s.w p := fun p hp hpq => by
        show upd (upd s.w r (s.w q)) q ⟨0, 0, none⟩ p = _
        rw [upd_ne _ _ hpq, upd_ne _ _ hp]
      have er : (moveA s r q).w r = s.w q := by
        show upd (upd s.w r (s.w q)) q ⟨0, 0, none⟩ r = _
        rw [upd_ne _ _ hne, upd_same]
      have eq : (moveA s r q).w q = ⟨0, 0, none⟩ := upd_same _ _ _
      have key : ∀ p, ((upd (upd el q (some [])) r (some l)) p).isSome = true → p ≠ q → ∃ p', (p' = if p = r then q else p) ∧ (el p').isSome = true ∧ (moveA s r q).w p = s.w p' := by
        intro p hp hpq
        by_cases hpr : p = r
        · exact ⟨q, by rw [if_pos hpr], hq, by rw [hpr, er]⟩
        · exact ⟨p, by rw [if_neg hpr], live p hp hpr hpq, ew p hpr hpq⟩
      refine ⟨_, rfl, ⟨fun p k hp hk => ?_, fun p hp hk => ?_, fun p p' k hp hp' hd h3 h4 => ?_⟩, fun p l' hl => ?_⟩
      · by_cases hpq : p = q
        · subst hpq; rw [eq] at hk; cases hk
        · obtain ⟨j, _, j2, j3⟩ := key p hp hpq
          rw [j3] at hk; exact H.good.lt j k j2 hk
      · by_cases hpq : p = q
        · subst hpq; rw [eq] at hk; cases hk
        · obtain ⟨j, _, j2, j3⟩ := key p hp hpq
          rw [j3] at hk ⊢; exact H.good.some_ j j2 hk
      · by_cases hpq : p = q
        · subst hpq; rw [eq] at h3; cases h3
        · by_cases hpq' : p' = q
          · subst hpq'; rw [eq] at h4; cases h4
          · obtain ⟨j, j1, j2, j3⟩ := key p hp hpq
            obtain ⟨i, i1, i2, i3⟩ := key p' hp' hpq'
            rw [j3] at h3; rw [i3] at h4
            refine H.good.sep j i k j2 i2 (fun hji => ?_) h3 h4
            rw [j1, i1] at hji
            split at hji <;> split at hji <;> simp_all
      · by_cases hpq : p = q
        · subst hpq
          rw [upd_ne _ _ (Ne.symm hne), upd_same] at hl; cases hl
          exact ⟨by show ((moveA s r p).w p).sz = 0; rw [eq], by show ((moveA s r p).w p).sz ≤ ((moveA s r p).w p).msz; rw [eq]; exact Nat.le_refl _, fun i hi => by cases hi⟩
        · by_cases hpr : p = r
          · subst hpr
            rw [upd_same] at hl; cases hl
            have : (moveA s p q).view p = s.view q := by unfold St.view St.at; rw [er]; rfl
            rw [this]; exact H.rep q l h1
          · rw [upd_ne _ _ hpr, upd_ne _ _ hpq] at hl
            have : (moveA s r q).view p = s.view p := by unfold St.view St.at; rw [ew p hpr hpq]; rfl
            rw [this]; exact H.rep p l' hl
    · cases h

theorem holds_none : Holds (none_ : St α) (fun _ => none) :=
  ⟨⟨(fun _ _ h => by cases h), (fun _ h => by cases h), (fun _ _ _ h => by cases h)⟩, (fun _ _ h => by cases h)⟩

/-- C155.  Any sequence of calls the specification allows, on any number of vectors of one pool: every call returns what it
returns on lists, so what is done to one vector never shows in another.  Missing:
use of the source of a move construction (`vec_move_false`) and self move assignment (`vec_self_move_false`). -/
theorem vec_moves_partial {b : Nat} {os : List (OpM α)} {el' : Nat → Option (List α)} {ys : List (Out α)} (h : runS b (fun _ => none) os = some (el', ys)) :
    ∃ s', run b none_ os = some (s', ys) ∧ ∀ q l, el' q = some l → Rep (s'.view q) l := by
  have key : ∀ (os : List (OpM α)) (s : St α) (el el' : Nat → Option (List α)) (ys : List (Out α)), Holds s el → runS b el os = some (el', ys) →
      ∃ s', run b s os = some (s', ys) ∧ Holds s' el' := by
    intro os
    induction os with
    | nil => intro s el el' ys H h; cases h; exact ⟨s, rfl, H⟩
    | cons o os ih =>
      intro s el el' ys H h
      obtain ⟨p, h1, h2⟩ := Option.bind_eq_some_iff.1 h
      obtain ⟨q, h3, h4⟩ := Option.map_eq_some_iff.1 h2
      simp only [Prod.mk.injEq] at h4
      obtain ⟨rfl, rfl⟩ := h4
      obtain ⟨s1, h5, H1⟩ := H.step (show stepS b el o = some (p.1, p.2) from h1)
      obtain ⟨s2, h6, H2⟩ := ih s1 _ _ _ H1 (show runS b p.1 os = some (q.1, q.2) from h3)
      exact ⟨s2, by unfold run; rw [h5, Option.bind_some, h6]; rfl, H2⟩
  obtain ⟨s', h1, h2⟩ := key os _ _ _ _ holds_none h
  exact ⟨s', h1, h2.rep⟩

/-- Copies and moves among four vectors; the source of a move assignment is empty and can be used again. -/
example : (run 32 none_ [.base (.make 0 1), .base (.push 0 (1 : Int)), .base (.push 0 2), .base (.copy 1 0), .base (.push 1 3), .moveC 2 0, .base (.push 2 4),
      .base (.make 3 0), .moveA 3 2, .base (.push 2 9), .base (.assign 1 3), .base (.remove 3 0), .base (.iter 1), .base (.iter 2), .base (.iter 3)]).map (fun p => p.2.drop 11) =
    some [.rem 4 2, .list [some 1, some 2, some 4], .list [some 9], .list [some 4, some 2]] := by
  obtain ⟨s', h, _⟩ := vec_moves_partial (b := 32) (os := [.base (.make 0 1), .base (.push 0 (1 : Int)), .base (.push 0 2), .base (.copy 1 0), .base (.push 1 3), .moveC 2 0, .base (.push 2 4),
      .base (.make 3 0), .moveA 3 2, .base (.push 2 9), .base (.assign 1 3), .base (.remove 3 0), .base (.iter 1), .base (.iter 2), .base (.iter 3)]) rfl
  rw [h]; rfl

/-- Using the source of a move construction changes the new vector: after `Vec b(std::move(a))`, `b.push_back(5)` and
`a.push_back(7)`, the vector `b` ends with 7. -/
theorem vec_move_false : (run 32 none_ [.base (.make 0 2), .base (.push 0 (1 : Int)), .moveC 1 0, .base (.push 1 5), .base (.push 0 7), .base (.iter 1)]).map (fun p => p.2.getLast?) =
    some (some (.list [some 1, some 7])) := rfl

/-- The source of a move construction still shows all elements. -/
theorem vec_moved_full (s : St α) {r q : Nat} (h : r ≠ q) : (moveC s r q).view q = s.view q ∧ (moveC s r q).view r = s.view q := by
  have e1 : (moveC s r q).w q = s.w q := upd_ne _ _ h.symm
  have e2 : (moveC s r q).w r = s.w q := upd_same _ _ _
  unfold St.view St.at
  rw [e1, e2]
  exact ⟨rfl, rfl⟩

/-- Move assignment of a vector to itself loses the elements. -/
theorem vec_self_move_false (s : St α) (r : Nat) : ((moveA s r r).view r).sz = 0 := by
  show (upd (upd s.w r (s.w r)) r ⟨0, 0, none⟩ r).sz = 0
  rw [upd_same]

end Verif.VecM
