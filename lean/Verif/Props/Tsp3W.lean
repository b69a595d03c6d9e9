import Verif.Tsp3W
import Verif.Props.Tsp4W
/-!
# C154: tsp_test3 on the words it stores

Each of the two sets of a state is treated as the one set of a state of `Props/Tsp4W.lean`.
-/
namespace Verif.Ex
open Verif.DD Verif.GNSet

/-- What a stored state stands for, with the numbers of words. -/
structure Tsp3B where
  A : Nat
  S : Nat
  e : Nat
  hops : Nat
  wa : Nat
  ws : Nat
deriving DecidableEq

/-- Without them. -/
def Tsp3B.core (x : Tsp3B) : Tsp3S := ⟨x.A, x.S, x.e, x.hops⟩

def Tsp3W.abs (x : Tsp3W) : Tsp3B := ⟨mask x.A, mask x.S, x.e, x.hops, x.A.mxw, x.S.mxw⟩

/-- One set only. -/
def Tsp3B.pa (x : Tsp3B) : Tsp4B := ⟨x.A, x.e, x.hops, x.wa⟩
def Tsp3B.ps (x : Tsp3B) : Tsp4B := ⟨x.S, x.e, x.hops, x.ws⟩
def Tsp3W.pa (x : Tsp3W) : Tsp4W := ⟨x.A, x.e, x.hops⟩
def Tsp3W.ps (x : Tsp3W) : Tsp4W := ⟨x.S, x.e, x.hops⟩

/-- The program's tables. -/
@[reducible] def tsp3BSame : Same Tsp3B :=
  tabSame 200191 (fun a b => decide (a.core = b.core)) (fun a => (tsp3Hash (hashM a.A a.wa) (hashM a.S a.ws) a.e a.hops).toNat)

variable (t : Tsp4)

def Tsp4.mdl3B (J : Int) : Mdl Tsp3B where
  sense := .min
  sti := ⟨1, 1, 0, 0, 1, 1⟩
  stt := ⟨t.all, t.all, 0, t.nv, t.wds, t.wds⟩
  lgf := fun x => (t.mdl3 J).lgf x.core
  stf := fun x l =>
    if l = 0 then some ⟨t.all, t.all, 0, t.nv, t.wds, t.wds⟩
    else if 0 ≤ l ∧ l < (t.nv : Int) then
      some ⟨x.A ||| 2 ^ l.toNat, x.S ||| 2 ^ l.toNat, l.toNat, x.hops + 1, max x.wa (growTo 1 l.toNat), max x.ws (growTo 1 l.toNat)⟩ else none
  stc := fun x l => if x.e < t.nv ∧ 0 ≤ l ∧ l < (t.nv : Int) then t.d x.e l.toNat else 0
  smf := fun a b => if a.e = b.e ∧ a.hops = b.hops then some ⟨a.A &&& b.A, a.S ||| b.S, a.e, a.hops, a.wa, max a.ws b.ws⟩ else none
  eqs := fun x => decide (x.e = 0) && decide (x.hops = t.nv)
  loc := some fun x _ => (greedyOn (fun ts i => (t.cheapest3 ts i).getD 0) t.nv (t.verts x.A 0 x.e) x.hops).getD J
  sdom := none

/-- What the stored states satisfy. -/
structure Tsp4.Ok3W (x : Tsp3W) : Prop where
  a : t.OkW x.pa
  s : t.OkW x.ps

variable {t}

theorem Tsp4.target3 (hn : 1 ≤ t.nv) (hv : t.nv ≤ 2 ^ 15) (J : Int) : ∃ x, t.target3W = some x ∧ t.Ok3W x ∧ x.abs = (t.mdl3B J).stt := by
  obtain ⟨x, h1, h2, h3⟩ := t.target hn hv (.tw 1) J
  obtain ⟨c, c1, _⟩ := t.cities hn hv
  unfold Tsp4.targetW at h1
  rw [c1, Option.bind_some, t.sz hn hv, Option.bind_some] at h1
  obtain ⟨d, d1, rfl⟩ := Option.map_eq_some_iff.1 h1
  refine ⟨⟨d, d, 0, t.nv⟩, by unfold Tsp4.target3W; rw [c1, Option.bind_some, t.sz hn hv, Option.bind_some, d1, Option.bind_some, Option.map_some], ⟨h2, h2⟩, ?_⟩
  have e1 : mask d = t.all := congrArg Tsp4B.A h3
  have e2 : d.mxw = t.wds := congrArg Tsp4B.wd h3
  show (⟨mask d, mask d, 0, t.nv, d.mxw, d.mxw⟩ : Tsp3B) = ⟨t.all, t.all, 0, t.nv, t.wds, t.wds⟩
  rw [e1, e2]

theorem Tsp4.init3_ok (hn : 1 ≤ t.nv) (J : Int) : ∃ x, tsp3InitW = some x ∧ t.Ok3W x ∧ x.abs = (t.mdl3B J).sti := by
  obtain ⟨x, h1, h2, h3⟩ := t.init_ok hn (.tw 1) J
  unfold tsp4InitW at h1
  obtain ⟨o, o1, rfl⟩ := Option.map_eq_some_iff.1 h1
  refine ⟨⟨o, o, 0, 0⟩, by unfold tsp3InitW; rw [o1, Option.bind_some, Option.map_some], ⟨h2, h2⟩, ?_⟩
  have e1 : mask o = 1 := congrArg Tsp4B.A h3
  have e2 : o.mxw = 1 := congrArg Tsp4B.wd h3
  show (⟨mask o, mask o, 0, 0, o.mxw, o.mxw⟩ : Tsp3B) = ⟨1, 1, 0, 0, 1, 1⟩
  rw [e1, e2]

theorem Tsp4.Ok3W.labels {x : Tsp3W} (hx : t.Ok3W x) (hn : 1 ≤ t.nv) (hv : t.nv ≤ 2 ^ 15) (J : Int) : t.lgf3W x = some ((t.mdl3B J).lgf x.abs) := by
  show _ = some (if x.hops + 1 ≥ t.nv then [0]
    else if (t.card (mask x.S) : Int) - 1 = x.hops then ((List.range t.nv).filter fun i => !(mask x.S).testBit i).map (fun i : Nat => (i : Int))
    else ((List.range t.nv).filter fun i => !(mask x.A).testBit i).map (fun i : Nat => (i : Int)))
  have h1 : t.lgfW x.pa = some (if x.hops + 1 ≥ t.nv then [0] else ((List.range t.nv).filter fun i => !(mask x.A).testBit i).map (fun i : Nat => (i : Int))) :=
    hx.a.labels hn hv (.tw 1) J
  have h2 : t.lgfW x.ps = some (if x.hops + 1 ≥ t.nv then [0] else ((List.range t.nv).filter fun i => !(mask x.S).testBit i).map (fun i : Nat => (i : Int))) :=
    hx.s.labels hn hv (.tw 1) J
  unfold Tsp4.lgfW at h1 h2
  unfold Tsp4.lgf3W
  rw [t.sz hn hv, Option.bind_some] at *
  by_cases h : x.hops + 1 ≥ t.nv
  · rw [if_pos (by omega), if_pos h]
    decide +kernel
  · rw [if_neg (by show ¬ (x.hops : Int) ≥ _; omega), if_neg h] at h1 h2
    rw [if_neg (by omega), if_neg h, show size x.S = _ from size_count hx.s.cap hx.s.bits, Option.bind_some]
    show (if (t.card (mask x.S) : Int) - 1 = x.hops then _ else _) = _
    by_cases hc : (t.card (mask x.S) : Int) - 1 = x.hops
    · rw [if_pos hc, if_pos hc]; exact h2
    · rw [if_neg hc, if_neg hc]; exact h1

theorem Tsp4.Ok3W.bound {x : Tsp3W} (hx : t.Ok3W x) (hn : 1 ≤ t.nv) (hv : t.nv ≤ 2 ^ 15) :
    t.loc3W x = some (greedyOn (fun ts i => (t.cheapest3 ts i).getD 0) t.nv (t.verts (mask x.A) 0 x.e) x.hops) := by
  unfold Tsp4.loc3W
  rw [show t.vertsW x.A 0 x.e = _ from hx.a.verts hn hv, Option.bind_some, t.sz hn hv, Option.map_some]
  rfl

theorem Tsp4.Ok3W.step {x : Tsp3W} (hx : t.Ok3W x) (hn : 1 ≤ t.nv) (hv : t.nv ≤ 2 ^ 15) (J l : Int) :
    (t.stf3W x l).map Tsp3W.abs = (t.mdl3B J).stf x.abs l ∧ ∀ y, t.stf3W x l = some y → t.Ok3W y := by
  show _ = (if l = 0 then some (⟨t.all, t.all, 0, t.nv, t.wds, t.wds⟩ : Tsp3B)
    else if 0 ≤ l ∧ l < (t.nv : Int) then
      some ⟨mask x.A ||| 2 ^ l.toNat, mask x.S ||| 2 ^ l.toNat, l.toNat, x.hops + 1, max x.A.mxw (growTo 1 l.toNat), max x.S.mxw (growTo 1 l.toNat)⟩ else none) ∧ _
  unfold Tsp4.stf3W
  by_cases h1 : l = 0
  · rw [if_pos h1, if_pos h1]
    obtain ⟨z, z1, z2, z3⟩ := t.target3 hn hv J
    rw [z1]
    exact ⟨congrArg some z3, fun y hy => by cases hy; exact z2⟩
  · rw [if_neg h1, if_neg h1]
    by_cases h2 : 0 ≤ l ∧ l < (t.nv : Int)
    · rw [if_pos h2, if_pos h2]
      obtain ⟨o, o1, o2, o3, o4, o5, o6⟩ := mask_single (p := l.toNat) (by omega)
      obtain ⟨u, u1, u2, u3, u4⟩ := mask_union (a := x.A) hx.a.cap hx.a.live (b := o) (fun h => by rw [o2] at h; cases h) o5
      obtain ⟨v, v1, v2, v3, v4⟩ := mask_union (a := x.S) hx.s.cap hx.s.live (b := o) (fun h => by rw [o2] at h; cases h) o5
      have ka := (hx.a.step hn hv (.tw 1) J l).2 ⟨u, l.toNat, x.hops + 1⟩ (by
        unfold Tsp4.stfW
        rw [if_neg h1, if_pos h2, o1, Option.bind_some, show GNSet.union x.pa.A o = some u from u1]; rfl)
      have ks := (hx.s.step hn hv (.tw 1) J l).2 ⟨v, l.toNat, x.hops + 1⟩ (by
        unfold Tsp4.stfW
        rw [if_neg h1, if_pos h2, o1, Option.bind_some, show GNSet.union x.ps.A o = some v from v1]; rfl)
      rw [o1, Option.bind_some, u1, Option.bind_some, Option.bind_some, v1, Option.map_some]
      refine ⟨?_, fun y hy => by cases hy; exact ⟨ka, ks⟩⟩
      show some (⟨mask u, mask v, l.toNat, x.hops + 1, u.mxw, v.mxw⟩ : Tsp3B) = _
      rw [u4, v4, o6, u2, v2, o3]
    · rw [if_neg h2, if_neg h2]
      exact ⟨rfl, fun y hy => by cases hy⟩

theorem Tsp4.Ok3W.merge {a b : Tsp3W} (ha : t.Ok3W a) (hb : t.Ok3W b) (J : Int) :
    ∃ o, t.smf3W a b = some o ∧ o.map Tsp3W.abs = (t.mdl3B J).smf a.abs b.abs ∧ ∀ y, o = some y → t.Ok3W y := by
  show ∃ o, t.smf3W a b = some o ∧ o.map Tsp3W.abs = (if a.e = b.e ∧ a.hops = b.hops then
    some ⟨mask a.A &&& mask b.A, mask a.S ||| mask b.S, a.e, a.hops, a.A.mxw, max a.S.mxw b.S.mxw⟩ else none) ∧ _
  unfold Tsp4.smf3W
  by_cases h : a.e = b.e ∧ a.hops = b.hops
  · rw [if_pos h, if_pos h]
    obtain ⟨u, u1, u2, u3, u4⟩ := mask_inter (a := a.A) ha.a.cap ha.a.live hb.a.live hb.a.cap
    obtain ⟨v, v1, v2, v3, v4⟩ := mask_union (a := a.S) ha.s.cap ha.s.live hb.s.live hb.s.cap
    have e1 : mask b.pa.A = mask b.A := rfl
    have e2 : mask b.ps.A = mask b.S := rfl
    have e3 : b.ps.A.mxw = b.S.mxw := rfl
    rw [show GNSet.inter a.A b.A = some u from u1, Option.bind_some, show GNSet.union a.S b.S = some v from v1, Option.map_some]
    refine ⟨_, rfl, by simp only [Option.map_some, Tsp3W.abs, u4, u2, v4, v2, e1, e2, e3], ?_⟩
    intro y hy
    cases hy
    have ka := (ha.a.merge hb.a (.tw 1) J)
    obtain ⟨o, o1, _, o3⟩ := ka
    unfold Tsp4.smfW TspK.near at o1
    rw [if_pos (show a.pa.e = b.pa.e ∧ a.pa.hops = b.pa.hops from h)] at o1
    simp only [Option.bind_some, if_true] at o1
    rw [show GNSet.inter a.pa.A b.pa.A = some u from u1] at o1
    have p1 : 0 < a.S.mxw := ha.s.pos
    have p2 : a.S.mxw < 2 ^ 15 := ha.s.cap
    have p3 : b.S.mxw < 2 ^ 15 := hb.s.cap
    refine ⟨o3 _ (Option.some.inj o1).symm, ⟨v3, by show 0 < v.mxw; omega, by show v.mxw < _; omega, fun i hi => ?_, ha.s.e, fun h1 h2 => ?_⟩⟩
    · have hi : has v i = true := hi
      rw [← mask_bit, v4, Nat.testBit_or, Bool.or_eq_true, mask_bit, mask_bit] at hi
      rcases hi with hi | hi
      · exact ha.s.bits i hi
      · exact hb.s.bits i hi
    · obtain ⟨a1, a2⟩ := ha.s.last h1 h2
      obtain ⟨b1, b2⟩ := hb.s.last (h.1.symm.trans h1) (h.2.symm.trans h2)
      have a1 : mask a.S = t.all := a1
      have a2 : a.S.mxw = t.wds := a2
      exact ⟨by show mask v = _; rw [v4, a1, b1, Nat.or_self], by show v.mxw = _; rw [v2, a2, b2, Nat.max_self]⟩
  · rw [if_neg h, if_neg h]
    exact ⟨none, rfl, rfl, fun y hy => by cases hy⟩

theorem Tsp4.kept3 (hn : 1 ≤ t.nv) (hv : t.nv ≤ 2 ^ 15) (J : Int) : Kept t.Ok3W (t.mdl3W J) where
  sti := by
    obtain ⟨x, h1, h2, _⟩ := t.init3_ok hn J
    show t.Ok3W (tsp3InitW.getD ⟨GNSet.new 64, GNSet.new 64, 0, 0⟩)
    rw [h1]; exact h2
  stt := by
    obtain ⟨x, h1, h2, _⟩ := t.target3 hn hv J
    show t.Ok3W (t.target3W.getD ⟨GNSet.new 64, GNSet.new 64, 0, 0⟩)
    rw [h1]; exact h2
  stf := fun s l y hs h => (hs.step hn hv J l).2 y h
  smf := fun a b c ha hb h => by
    obtain ⟨o, h1, _, h2⟩ := ha.merge hb J
    have h : (t.smf3W a b).getD none = some c := h
    rw [h1] at h
    exact h2 c h

theorem Tsp4.homOn3 (hn : 1 ≤ t.nv) (hv : t.nv ≤ 2 ^ 15) (J : Int) : HomOn t.Ok3W Tsp3W.abs (t.mdl3W J) (t.mdl3B J) where
  sense := rfl
  sti := by
    obtain ⟨x, h1, _, h3⟩ := t.init3_ok hn J
    show _ = (tsp3InitW.getD ⟨GNSet.new 64, GNSet.new 64, 0, 0⟩).abs
    rw [h1, ← h3]; rfl
  stt := by
    obtain ⟨x, h1, _, h3⟩ := t.target3 hn hv J
    show _ = (t.target3W.getD ⟨GNSet.new 64, GNSet.new 64, 0, 0⟩).abs
    rw [h1, ← h3]; rfl
  lgf := fun s hs => by
    show _ = (t.lgf3W s).getD []
    rw [hs.labels hn hv J]; rfl
  stf := fun s l hs => (hs.step hn hv J l).1.symm
  stc := fun s l hs => by
    show (if s.e < t.nv ∧ 0 ≤ l ∧ l < (t.nv : Int) then t.d s.e l.toNat else 0) = (t.stc3W s l).getD 0
    unfold Tsp4.stc3W
    split <;> rfl
  smf := fun a b ha hb => by
    obtain ⟨o, h1, h2, _⟩ := ha.merge hb J
    show _ = ((t.smf3W a b).getD none).map _
    rw [h1, ← h2]; rfl
  eqs := fun s _ => by
    show (decide (s.e = 0) && decide (s.hops = t.nv)) = (decide (s.e = 0) && decide (some s.hops = t.szW))
    rw [t.sz hn hv]
    simp
  loc := ⟨rfl, fun h h' e e' s c hs => by
    cases e; cases e'
    show ((t.loc3W s).getD none).getD J = _
    rw [hs.bound hn hv]; rfl⟩
  sdom := ⟨rfl, fun h h' e => by cases e⟩

theorem Tsp3W.eqv_core (a b : Tsp3W) : decide (a.abs.core = b.abs.core) = a.eqv b := by
  unfold Tsp3W.eqv
  rw [Bool.eq_iff_iff, decide_eq_true_iff, Bool.and_eq_true, Bool.and_eq_true, Bool.and_eq_true, decide_eq_true_iff, decide_eq_true_iff, eq_mask, eq_mask]
  simp only [Tsp3W.abs, Tsp3B.core, Tsp3S.mk.injEq]
  constructor
  · rintro ⟨h1, h2, h3, h4⟩; exact ⟨⟨⟨h3, h4⟩, h1⟩, h2⟩
  · rintro ⟨⟨⟨h3, h4⟩, h1⟩, h2⟩; exact ⟨h1, h2, h3, h4⟩

theorem Tsp3W.hash_abs (a : Tsp3W) : tsp3Hash (hashM a.abs.A a.abs.wa) (hashM a.abs.S a.abs.ws) a.abs.e a.abs.hops = a.hash := by
  unfold Tsp3W.hash
  rw [hash_hashM, hash_hashM]
  rfl

theorem Tsp3W.same (a b : Tsp3W) : tsp3BSame.same a.abs b.abs = tsp3Same.same a b := by
  unfold tsp3BSame tsp3Same tabSame
  simp only [Tsp3W.eqv_core, Tsp3W.hash_abs]

/-! ### From words to sets -/

/-- Terminal states are the sink. -/
def Tsp4.Good3 (t : Tsp4) (x : Tsp3B) : Prop := t.GoodB x.pa ∧ t.GoodB x.ps

theorem Tsp4.mem_lgf3 (hn : 1 ≤ t.nv) {J : Int} {x : Tsp3S} {l : Int} (hl : l ∈ (t.mdl3 J).lgf x) : 0 ≤ l ∧ l < (t.nv : Int) := by
  have hl : l ∈ (if x.hops + 1 ≥ t.nv then [0]
    else if (t.card x.S : Int) - 1 = x.hops then ((List.range t.nv).filter fun i => !x.S.testBit i).map (fun i : Nat => (i : Int))
    else ((List.range t.nv).filter fun i => !x.A.testBit i).map (fun i : Nat => (i : Int))) := hl
  split at hl
  · rw [List.mem_singleton] at hl; omega
  · split at hl <;>
    · obtain ⟨i, hi, rfl⟩ := List.mem_map.1 hl
      have := List.mem_range.1 (List.mem_filter.1 hi).1
      omega

theorem Tsp4.over3 (hn : 1 ≤ t.nv) (J : Int) : Over t.Good3 Tsp3B.core (t.mdl3B J) (t.mdl3 J) where
  p0 := ⟨⟨hn, fun _ h => by have : 0 = t.nv := h; omega⟩, ⟨hn, fun _ h => by have : 0 = t.nv := h; omega⟩⟩
  pt := ⟨⟨hn, fun _ _ => ⟨rfl, rfl⟩⟩, ⟨hn, fun _ _ => ⟨rfl, rfl⟩⟩⟩
  ps := fun s l y _ hl h => by
    have h : (if l = 0 then some ⟨t.all, t.all, 0, t.nv, t.wds, t.wds⟩
      else if 0 ≤ l ∧ l < (t.nv : Int) then
        some ⟨s.A ||| 2 ^ l.toNat, s.S ||| 2 ^ l.toNat, l.toNat, s.hops + 1, max s.wa (growTo 1 l.toNat), max s.ws (growTo 1 l.toNat)⟩ else none) = some y := h
    by_cases h1 : l = 0
    · rw [if_pos h1] at h; cases h; exact ⟨⟨hn, fun _ _ => ⟨rfl, rfl⟩⟩, ⟨hn, fun _ _ => ⟨rfl, rfl⟩⟩⟩
    · have h2 := t.mem_lgf3 hn (J := J) hl
      rw [if_neg h1, if_pos h2] at h; cases h
      exact ⟨⟨by show l.toNat < t.nv; omega, fun he => by have he : l.toNat = 0 := he; omega⟩, ⟨by show l.toNat < t.nv; omega, fun he => by have he : l.toNat = 0 := he; omega⟩⟩
  pm := fun a b c ha hb h => by
    have h : (if a.e = b.e ∧ a.hops = b.hops then some ⟨a.A &&& b.A, a.S ||| b.S, a.e, a.hops, a.wa, max a.ws b.ws⟩ else none) = some c := h
    by_cases hc : a.e = b.e ∧ a.hops = b.hops
    · rw [if_pos hc] at h
      cases h
      refine ⟨⟨ha.1.1, fun h1 h2 => ?_⟩, ⟨ha.1.1, fun h1 h2 => ?_⟩⟩
      · obtain ⟨a1, a2⟩ := ha.1.2 h1 h2
        obtain ⟨b1, _⟩ := hb.1.2 (hc.1.symm.trans h1) (hc.2.symm.trans h2)
        have a1 : a.A = t.all := a1
        have b1 : b.A = t.all := b1
        exact ⟨by show a.A &&& b.A = _; rw [a1, b1, Nat.and_self], a2⟩
      · obtain ⟨a1, a2⟩ := ha.2.2 h1 h2
        obtain ⟨b1, b2⟩ := hb.2.2 (hc.1.symm.trans h1) (hc.2.symm.trans h2)
        have a1 : a.S = t.all := a1
        have b1 : b.S = t.all := b1
        have a2 : a.ws = t.wds := a2
        have b2 : b.ws = t.wds := b2
        exact ⟨by show a.S ||| b.S = _; rw [a1, b1, Nat.or_self], by show max a.ws b.ws = _; rw [a2, b2, Nat.max_self]⟩
    · rw [if_neg hc] at h; cases h
  sense := rfl
  sti := rfl
  stt := rfl
  lgf := fun _ _ => rfl
  stf := fun s l _ hl => by
    have h2 := t.mem_lgf3 hn (J := J) hl
    show (if l = 0 then some ⟨t.all, t.all, 0, t.nv⟩ else some ⟨s.A ||| 2 ^ l.toNat, s.S ||| 2 ^ l.toNat, l.toNat, s.hops + 1⟩) =
      (if l = 0 then some ⟨t.all, t.all, 0, t.nv, t.wds, t.wds⟩
        else if 0 ≤ l ∧ l < (t.nv : Int) then
          some ⟨s.A ||| 2 ^ l.toNat, s.S ||| 2 ^ l.toNat, l.toNat, s.hops + 1, max s.wa (growTo 1 l.toNat), max s.ws (growTo 1 l.toNat)⟩ else none).map Tsp3B.core
    by_cases h1 : l = 0
    · rw [if_pos h1, if_pos h1]; rfl
    · rw [if_neg h1, if_neg h1, if_pos h2]; rfl
  stc := fun s l hs hl => by
    have h2 := t.mem_lgf3 hn (J := J) hl
    show t.d s.e l.toNat = if s.e < t.nv ∧ 0 ≤ l ∧ l < (t.nv : Int) then t.d s.e l.toNat else 0
    rw [if_pos ⟨hs.1.1, h2⟩]
  smf := fun a b _ _ => by
    show (if a.e = b.e ∧ a.hops = b.hops then some ⟨a.A &&& b.A, a.S ||| b.S, a.e, a.hops⟩ else none) =
      (if a.e = b.e ∧ a.hops = b.hops then some ⟨a.A &&& b.A, a.S ||| b.S, a.e, a.hops, a.wa, max a.ws b.ws⟩ else none).map Tsp3B.core
    split <;> rfl
  eqs := fun _ _ => rfl
  loc := rfl
  sdom := rfl
  ends := fun a b ha hb he hab => by
    have he : (decide (a.e = 0) && decide (a.hops = t.nv)) = true := he
    rw [Bool.and_eq_true, decide_eq_true_iff, decide_eq_true_iff] at he
    unfold Tsp3B.core at hab
    rw [Tsp3S.mk.injEq] at hab
    obtain ⟨e1, e2, e3, e4⟩ := hab
    have h1 : a.wa = t.wds := (ha.1.2 he.1 he.2).2
    have h2 : b.wa = t.wds := (hb.1.2 (e3.symm.trans he.1) (e4.symm.trans he.2)).2
    have h3 : a.ws = t.wds := (ha.2.2 he.1 he.2).2
    have h4 : b.ws = t.wds := (hb.2.2 (e3.symm.trans he.1) (e4.symm.trans he.2)).2
    cases a; cases b
    simp only at e1 e2 e3 e4 h1 h2 h3 h4
    rw [e1, e2, e3, e4, h1, h2, h3, h4]

theorem Tsp4.TopB.next {s : Tsp4B} (hx : t.TopB s) {l : Int} (h1 : l ≠ 0) (hl : 0 ≤ l ∧ l < (t.nv : Int)) (hs : ¬ (s.e = 0 ∧ s.hops = t.nv)) :
    t.TopB ⟨s.A ||| 2 ^ l.toNat, l.toNat, s.hops + 1, max s.wd (growTo 1 l.toNat)⟩ := by
  have hp : 0 < l.toNat ∧ l.toNat < t.nv := by omega
  obtain ⟨h2, h3, h4⟩ := hx.2.resolve_left hs
  obtain ⟨_, g2, _⟩ := growTo_spec (w := 1) (p := l.toNat) (by omega)
  refine ⟨⟨hp.2, fun he => absurd he (Nat.ne_of_gt hp.1)⟩, .inr ⟨?_, by show 1 ≤ max _ _; omega, fun i hi => ?_⟩⟩
  · show max s.wd (growTo 1 l.toNat) = 1 ∨ ∃ i, (s.A ||| 2 ^ l.toNat).testBit i = true ∧ max s.wd (growTo 1 l.toNat) = growTo 1 i
    by_cases hc : s.wd ≤ growTo 1 l.toNat
    · exact .inr ⟨l.toNat, by rw [Nat.testBit_or, Nat.testBit_two_pow]; simp, by omega⟩
    · rcases h2 with h2 | ⟨i, h2, h5⟩
      · exact .inl (by omega)
      · exact .inr ⟨i, by rw [Nat.testBit_or, h2]; rfl, by omega⟩
  · have hi : (s.A ||| 2 ^ l.toNat).testBit i = true := hi
    rw [Nat.testBit_or, Nat.testBit_two_pow, Bool.or_eq_true, decide_eq_true_iff] at hi
    show growTo 1 i ≤ max s.wd (growTo 1 l.toNat)
    rcases hi with hi | hi
    · have := h4 i hi; omega
    · rw [← hi]; omega

theorem Tsp4.top_sink (hn : 1 ≤ t.nv) : t.TopB ⟨t.all, 0, t.nv, t.wds⟩ := ⟨⟨hn, fun _ _ => ⟨rfl, rfl⟩⟩, .inl ⟨rfl, rfl⟩⟩

theorem Tsp4.top_root (hn : 1 ≤ t.nv) : t.TopB ⟨1, 0, 0, 1⟩ := ⟨(t.over hn .test4 0).p0, .inr ⟨.inl rfl, Nat.le_refl _, fun i hi => by
  have hi : (2 ^ 0 : Nat).testBit i = true := hi
  rw [Nat.testBit_two_pow, decide_eq_true_iff] at hi
  subst hi
  show growTo 1 0 ≤ 1
  rw [growTo_same (by omega)]; omega⟩⟩

theorem Tsp4.top3_path (hn : 1 ≤ t.nv) {J : Int} {x y : Tsp3B} {ls : List Int} {c : Int} (hp : Path (t.mdl3B J) x ls c y) :
    t.TopB x.pa ∧ t.TopB x.ps → t.TopB y.pa ∧ t.TopB y.ps := by
  induction hp with
  | nil => exact id
  | @cons s s' z l ls c hs _ ih =>
    intro hx
    refine ih ?_
    have h : (if l = 0 then some ⟨t.all, t.all, 0, t.nv, t.wds, t.wds⟩
      else if 0 ≤ l ∧ l < (t.nv : Int) then
        some ⟨s.A ||| 2 ^ l.toNat, s.S ||| 2 ^ l.toNat, l.toNat, s.hops + 1, max s.wa (growTo 1 l.toNat), max s.ws (growTo 1 l.toNat)⟩ else none) = some s' := hs.2.2
    by_cases h1 : l = 0
    · rw [if_pos h1] at h; cases h; exact ⟨t.top_sink hn, t.top_sink hn⟩
    · have h2 := t.mem_lgf3 hn (J := J) hs.2.1
      rw [if_neg h1, if_pos h2] at h; cases h
      have hne : ¬ (s.e = 0 ∧ s.hops = t.nv) := fun hc => by
        have : (t.mdl3B J).eqs s = true := by show (decide (s.e = 0) && decide (s.hops = t.nv)) = true; rw [hc.1, hc.2]; simp
        rw [hs.1] at this; cases this
      exact ⟨hx.1.next h1 h2 hne, hx.2.next h1 h2 hne⟩

theorem Tsp4.own3 (hn : 1 ≤ t.nv) (J : Int) : @Own _ _ tsp3BSame t.Good3 Tsp3B.core (t.mdl3B J) :=
  @Own.mk _ _ tsp3BSame t.Good3 Tsp3B.core (t.mdl3B J)
    (fun a => by show (decide (a.core = a.core) && _ == _) = true; simp)
    (fun a b h => by
      have h : (decide (a.core = b.core) && _ == _) = true := h
      show (decide (b.core = a.core) && _ == _) = true
      rw [Bool.and_eq_true, decide_eq_true_iff, beq_iff_eq] at h ⊢
      exact ⟨h.1.symm, h.2.symm⟩)
    (fun a b _ _ h => by
      have h : (decide (a.core = b.core) && _ == _) = true := h
      rw [Bool.and_eq_true, decide_eq_true_iff] at h
      exact h.1)
    (fun a b la lb ca cb ha hb h => by
      have pa := t.top3_path hn ha ⟨t.top_root hn, t.top_root hn⟩
      have pb := t.top3_path hn hb ⟨t.top_root hn, t.top_root hn⟩
      unfold Tsp3B.core at h
      rw [Tsp3S.mk.injEq] at h
      obtain ⟨e1, e2, e3, e4⟩ := h
      have k1 : a.wa = b.wa := congrArg Tsp4B.wd (pa.1.uniq pb.1 (by simp only [Tsp4B.core, Tsp3B.pa, e1, e3, e4]))
      have k2 : a.ws = b.ws := congrArg Tsp4B.wd (pa.2.uniq pb.2 (by simp only [Tsp4B.core, Tsp3B.ps, e2, e3, e4]))
      cases a; cases b
      simp only at e1 e2 e3 e4 k1 k2
      rw [e1, e2, e3, e4, k1, k2])

theorem Tsp4.prog3B (hn : 1 ≤ t.nv) {D : Int} (hD : t.Bnd D) {J : Int} (hJ : ∀ ls c, t.Tour ls c → J ≤ c) :
    @TspProg _ tsp3BSame (t.mdl3B J) (fun x => x.hops) t.nv t.Tour := by
  have P := t.prog3 hn hD hJ
  exact @TspProg.mk _ tsp3BSame _ _ _ _ rfl rfl
    (@Over.layered _ _ _ _ _ _ tsp3BSame _ t.rank3 (t.over3 hn J) (t.own3 hn J) 0 P.layered)
    (@Over.rankBound _ _ _ _ _ _ tsp3BSame _ t.rank3 (t.over3 hn J) (t.own3 hn J) 0 _ P.ranks)
    (fun ls c => ((t.over3 hn J).sol P.layered.sink ls c).trans (P.sol ls c)) (fun h => by cases h) P.some_

/-! ### The program -/

/-- The search on the stored words is the search on the masks with their numbers of words. -/
theorem tsp3_words_search (hn : 1 ≤ t.nv) (hv : t.nv ≤ 2 ^ 15) (J : Int) (w fu : Nat) (lim : Nat → Bool) (N : Nat) (p0 : Int) :
    (@BB.search _ tsp3Same (t.mdl3W J) w fu lim N p0).map (fun s => (s.primal, s.inc, s.sols, s.stopped, s.wrel, s.log, s.pq)) =
      (@BB.search _ tsp3BSame (t.mdl3B J) w fu lim N p0).map (fun s => (s.primal, s.inc, s.sols, s.stopped, s.wrel, s.log, s.pq)) :=
  @state_equality_via _ _ tsp3BSame _ _ _ _ _ _ _ (t.kept3 hn hv J) (t.homOn3 hn hv J) (fun a b _ _ => Tsp3W.same a b) w fu lim N p0

theorem tsp3_words_some (hn : 1 ≤ t.nv) (hv : t.nv ≤ 2 ^ 15) {J : Int} {w fu : Nat} {lim : Nat → Bool} {N : Nat} {p0 : Int} {s : BB.BS Tsp3W}
    (h : @BB.search _ tsp3Same (t.mdl3W J) w fu lim N p0 = some s) : ∃ s', @BB.search _ tsp3BSame (t.mdl3B J) w fu lim N p0 = some s' ∧
      s'.primal = s.primal ∧ s'.inc = s.inc ∧ s'.sols = s.sols ∧ s'.stopped = s.stopped := by
  have e := tsp3_words_search hn hv J w fu lim N p0
  rw [h, Option.map_some] at e
  obtain ⟨s', h1, h2⟩ := Option.map_eq_some_iff.1 e.symm
  simp only [Prod.mk.injEq] at h2
  exact ⟨s', h1, h2.1, h2.2.1, h2.2.2.1, h2.2.2.2.1⟩

/-- C154.  Everything the program reports is a tour with its length, shorter than what was reported before, whatever
the local bound gives where it reads what was never written. -/
theorem tsp3_words_sound (hn : 1 ≤ t.nv) (hv : t.nv ≤ 2 ^ 15) (hd : t.Nonneg) {D : Int} (hD : t.Bnd D)
    {J : Int} {w fu N : Nat} {lim : Nat → Bool} {s : BB.BS Tsp3W} (h : @BB.search _ tsp3Same (t.mdl3W J) w fu lim N 2147483647 = some s) :
    (∀ x, x ∈ s.sols → t.Tour x.2 x.1) ∧ (2147483647 :: s.sols.map (·.1)).Pairwise (fun a b => b < a) := by
  obtain ⟨s', h1, _, _, h2, _⟩ := tsp3_words_some hn hv h
  rw [← h2]
  letI := tsp3BSame
  have P := t.prog3B hn hD (t.tour_nonneg hn hd)
  have S := P.layered.shape.setLoc (t.mdl3B J).loc
  obtain ⟨d, _, e, _⟩ := BB.shape_sound S rfl h1
  exact ⟨fun x hx => (P.sol _ _).1 (path_setLoc.1 (d x hx)), e.imp (fun {x y} h => by
    simpa [Mdl.setLoc, Tsp4.mdl3B, Sense.better] using h)⟩

/-- C154.  The search ends. -/
theorem tsp3_words_ends (hn : 1 ≤ t.nv) (hv : t.nv ≤ 2 ^ 15) (hd : t.Nonneg) {D : Int} (hD : t.Bnd D) (J : Int)
    (w : Nat) {fu : Nat} (hf : t.nv + 2 ≤ fu) (lim : Nat → Bool) :
    ∃ L, ∀ N, L < N → ∃ s, @BB.search _ tsp3Same (t.mdl3W J) w fu lim N 2147483647 = some s ∧ (s.stopped = true ∨ Heap.empty s.pq = true) := by
  letI := tsp3BSame
  have P := t.prog3B hn hD (t.tour_nonneg hn hd)
  have S := P.layered.shape.setLoc (t.mdl3B J).loc
  obtain ⟨L, hL⟩ := BB.shape_ends (p0 := 2147483647) S rfl
    (fun x v hr hq => P.ranks x v (relx_setLoc (m := t.mdl3B 0) hr) hq) w hf lim
  refine ⟨L, fun N hN => ?_⟩
  obtain ⟨s, h1, h2⟩ := hL N hN
  have e := tsp3_words_search hn hv J w fu lim N 2147483647
  have h1 : @BB.search _ tsp3BSame (t.mdl3B J) w fu lim N 2147483647 = some s := h1
  rw [h1, Option.map_some] at e
  obtain ⟨s', h3, h4⟩ := Option.map_eq_some_iff.1 e
  simp only [Prod.mk.injEq] at h4
  exact ⟨s', h3, by rw [h4.2.2.2.1, h4.2.2.2.2.2.2]; exact h2⟩

/-- C154.  With a width no layer exceeds, the program ends with a shortest tour, if what the local bound gives where it
reads what was never written is at most the length of every tour.  Missing: other values there (`tspv_root_false`). -/
theorem tsp3_words_width_partial (hn : 1 ≤ t.nv) (hv : t.nv ≤ 2 ^ 15) {D : Int} (hD : t.Bnd D) {J : Int}
    (hJ : ∀ ls c, t.Tour ls c → J ≤ c) {w fu N : Nat} (hw : 1 ≤ w) (hw2 : tourWidth t.nv ≤ w) {lim : Nat → Bool} {s : BB.BS Tsp3W}
    (h : @BB.search _ tsp3Same (t.mdl3W J) w fu lim N 2147483647 = some s) (hns : s.stopped = false) :
    ShortestTour t.Tour s.primal ∧ t.Tour s.inc s.primal := by
  obtain ⟨s', h1, h2, h3, _, h4⟩ := tsp3_words_some hn hv h
  rw [← h2, ← h3]
  exact @TspProg.room _ tsp3BSame _ _ _ _ (t.prog3B hn hD hJ) _ _ _
    ((t.over3 hn J).room (rank := t.rank3) (@Own.uniq _ _ tsp3BSame _ _ _ (t.own3 hn J)) (tspv_room t (u := 1) hn hw hw2).2) _ _ h1 (h4.trans hns)

/-- The states a run can meet. -/
inductive Tsp4.Met3W (t : Tsp4) : Tsp3W → Prop
  | init {x} : tsp3InitW = some x → Met3W t x
  | target {x} : t.target3W = some x → Met3W t x
  | step {x y l ls} : Met3W t x → t.lgf3W x = some ls → l ∈ ls → t.stf3W x l = some y → Met3W t y
  | merge {a b c} : Met3W t a → Met3W t b → t.smf3W a b = some (some c) → Met3W t c

theorem Tsp4.Met3W.ok (hn : 1 ≤ t.nv) (hv : t.nv ≤ 2 ^ 15) {x : Tsp3W} (h : t.Met3W x) : t.Ok3W x := by
  induction h with
  | init h =>
    obtain ⟨x, h1, h2, _⟩ := t.init3_ok hn 0
    rw [h1, Option.some.injEq] at h
    exact h ▸ h2
  | target h =>
    obtain ⟨x, h1, h2, _⟩ := t.target3 hn hv 0
    rw [h1, Option.some.injEq] at h
    exact h ▸ h2
  | step _ _ _ h ih => exact (ih.step hn hv 0 _).2 _ h
  | merge _ _ h iha ihb =>
    obtain ⟨o, h1, _, h2⟩ := iha.merge ihb 0
    rw [h1, Option.some.injEq] at h
    exact h2 _ h

/-- C154.  With 1 to 32768 cities the root and the sink exist, and on every state a run can meet all functions of the
program are defined, on the labels offered; the sets the local bound iterates hold cities only, each once. -/
theorem tsp3_words_defined (hn : 1 ≤ t.nv) (hv : t.nv ≤ 2 ^ 15) : (∃ x, tsp3InitW = some x) ∧ (∃ x, t.target3W = some x) ∧ ∀ x, t.Met3W x →
    (∃ ls, t.lgf3W x = some ls ∧ ∀ l ∈ ls, (∃ y, t.stf3W x l = some y) ∧ ∃ c, t.stc3W x l = some c) ∧ (∀ y, t.Met3W y → ∃ o, t.smf3W x y = some o) ∧
    (∃ o, t.loc3W x = some o) ∧ ∃ ts, t.vertsW x.A 0 x.e = some ts ∧ ts.Nodup ∧ ∀ v ∈ ts, v < t.nv := by
  refine ⟨?_, ?_, fun x hx => ⟨⟨_, (hx.ok hn hv).labels hn hv 0, fun l hl => ?_⟩, fun y hy => ?_, ⟨_, (hx.ok hn hv).bound hn hv⟩, _, (hx.ok hn hv).a.verts hn hv, ?_, ?_⟩⟩
  · obtain ⟨x, h, _⟩ := t.init3_ok hn 0; exact ⟨x, h⟩
  · obtain ⟨x, h, _⟩ := t.target3 hn hv 0; exact ⟨x, h⟩
  · have h2 := t.mem_lgf3 hn (J := 0) hl
    refine ⟨?_, ?_⟩
    · have := ((hx.ok hn hv).step hn hv 0 l).1
      cases hs : t.stf3W x l with
      | some y => exact ⟨y, rfl⟩
      | none =>
        exfalso
        rw [hs] at this
        have this : none = (if l = 0 then some (⟨t.all, t.all, 0, t.nv, t.wds, t.wds⟩ : Tsp3B)
          else if 0 ≤ l ∧ l < (t.nv : Int) then
            some ⟨mask x.A ||| 2 ^ l.toNat, mask x.S ||| 2 ^ l.toNat, l.toNat, x.hops + 1, max x.A.mxw (growTo 1 l.toNat), max x.S.mxw (growTo 1 l.toNat)⟩ else none) := this
        rw [if_pos h2] at this
        split at this <;> cases this
    · exact ⟨_, by unfold Tsp4.stc3W; rw [if_pos ⟨(hx.ok hn hv).a.e, h2⟩]⟩
  · obtain ⟨o, h, _⟩ := (hx.ok hn hv).merge (hy.ok hn hv) 0; exact ⟨o, h⟩
  · exact List.Pairwise.filter _ List.nodup_range
  · intro v hv'; exact List.mem_range.1 (List.mem_filter.1 hv').1

/-- A run on words, by the theorem: the five cities of `q5`, width 12. -/
example : ShortestTour q5.Tour 17 := by
  have hJ : ∀ ls c, q5.Tour ls c → (0 : Int) ≤ c := q5.tour_nonneg (by decide) q5_nonneg
  have hv : (@BB.search _ tsp3Same (q5.mdl3W 0) 12 30 (fun _ => false) 50 2147483647).map (fun s => (s.stopped, s.primal)) = some (false, 17) := by decide +kernel
  obtain ⟨s, h1, h2⟩ := Option.map_eq_some_iff.1 hv
  simp only [Prod.mk.injEq] at h2
  have := (tsp3_words_width_partial (by decide) (by decide) q5_bnd hJ (by decide) (by decide +kernel) h1 h2.1).1
  rwa [h2.2] at this

/-- Two iterations of a run on words, whatever the unwritten cells give: what is reported is a tour. -/
example : ∃ s, @BB.search _ tsp3Same (q5.mdl3W 3) 2 30 (fun _ => false) 50 2147483647 = some s ∧ s.sols ≠ [] ∧ ∀ x, x ∈ s.sols → q5.Tour x.2 x.1 := by
  have hv : (@BB.search _ tsp3Same (q5.mdl3W 3) 2 30 (fun _ => false) 50 2147483647).map (fun s => s.sols.isEmpty) = some false := by decide +kernel
  obtain ⟨s, h1, h2⟩ := Option.map_eq_some_iff.1 hv
  exact ⟨s, h1, (fun h => by rw [h] at h2; cases h2), (tsp3_words_sound (by decide) (by decide) q5_nonneg q5_bnd h1).1⟩

/-- Up to 64 cities every set is one word, so equal states have equal hashes. -/
theorem tsp3_words_hash_partial (hn : 1 ≤ t.nv) (hv : t.nv ≤ 64) {x y : Tsp3W} (hx : t.Met3W x) (hy : t.Met3W y) (h : x.eqv y = true) : x.hash = y.hash := by
  have key : ∀ {x}, t.Met3W x → x.A.mxw = 1 ∧ x.S.mxw = 1 := by
    intro x hx
    have hw : t.wds = 1 := by rw [Tsp4.wds]; omega
    induction hx with
    | init h =>
      obtain ⟨z, h1, _, h3⟩ := t.init3_ok hn 0
      rw [h1, Option.some.injEq] at h
      subst h
      exact ⟨congrArg Tsp3B.wa h3, congrArg Tsp3B.ws h3⟩
    | target h =>
      obtain ⟨z, h1, _, h3⟩ := t.target3 hn (by omega) 0
      rw [h1, Option.some.injEq] at h
      subst h
      exact ⟨(congrArg Tsp3B.wa h3).trans hw, (congrArg Tsp3B.ws h3).trans hw⟩
    | @step x y l ls hx hl hm h ih =>
      have h1 := ((hx.ok hn (by omega)).step hn (by omega) 0 l).1
      have h0 := (hx.ok hn (by omega)).labels hn (by omega) 0
      rw [hl, Option.some.injEq] at h0
      have h2 := t.mem_lgf3 hn (J := 0) (h0 ▸ hm)
      rw [h] at h1
      have h1 : some y.abs = (if l = 0 then some (⟨t.all, t.all, 0, t.nv, t.wds, t.wds⟩ : Tsp3B)
          else if 0 ≤ l ∧ l < (t.nv : Int) then
            some ⟨mask x.A ||| 2 ^ l.toNat, mask x.S ||| 2 ^ l.toNat, l.toNat, x.hops + 1, max x.A.mxw (growTo 1 l.toNat), max x.S.mxw (growTo 1 l.toNat)⟩ else none) := h1
      by_cases hc : l = 0
      · rw [if_pos hc, Option.some.injEq] at h1
        exact ⟨(congrArg Tsp3B.wa h1).trans hw, (congrArg Tsp3B.ws h1).trans hw⟩
      · rw [if_neg hc, if_pos h2, Option.some.injEq] at h1
        have h4 : y.A.mxw = max x.A.mxw (growTo 1 l.toNat) := congrArg Tsp3B.wa h1
        have h5 : y.S.mxw = max x.S.mxw (growTo 1 l.toNat) := congrArg Tsp3B.ws h1
        rw [h4, h5, ih.1, ih.2, growTo_same (by omega)]
        exact ⟨rfl, rfl⟩
    | @merge a b c ha hb h iha ihb =>
      obtain ⟨o, h1, h2, _⟩ := (ha.ok hn (by omega)).merge (hb.ok hn (by omega)) 0
      rw [h1, Option.some.injEq] at h
      subst h
      have h2 : some c.abs = (if a.e = b.e ∧ a.hops = b.hops then
        some ⟨mask a.A &&& mask b.A, mask a.S ||| mask b.S, a.e, a.hops, a.A.mxw, max a.S.mxw b.S.mxw⟩ else none) := h2
      split at h2
      · rw [Option.some.injEq] at h2
        have h4 : c.A.mxw = a.A.mxw := congrArg Tsp3B.wa h2
        have h5 : c.S.mxw = max a.S.mxw b.S.mxw := congrArg Tsp3B.ws h2
        exact ⟨h4.trans iha.1, by rw [h5, iha.2, ihb.2]; rfl⟩
      · cases h2
  rw [← Tsp3W.eqv_core, decide_eq_true_iff] at h
  obtain ⟨a1, a2⟩ := key hx
  obtain ⟨b1, b2⟩ := key hy
  unfold Tsp3B.core Tsp3W.abs at h
  rw [Tsp3S.mk.injEq] at h
  obtain ⟨e1, e2, e3, e4⟩ := h
  simp only at e1 e2 e3 e4
  rw [← x.hash_abs, ← y.hash_abs]
  simp only [Tsp3W.abs, e1, e2, e3, e4, a1, a2, b1, b2]

/-- From 65 cities on, two states the functions of the program build can be equal and lie in different buckets: the same two merged in
either order. -/
theorem tsp3_words_hash_false : ∃ x y, t470.Met3W x ∧ t470.Met3W y ∧ x.eqv y = true ∧ x.hash.toNat % 200191 ≠ y.hash.toNat % 200191 := by
  let st : Option Tsp3W → Int → Option Tsp3W := fun o l => o.bind fun x => (t470.lgf3W x).bind fun ls => if l ∈ ls then t470.stf3W x l else none
  let mg : Option Tsp3W → Option Tsp3W → Option Tsp3W := fun a b => a.bind fun a => b.bind fun b => (t470.smf3W a b).bind id
  have hst : ∀ o l, (∀ x, o = some x → t470.Met3W x) → ∀ y, st o l = some y → t470.Met3W y := by
    intro o l h y hy
    obtain ⟨x, h1, h2⟩ := Option.bind_eq_some_iff.1 hy
    obtain ⟨p, h3, h4⟩ := Option.bind_eq_some_iff.1 h2
    split at h4
    · rename_i hm; exact .step (h x h1) h3 hm h4
    · cases h4
  have hmg : ∀ a b, (∀ y, a = some y → t470.Met3W y) → (∀ y, b = some y → t470.Met3W y) → ∀ x, mg a b = some x → t470.Met3W x := by
    intro a b ha hb x h
    obtain ⟨p, h1, h2⟩ := Option.bind_eq_some_iff.1 h
    obtain ⟨q, h3, h4⟩ := Option.bind_eq_some_iff.1 h2
    obtain ⟨r, h5, h6⟩ := Option.bind_eq_some_iff.1 h4
    exact .merge (ha p h1) (hb q h3) (by rw [h5]; exact congrArg some h6)
  have ha := hst _ 2 (hst tsp3InitW 69 (fun x h => .init h))
  have hb := hst _ 2 (hst tsp3InitW 3 (fun x h => .init h))
  have hv : (mg (st (st tsp3InitW 69) 2) (st (st tsp3InitW 3) 2)).bind (fun x => (mg (st (st tsp3InitW 3) 2) (st (st tsp3InitW 69) 2)).map fun y =>
      (x.eqv y, decide (x.hash.toNat % 200191 = y.hash.toNat % 200191))) = some (true, false) := by decide +kernel
  obtain ⟨x, h1, h2⟩ := Option.bind_eq_some_iff.1 hv
  obtain ⟨y, h3, h4⟩ := Option.map_eq_some_iff.1 h2
  simp only [Prod.mk.injEq, decide_eq_false_iff_not] at h4
  exact ⟨x, y, hmg _ _ ha hb x h1, hmg _ _ hb ha y h3, h4.1, h4.2⟩

end Verif.Ex
