import Verif.Tsp4W
import Verif.Props.TspW
import Verif.Props.AnyLoc
/-!
# C153: tsp_test4, tsptw and tsp_test2 on the words they store

As for C141; here the local bounds iterate sets built from the stored ones, and tsp_test4 compares sizes.
-/
namespace Verif.GNSet
open Verif.Bits
open Verif.NatSet (Lists elems_lists)

/-- `size()` counts the ones of the number. -/
theorem size_count {g : G} (hb : g.mxw < 2 ^ 15) {top : Nat} (ht : ∀ q, has g q = true → q < top) :
    size g = some ((List.range top).countP fun i => (mask g).testBit i) := by
  have he : elems g.t g.mxw = (List.range top).filter (fun i => (mask g).testBit i) := by
    refine Lists.unique (elems_lists (t := g.t) (n := g.mxw)) ⟨List.pairwise_lt_range.filter _, fun q => ?_⟩
    rw [List.mem_filter, List.mem_range, mask_bit]
    exact ⟨fun h => h.2, fun h => ⟨ht q h, h⟩⟩
  unfold size
  rw [sh_some _ hb, popAll_eq, he, List.countP_eq_length_filter]

theorem mask_put {g : G} (hl : Live g) (hb : g.mxw < 2 ^ 15) {p : Nat} (hp : p / 64 < g.mxw) :
    ∃ g', GNSet.insert g p = some g' ∧ g'.nul = false ∧ g'.mxw = g.mxw ∧ mask g' = mask g ||| 2 ^ p := by
  have hs : growTo g.mxw p = g.mxw := growTo_same (by omega)
  obtain ⟨g', h1, R, h2, _⟩ := (Rep.self hl hb).insert (p := p) (by omega) (by omega)
  refine ⟨g', h1, h2, by rw [R.mxw, hs], Nat.eq_of_testBit_eq fun q => ?_⟩
  rw [mask_bit, Nat.testBit_or, Nat.testBit_two_pow, mask_bit, Bool.eq_iff_iff, R.mem, Bool.or_eq_true, decide_eq_true_iff]
  constructor
  · rintro (h | h)
    · exact .inr h.symm
    · exact .inl h
  · rintro (h | h)
    · exact .inr h
    · exact .inl h.symm

end Verif.GNSet

namespace Verif.Ex
open Verif.DD Verif.GNSet

/-- What a stored state stands for, with the number of words. -/
structure Tsp4B where
  A : Nat
  e : Nat
  hops : Nat
  wd : Nat
deriving DecidableEq

/-- Without it. -/
def Tsp4B.core (x : Tsp4B) : Tsp4S := ⟨x.A, x.e, x.hops⟩

def Tsp4W.abs (x : Tsp4W) : Tsp4B := ⟨mask x.A, x.e, x.hops, x.A.mxw⟩

/-- The programs' tables. -/
@[reducible] def tsp4BSame (K : TspK) : Same Tsp4B :=
  tabSame 200191 (fun a b => decide (a.core = b.core)) (fun a => (K.hash (hashM a.A a.wd) a.e a.hops).toNat)

/-- The program on masks. -/
def TspK.mdl (K : TspK) (t : Tsp4) (J : Int) : Mdl Tsp4S := match K with
  | .test4 => t.mdl J
  | .tw u => t.mdlTw u J
  | .test2 => t.mdl2 J

theorem TspK.progs (K : TspK) (t : Tsp4) (J : Int) : ∃ u, t.Progs u J (K.mdl t J) := by
  cases K with
  | test4 => exact ⟨1, .inl rfl⟩
  | tw u => exact ⟨u, .inr (.inl rfl)⟩
  | test2 => exact ⟨1, .inr (.inr rfl)⟩

variable (t : Tsp4)

/-- Words of the set of all cities. -/
def Tsp4.wds : Nat := (t.nv + 63) / 64

/-- Whether masks may be merged. -/
def TspK.nearM (K : TspK) (t : Tsp4) (a b : Nat) : Bool := match K with
  | .test4 => decide (((t.card a : Int) - t.card b).natAbs < 5)
  | _ => true

def Tsp4.mdlB (K : TspK) (J : Int) : Mdl Tsp4B where
  sense := .min
  sti := ⟨1, 0, 0, 1⟩
  stt := ⟨t.all, 0, t.nv, t.wds⟩
  lgf := fun x => (t.mdl J).lgf x.core
  stf := fun x l =>
    if l = 0 then some ⟨t.all, 0, t.nv, t.wds⟩
    else if 0 ≤ l ∧ l < (t.nv : Int) then some ⟨x.A ||| 2 ^ l.toNat, l.toNat, x.hops + 1, max x.wd (growTo 1 l.toNat)⟩ else none
  stc := fun x l => if x.e < t.nv ∧ 0 ≤ l ∧ l < (t.nv : Int) then t.d x.e l.toNat else 0
  smf := fun a b => if a.e = b.e ∧ a.hops = b.hops then if K.nearM t a.A b.A = true then some ⟨a.A &&& b.A, a.e, a.hops, a.wd⟩ else none else none
  eqs := fun x => decide (x.e = 0) && decide (x.hops = t.nv)
  loc := some fun x _ => (t.boundOn K t.nv (t.verts x.A 0 x.e) x.hops).getD J
  sdom := none

/-- What the stored states satisfy. -/
structure Tsp4.OkW (x : Tsp4W) : Prop where
  nul : x.A.nul = false
  pos : 0 < x.A.mxw
  cap : x.A.mxw < 2 ^ 15
  bits : ∀ i, has x.A i = true → i < t.nv
  e : x.e < t.nv
  last : x.e = 0 → x.hops = t.nv → mask x.A = t.all ∧ x.A.mxw = t.wds

variable {t}

theorem Tsp4.OkW.live {x : Tsp4W} (h : t.OkW x) : GNSet.Live x.A := fun hn => by rw [h.nul] at hn; cases hn

theorem Tsp4.cities (hn : 1 ≤ t.nv) (hv : t.nv ≤ 2 ^ 15) : ∃ c, t.citiesW = some c ∧ c.nul = false ∧ c.mxw = t.wds ∧ mask c = t.all := by
  have hw : words (.interval 0 (t.nv - 1)) = t.wds := by
    simp only [words, Tsp4.wds]
    rw [if_neg (by omega)]
    omega
  have hb : t.wds < 2 ^ 15 := by unfold Tsp4.wds; omega
  obtain ⟨c, h1, R⟩ := gnset_mem (.interval 0 (t.nv - 1)) (by simp only [Fits]; rw [hw]; exact hb)
  have h1 : interval 0 (t.nv - 1) = some c := h1
  refine ⟨c, h1, ?_, by rw [R.mxw, hw], Nat.eq_of_testBit_eq fun q => ?_⟩
  · unfold interval at h1
    rw [if_neg (by omega)] at h1
    obtain ⟨u, _, h2⟩ := Option.map_eq_some_iff.1 h1
    rw [← h2]
  · unfold Tsp4.all
    rw [mask_bit, Nat.testBit_two_pow_sub_one, Bool.eq_iff_iff, R.mem, decide_eq_true_iff]
    simp only [Mem]
    omega

theorem Tsp4.all_bit (q : Nat) : t.all.testBit q = decide (q < t.nv) := by unfold Tsp4.all; rw [Nat.testBit_two_pow_sub_one]

/-- `C.size()` is the number of cities. -/
theorem Tsp4.sz (hn : 1 ≤ t.nv) (hv : t.nv ≤ 2 ^ 15) : t.szW = some t.nv := by
  obtain ⟨c, h1, h2, h3, h4⟩ := t.cities hn hv
  unfold Tsp4.szW
  rw [h1, Option.bind_some, size_count (top := t.nv) (by rw [h3]; unfold Tsp4.wds; omega) (fun q hq => by rw [← mask_bit, h4, all_bit, decide_eq_true_iff] at hq; exact hq),
    Option.some.injEq, h4]
  rw [List.countP_eq_length.2 (fun q hq => by rw [all_bit, decide_eq_true_iff]; exact List.mem_range.1 hq), List.length_range]

theorem Tsp4.target (hn : 1 ≤ t.nv) (hv : t.nv ≤ 2 ^ 15) (K : TspK) (J : Int) : ∃ x, t.targetW = some x ∧ t.OkW x ∧ x.abs = (t.mdlB K J).stt := by
  obtain ⟨c, h1, h2, h3, h4⟩ := t.cities hn hv
  obtain ⟨d, d1, d2, d3, d4⟩ := mask_copy (g := c) (fun h => by rw [h2] at h; cases h)
  refine ⟨⟨d, 0, t.nv⟩, by unfold Tsp4.targetW; rw [h1, Option.bind_some, t.sz hn hv, Option.bind_some, d1]; rfl, ⟨d2, ?_, ?_, fun i hi => ?_, hn, fun _ _ => ⟨by rw [d4, h4], by rw [d3, h3]⟩⟩, ?_⟩
  · show 0 < d.mxw; rw [d3, h3]; unfold Tsp4.wds; omega
  · show d.mxw < _; rw [d3, h3]; unfold Tsp4.wds; omega
  · rw [← mask_bit, d4, h4, all_bit, decide_eq_true_iff] at hi; exact hi
  · show (⟨mask d, 0, t.nv, d.mxw⟩ : Tsp4B) = ⟨t.all, 0, t.nv, t.wds⟩
    rw [d4, h4, d3, h3]

theorem Tsp4.init_ok (hn : 1 ≤ t.nv) (K : TspK) (J : Int) : ∃ x, tsp4InitW = some x ∧ t.OkW x ∧ x.abs = (t.mdlB K J).sti := by
  obtain ⟨o, o1, o2, o3, o4, o5, o6⟩ := mask_single (p := 0) (by omega)
  refine ⟨⟨o, 0, 0⟩, by unfold tsp4InitW; rw [o1]; rfl, ⟨o2, o4, o5, fun i hi => ?_, hn, fun _ h => ?_⟩, ?_⟩
  · rw [← mask_bit, o6, Nat.testBit_two_pow, decide_eq_true_iff] at hi; omega
  · have : 0 = t.nv := h; omega
  · show (⟨mask o, 0, 0, o.mxw⟩ : Tsp4B) = ⟨1, 0, 0, 1⟩
    rw [o6, o3, growTo_same (by omega)]

theorem Tsp4.OkW.labels {x : Tsp4W} (hx : t.OkW x) (hn : 1 ≤ t.nv) (hv : t.nv ≤ 2 ^ 15) (K : TspK) (J : Int) : t.lgfW x = some ((t.mdlB K J).lgf x.abs) := by
  show _ = some (if x.hops + 1 ≥ t.nv then [0] else ((List.range t.nv).filter fun i => !(mask x.A).testBit i).map (fun i : Nat => (i : Int)))
  unfold Tsp4.lgfW
  rw [t.sz hn hv, Option.bind_some]
  by_cases h : x.hops + 1 ≥ t.nv
  · rw [if_pos (by omega), if_pos h]
    decide +kernel
  · rw [if_neg (by omega), if_neg h]
    obtain ⟨c, h1, h2, h3, h4⟩ := t.cities hn hv
    have hb : t.wds < 2 ^ 15 := by unfold Tsp4.wds; omega
    have hp : 0 < t.wds := by unfold Tsp4.wds; omega
    obtain ⟨r, r1, r2, r3, r4⟩ := mask_minus (a := c) (b := x.A) (by omega) (fun h => by rw [h2] at h; cases h) hx.live hx.cap
    rw [h1, Option.bind_some, r1, Option.bind_some]
    have hbit : ∀ q, (mask r).testBit q = (decide (q < t.nv) && !(mask x.A).testBit q) := by
      intro q
      rw [r4, h4, mdiff_bit, all_bit]
    rw [iter_mask r3 (by omega) hv (fun q hq => by rw [← mask_bit, hbit, Bool.and_eq_true, decide_eq_true_iff] at hq; exact hq.1), Option.some.injEq]
    congr 1
    refine List.filter_congr fun i hi => ?_
    rw [hbit, decide_eq_true (List.mem_range.1 hi), Bool.true_and]

/-- The set the local bounds iterate. -/
theorem Tsp4.OkW.verts {x : Tsp4W} (hx : t.OkW x) (hn : 1 ≤ t.nv) (hv : t.nv ≤ 2 ^ 15) : t.vertsW x.A 0 x.e = some (t.verts (mask x.A) 0 x.e) := by
  unfold Tsp4.vertsW Tsp4.verts
  obtain ⟨c, h1, h2, h3, h4⟩ := t.cities hn hv
  have hb : t.wds < 2 ^ 15 := by unfold Tsp4.wds; omega
  have hp : 0 < t.wds := by unfold Tsp4.wds; omega
  have he : x.e / 64 < t.wds := by have := hx.e; unfold Tsp4.wds; omega
  obtain ⟨r, r1, r2, r3, r4⟩ := mask_minus (a := c) (b := x.A) (by omega) (fun h => by rw [h2] at h; cases h) hx.live hx.cap
  obtain ⟨a, a1, a2, a3, a4⟩ := mask_put (g := r) (fun h => by rw [r3] at h; cases h) (by omega) (p := 0) (by omega)
  obtain ⟨b, b1, b2, b3, b4⟩ := mask_put (g := a) (fun h => by rw [a2] at h; cases h) (by omega) (p := x.e) (by omega)
  obtain ⟨d, d1, d2, d3, d4⟩ := mask_copy (g := b) (fun h => by rw [b2] at h; cases h)
  have hbit : ∀ q, (mask d).testBit q = (decide (q < t.nv) && (!(mask x.A).testBit q || decide (q = 0) || decide (q = x.e))) := by
    intro q
    have h5 := hx.e
    rw [d4, b4, a4, r4, h4, Nat.testBit_or, Nat.testBit_or, mdiff_bit, all_bit, Nat.testBit_two_pow, Nat.testBit_two_pow]
    by_cases e1 : q = 0
    · subst e1; simp; omega
    · by_cases e2 : q = x.e
      · subst e2; simp [h5]
      · simp [e1, e2, Ne.symm e1, Ne.symm e2]
  rw [h1, Option.bind_some, r1, Option.bind_some, a1, Option.bind_some, b1, Option.bind_some, d1, Option.bind_some,
    iter_mask d2 (by omega) hv (fun q hq => by rw [← mask_bit, hbit, Bool.and_eq_true, decide_eq_true_iff] at hq; exact hq.1), Option.map_some, Option.some.injEq, List.map_map]
  rw [show (Int.toNat ∘ fun i : Nat => (i : Int)) = id from funext fun i => by simp, List.map_id]
  refine List.filter_congr fun i hi => ?_
  rw [hbit, decide_eq_true (List.mem_range.1 hi), Bool.true_and]

theorem Tsp4.OkW.bound {x : Tsp4W} (hx : t.OkW x) (hn : 1 ≤ t.nv) (hv : t.nv ≤ 2 ^ 15) (K : TspK) :
    t.locW K x = some (t.boundOn K t.nv (t.verts (mask x.A) 0 x.e) x.hops) := by
  unfold Tsp4.locW
  rw [hx.verts hn hv, Option.bind_some, t.sz hn hv, Option.map_some]

theorem Tsp4.OkW.step {x : Tsp4W} (hx : t.OkW x) (hn : 1 ≤ t.nv) (hv : t.nv ≤ 2 ^ 15) (K : TspK) (J l : Int) :
    (t.stfW x l).map Tsp4W.abs = (t.mdlB K J).stf x.abs l ∧ ∀ y, t.stfW x l = some y → t.OkW y := by
  show _ = (if l = 0 then some (⟨t.all, 0, t.nv, t.wds⟩ : Tsp4B)
    else if 0 ≤ l ∧ l < (t.nv : Int) then some ⟨mask x.A ||| 2 ^ l.toNat, l.toNat, x.hops + 1, max x.A.mxw (growTo 1 l.toNat)⟩ else none) ∧ _
  unfold Tsp4.stfW
  by_cases h1 : l = 0
  · rw [if_pos h1, if_pos h1]
    obtain ⟨z, z1, z2, z3⟩ := t.target hn hv K J
    rw [z1]
    exact ⟨congrArg some z3, fun y hy => by cases hy; exact z2⟩
  · rw [if_neg h1, if_neg h1]
    by_cases h2 : 0 ≤ l ∧ l < (t.nv : Int)
    · rw [if_pos h2, if_pos h2]
      obtain ⟨o, o1, o2, o3, o4, o5, o6⟩ := mask_single (p := l.toNat) (by omega)
      obtain ⟨u, u1, u2, u3, u4⟩ := mask_union hx.cap hx.live (b := o) (fun h => by rw [o2] at h; cases h) o5
      rw [o1, Option.bind_some, u1, Option.map_some]
      refine ⟨?_, ?_⟩
      · show some (⟨mask u, l.toNat, x.hops + 1, u.mxw⟩ : Tsp4B) = _
        rw [u4, o6, u2, o3]
      · intro y hy
        cases hy
        have p1 := hx.pos; have p2 := hx.cap
        refine ⟨u3, by show 0 < u.mxw; omega, by show u.mxw < _; omega, fun i hi => ?_, by show l.toNat < _; omega, fun he => ?_⟩
        · rw [← mask_bit, u4, o6, Nat.testBit_or, Nat.testBit_two_pow, Bool.or_eq_true, decide_eq_true_iff, mask_bit] at hi
          rcases hi with hi | hi
          · exact hx.bits i hi
          · omega
        · have he : l.toNat = 0 := he
          omega
    · rw [if_neg h2, if_neg h2]
      exact ⟨rfl, fun y hy => by cases hy⟩

theorem Tsp4.OkW.near {a b : Tsp4W} (ha : t.OkW a) (hb : t.OkW b) (K : TspK) : K.near a.A b.A = some (K.nearM t (mask a.A) (mask b.A)) := by
  cases K with
  | test4 =>
    show ((size a.A).bind fun n => (size b.A).map fun k => decide (((n : Int) - k).natAbs < 5)) = _
    rw [size_count ha.cap ha.bits, size_count hb.cap hb.bits]; rfl
  | tw u => rfl
  | test2 => rfl

theorem Tsp4.OkW.merge {a b : Tsp4W} (ha : t.OkW a) (hb : t.OkW b) (K : TspK) (J : Int) :
    ∃ o, t.smfW K a b = some o ∧ o.map Tsp4W.abs = (t.mdlB K J).smf a.abs b.abs ∧ ∀ y, o = some y → t.OkW y := by
  show ∃ o, t.smfW K a b = some o ∧ o.map Tsp4W.abs = (if a.e = b.e ∧ a.hops = b.hops then
    if K.nearM t (mask a.A) (mask b.A) = true then some ⟨mask a.A &&& mask b.A, a.e, a.hops, a.A.mxw⟩ else none else none) ∧ _
  unfold Tsp4.smfW
  by_cases h : a.e = b.e ∧ a.hops = b.hops
  · rw [if_pos h, if_pos h, ha.near hb K, Option.bind_some]
    by_cases hk : K.nearM t (mask a.A) (mask b.A) = true
    · rw [if_pos hk, if_pos hk]
      obtain ⟨u, u1, u2, u3, u4⟩ := mask_inter ha.cap ha.live hb.live hb.cap
      rw [u1, Option.map_some]
      refine ⟨_, rfl, by simp only [Option.map_some, Tsp4W.abs, u4, u2], ?_⟩
      intro y hy
      cases hy
      have p1 := ha.pos; have p2 := ha.cap
      refine ⟨u3, by show 0 < u.mxw; omega, by show u.mxw < _; omega, fun i hi => ?_, ha.e, fun h1 h2 => ?_⟩
      · rw [← mask_bit, u4, Nat.testBit_and, Bool.and_eq_true, mask_bit] at hi
        exact ha.bits i hi.1
      · obtain ⟨a1, a2⟩ := ha.last h1 h2
        obtain ⟨b1, _⟩ := hb.last (h.1 ▸ h1) (h.2 ▸ h2)
        exact ⟨by rw [u4, a1, b1, Nat.and_self], by rw [u2, a2]⟩
    · rw [if_neg hk, if_neg hk]
      exact ⟨none, rfl, rfl, fun y hy => by cases hy⟩
  · rw [if_neg h, if_neg h]
    exact ⟨none, rfl, rfl, fun y hy => by cases hy⟩

theorem Tsp4.kept (hn : 1 ≤ t.nv) (hv : t.nv ≤ 2 ^ 15) (K : TspK) (J : Int) : Kept t.OkW (t.mdlW K J) where
  sti := by
    obtain ⟨x, h1, h2, _⟩ := t.init_ok hn K J
    show t.OkW (tsp4InitW.getD ⟨GNSet.new 64, 0, 0⟩)
    rw [h1]; exact h2
  stt := by
    obtain ⟨x, h1, h2, _⟩ := t.target hn hv K J
    show t.OkW (t.targetW.getD _)
    rw [h1]; exact h2
  stf := fun s l y hs h => (hs.step hn hv K J l).2 y h
  smf := fun a b c ha hb h => by
    obtain ⟨o, h1, _, h2⟩ := ha.merge hb K J
    have h : (t.smfW K a b).getD none = some c := h
    rw [h1] at h
    exact h2 c h

theorem Tsp4.homOn (hn : 1 ≤ t.nv) (hv : t.nv ≤ 2 ^ 15) (K : TspK) (J : Int) : HomOn t.OkW Tsp4W.abs (t.mdlW K J) (t.mdlB K J) where
  sense := rfl
  sti := by
    obtain ⟨x, h1, _, h3⟩ := t.init_ok hn K J
    show _ = (tsp4InitW.getD ⟨GNSet.new 64, 0, 0⟩).abs
    rw [h1, ← h3]; rfl
  stt := by
    obtain ⟨x, h1, _, h3⟩ := t.target hn hv K J
    show _ = (t.targetW.getD _).abs
    rw [h1, ← h3]; rfl
  lgf := fun s hs => by
    show _ = (t.lgfW s).getD []
    rw [hs.labels hn hv K J]; rfl
  stf := fun s l hs => (hs.step hn hv K J l).1.symm
  stc := fun s l hs => by
    show (if s.e < t.nv ∧ 0 ≤ l ∧ l < (t.nv : Int) then t.d s.e l.toNat else 0) = (t.stcW s l).getD 0
    unfold Tsp4.stcW
    split <;> rfl
  smf := fun a b ha hb => by
    obtain ⟨o, h1, h2, _⟩ := ha.merge hb K J
    show _ = ((t.smfW K a b).getD none).map _
    rw [h1, ← h2]; rfl
  eqs := fun s _ => by
    show (decide (s.e = 0) && decide (s.hops = t.nv)) = (decide (s.e = 0) && decide (some s.hops = t.szW))
    rw [t.sz hn hv]
    simp
  loc := ⟨rfl, fun h h' e e' s c hs => by
    cases e; cases e'
    show ((t.locW K s).getD none).getD J = _
    rw [hs.bound hn hv K]; rfl⟩
  sdom := ⟨rfl, fun h h' e => by cases e⟩

theorem Tsp4W.eqv_core (a b : Tsp4W) : decide (a.abs.core = b.abs.core) = a.eqv b := by
  unfold Tsp4W.eqv
  rw [Bool.eq_iff_iff, decide_eq_true_iff, Bool.and_eq_true, Bool.and_eq_true, decide_eq_true_iff, decide_eq_true_iff, eq_mask]
  simp only [Tsp4W.abs, Tsp4B.core, Tsp4S.mk.injEq]
  constructor
  · rintro ⟨h1, h2, h3⟩; exact ⟨⟨h2, h3⟩, h1⟩
  · rintro ⟨⟨h1, h2⟩, h3⟩; exact ⟨h3, h1, h2⟩

theorem Tsp4W.hash_abs (K : TspK) (a : Tsp4W) : K.hash (hashM a.abs.A a.abs.wd) a.abs.e a.abs.hops = a.hash K := by
  unfold Tsp4W.hash
  rw [hash_hashM]
  rfl

theorem Tsp4W.same (K : TspK) (a b : Tsp4W) : (tsp4BSame K).same a.abs b.abs = (tsp4Same K).same a b := by
  unfold tsp4BSame tsp4Same tabSame
  simp only [Tsp4W.eqv_core, Tsp4W.hash_abs]

/-! ### From words to sets -/

/-- Terminal states are the sink. -/
def Tsp4.GoodB (t : Tsp4) (x : Tsp4B) : Prop := x.e < t.nv ∧ (x.e = 0 → x.hops = t.nv → x.A = t.all ∧ x.wd = t.wds)

theorem Tsp4.mem_lgf (hn : 1 ≤ t.nv) {J : Int} {x : Tsp4S} {l : Int} (hl : l ∈ (t.mdl J).lgf x) : 0 ≤ l ∧ l < (t.nv : Int) := by
  have hl : l ∈ (if x.hops + 1 ≥ t.nv then [0] else ((List.range t.nv).filter fun i => !x.A.testBit i).map (fun i : Nat => (i : Int))) := hl
  by_cases h : x.hops + 1 ≥ t.nv
  · rw [if_pos h, List.mem_singleton] at hl; omega
  · rw [if_neg h] at hl
    obtain ⟨i, hi, rfl⟩ := List.mem_map.1 hl
    have := List.mem_range.1 (List.mem_filter.1 hi).1
    omega

theorem TspK.smf_eq (K : TspK) (t : Tsp4) (J : Int) (a b : Tsp4S) : (K.mdl t J).smf a b =
    (if a.e = b.e ∧ a.hops = b.hops then if K.nearM t a.A b.A = true then some ⟨a.A &&& b.A, a.e, a.hops⟩ else none else none) := by
  cases K with
  | test4 =>
    show (if a.e = b.e ∧ a.hops = b.hops ∧ ((t.card a.A : Int) - t.card b.A).natAbs < 5 then some (⟨a.A &&& b.A, a.e, a.hops⟩ : Tsp4S) else none) =
      (if a.e = b.e ∧ a.hops = b.hops then if decide (((t.card a.A : Int) - t.card b.A).natAbs < 5) = true then some ⟨a.A &&& b.A, a.e, a.hops⟩ else none else none)
    by_cases h1 : a.e = b.e ∧ a.hops = b.hops
    · rw [if_pos h1]
      by_cases h2 : ((t.card a.A : Int) - t.card b.A).natAbs < 5
      · rw [if_pos ⟨h1.1, h1.2, h2⟩, if_pos (decide_eq_true h2)]
      · rw [if_neg (fun h => h2 h.2.2), if_neg (fun h => h2 (of_decide_eq_true h))]
    · rw [if_neg h1, if_neg (fun h => h1 ⟨h.1, h.2.1⟩)]
  | tw u => rfl
  | test2 => rfl

theorem Tsp4.over (hn : 1 ≤ t.nv) (K : TspK) (J : Int) : Over t.GoodB Tsp4B.core (t.mdlB K J) (K.mdl t J) where
  p0 := ⟨hn, fun _ h => by have : 0 = t.nv := h; omega⟩
  pt := ⟨hn, fun _ _ => ⟨rfl, rfl⟩⟩
  ps := fun s l y _ hl h => by
    have h : (if l = 0 then some ⟨t.all, 0, t.nv, t.wds⟩
      else if 0 ≤ l ∧ l < (t.nv : Int) then some ⟨s.A ||| 2 ^ l.toNat, l.toNat, s.hops + 1, max s.wd (growTo 1 l.toNat)⟩ else none) = some y := h
    by_cases h1 : l = 0
    · rw [if_pos h1] at h; cases h; exact ⟨hn, fun _ _ => ⟨rfl, rfl⟩⟩
    · have h2 := t.mem_lgf hn (J := J) hl
      rw [if_neg h1, if_pos h2] at h; cases h
      exact ⟨by show l.toNat < _; omega, fun he => by have he : l.toNat = 0 := he; omega⟩
  pm := fun a b c ha hb h => by
    have h : (if a.e = b.e ∧ a.hops = b.hops then if K.nearM t a.A b.A = true then some ⟨a.A &&& b.A, a.e, a.hops, a.wd⟩ else none else none) = some c := h
    by_cases hc : a.e = b.e ∧ a.hops = b.hops
    · rw [if_pos hc] at h
      split at h
      · cases h
        refine ⟨ha.1, fun h1 h2 => ?_⟩
        obtain ⟨a1, a2⟩ := ha.2 h1 h2
        obtain ⟨b1, _⟩ := hb.2 (hc.1 ▸ h1) (hc.2 ▸ h2)
        exact ⟨by show a.A &&& b.A = _; rw [a1, b1, Nat.and_self], a2⟩
      · cases h
    · rw [if_neg hc] at h; cases h
  sense := by cases K <;> rfl
  sti := by cases K <;> rfl
  stt := by cases K <;> rfl
  lgf := fun _ _ => by cases K <;> rfl
  stf := fun s l _ hl => by
    have h2 := t.mem_lgf hn (J := J) hl
    have e : (K.mdl t J).stf s.core l = if l = 0 then some ⟨t.all, 0, t.nv⟩ else some ⟨s.A ||| 2 ^ l.toNat, l.toNat, s.hops + 1⟩ := by cases K <;> rfl
    rw [e]
    show _ = (if l = 0 then some ⟨t.all, 0, t.nv, t.wds⟩
        else if 0 ≤ l ∧ l < (t.nv : Int) then some ⟨s.A ||| 2 ^ l.toNat, l.toNat, s.hops + 1, max s.wd (growTo 1 l.toNat)⟩ else none).map Tsp4B.core
    by_cases h1 : l = 0
    · rw [if_pos h1, if_pos h1]; rfl
    · rw [if_neg h1, if_neg h1, if_pos h2]; rfl
  stc := fun s l hs hl => by
    have h2 := t.mem_lgf hn (J := J) hl
    have e : (K.mdl t J).stc s.core l = t.d s.e l.toNat := by cases K <;> rfl
    rw [e]
    show t.d s.e l.toNat = if s.e < t.nv ∧ 0 ≤ l ∧ l < (t.nv : Int) then t.d s.e l.toNat else 0
    rw [if_pos ⟨hs.1, h2⟩]
  smf := fun a b _ _ => by
    rw [K.smf_eq t J]
    show (if a.e = b.e ∧ a.hops = b.hops then if K.nearM t a.A b.A = true then some ⟨a.A &&& b.A, a.e, a.hops⟩ else none else none) =
      (if a.e = b.e ∧ a.hops = b.hops then if K.nearM t a.A b.A = true then some ⟨a.A &&& b.A, a.e, a.hops, a.wd⟩ else none else none).map Tsp4B.core
    split
    · split <;> rfl
    · rfl
  eqs := fun _ _ => by cases K <;> rfl
  loc := by cases K <;> rfl
  sdom := by cases K <;> rfl
  ends := fun a b ha hb he hab => by
    have he : (decide (a.e = 0) && decide (a.hops = t.nv)) = true := he
    rw [Bool.and_eq_true, decide_eq_true_iff, decide_eq_true_iff] at he
    unfold Tsp4B.core at hab
    rw [Tsp4S.mk.injEq] at hab
    obtain ⟨e1, e2, e3⟩ := hab
    have h1 := (ha.2 he.1 he.2).2
    have h2 := (hb.2 (e2 ▸ he.1) (e3 ▸ he.2)).2
    cases a; cases b
    simp only at e1 e2 e3 h1 h2
    rw [e1, e2, e3, h1, h2]

/-- On a state that decisions reach, the words are those of its largest city. -/
def Tsp4.TopB (t : Tsp4) (x : Tsp4B) : Prop := t.GoodB x ∧ ((x.e = 0 ∧ x.hops = t.nv) ∨
  ((x.wd = 1 ∨ ∃ i, x.A.testBit i = true ∧ x.wd = growTo 1 i) ∧ 1 ≤ x.wd ∧ ∀ i, x.A.testBit i = true → growTo 1 i ≤ x.wd))

theorem Tsp4.top_path (hn : 1 ≤ t.nv) {K : TspK} {J : Int} {x y : Tsp4B} {ls : List Int} {c : Int} (hp : Path (t.mdlB K J) x ls c y) : t.TopB x → t.TopB y := by
  induction hp with
  | nil => exact id
  | @cons s s' z l ls c hs _ ih =>
    intro hx
    refine ih ⟨(t.over hn K J).ps _ _ _ hx.1 hs.2.1 hs.2.2, ?_⟩
    have h : (if l = 0 then some ⟨t.all, 0, t.nv, t.wds⟩
      else if 0 ≤ l ∧ l < (t.nv : Int) then some ⟨s.A ||| 2 ^ l.toNat, l.toNat, s.hops + 1, max s.wd (growTo 1 l.toNat)⟩ else none) = some s' := hs.2.2
    by_cases h1 : l = 0
    · rw [if_pos h1] at h; cases h; exact .inl ⟨rfl, rfl⟩
    · rw [if_neg h1, if_pos (t.mem_lgf hn (J := J) hs.2.1)] at h; cases h
      rcases hx.2 with ⟨h2, h3⟩ | ⟨h2, h3, h4⟩
      · have : (t.mdlB K J).eqs s = true := by show (decide (s.e = 0) && decide (s.hops = t.nv)) = true; rw [h2, h3]; simp
        rw [hs.1] at this; cases this
      · obtain ⟨_, g2, _⟩ := growTo_spec (w := 1) (p := l.toNat) (by omega)
        refine .inr ⟨?_, by show 1 ≤ max _ _; omega, fun i hi => ?_⟩
        · show max s.wd (growTo 1 l.toNat) = 1 ∨ ∃ i, (s.A ||| 2 ^ l.toNat).testBit i = true ∧ max s.wd (growTo 1 l.toNat) = growTo 1 i
          by_cases hc : s.wd ≤ growTo 1 l.toNat
          · exact .inr ⟨l.toNat, by rw [Nat.testBit_or, Nat.testBit_two_pow]; simp, by omega⟩
          · rcases h2 with h2 | ⟨i, h2, h5⟩
            · exact .inl (by omega)
            · exact .inr ⟨i, by rw [Nat.testBit_or, h2]; rfl, by omega⟩
        · have hi : (s.A ||| 2 ^ l.toNat).testBit i = true := hi
          rw [Nat.testBit_or, Nat.testBit_two_pow, Bool.or_eq_true, decide_eq_true_iff] at hi
          show growTo 1 i ≤ max s.wd (growTo 1 l.toNat)
          rcases hi with hi | hi
          · have := h4 i hi; omega
          · rw [← hi]; omega

theorem Tsp4.TopB.uniq {a b : Tsp4B} (ha : t.TopB a) (hb : t.TopB b) (h : a.core = b.core) : a = b := by
  unfold Tsp4B.core at h
  rw [Tsp4S.mk.injEq] at h
  obtain ⟨e1, e2, e3⟩ := h
  have key : a.wd = b.wd := by
    by_cases hT : a.e = 0 ∧ a.hops = t.nv
    · rw [(ha.1.2 hT.1 hT.2).2, (hb.1.2 (e2 ▸ hT.1) (e3 ▸ hT.2)).2]
    · obtain ⟨a1, a2, a3⟩ := ha.2.resolve_left hT
      obtain ⟨b1, b2, b3⟩ := hb.2.resolve_left (by rw [← e2, ← e3]; exact hT)
      have h1 : a.wd ≤ b.wd := by
        rcases a1 with h | ⟨i, h, h'⟩
        · omega
        · rw [h']; exact b3 i (e1 ▸ h)
      have h2 : b.wd ≤ a.wd := by
        rcases b1 with h | ⟨i, h, h'⟩
        · omega
        · rw [h']; exact a3 i (e1 ▸ h)
      omega
  cases a; cases b
  simp only at e1 e2 e3 key
  rw [e1, e2, e3, key]

theorem Tsp4.own (hn : 1 ≤ t.nv) (K : TspK) (J : Int) : @Own _ _ (tsp4BSame K) t.GoodB Tsp4B.core (t.mdlB K J) :=
  @Own.mk _ _ (tsp4BSame K) t.GoodB Tsp4B.core (t.mdlB K J)
    (fun a => by show (decide (a.core = a.core) && _ == _) = true; simp)
    (fun a b h => by
      have h : (decide (a.core = b.core) && _ == _) = true := h
      show (decide (b.core = a.core) && _ == _) = true
      rw [Bool.and_eq_true, decide_eq_true_iff, beq_iff_eq] at h ⊢
      exact ⟨h.1.symm, h.2.symm⟩)
    (fun a b _ _ h => by
      have h : (decide (a.core = b.core) && _ == _) = true := h
      rw [Bool.and_eq_true, decide_eq_true_iff] at h
      exact h.1)
    (fun a b la lb ca cb ha hb h => by
      have h0 : t.TopB (t.mdlB K J).sti := ⟨(t.over hn K J).p0, .inr ⟨.inl rfl, Nat.le_refl _, fun i hi => by
        have hi : (2 ^ 0 : Nat).testBit i = true := hi
        rw [Nat.testBit_two_pow, decide_eq_true_iff] at hi
        subst hi
        show growTo 1 0 ≤ 1
        rw [growTo_same (by omega)]; omega⟩⟩
      exact (t.top_path hn ha h0).uniq (t.top_path hn hb h0) h)

theorem Tsp4.progB (hn : 1 ≤ t.nv) (hd : t.Nonneg) {D : Int} (hD : t.Bnd D) (K : TspK) {J : Int} (hJ : ∀ ls c, t.Tour ls c → J ≤ c) :
    @TspProg _ (tsp4BSame K) (t.mdlB K J) (fun x => x.hops) t.nv t.Tour := by
  obtain ⟨u, hu⟩ := K.progs t J
  have P := hu.prog hn hd hD hJ
  exact @TspProg.mk _ (tsp4BSame K) _ _ _ _ rfl rfl
    (@Over.layered _ _ _ _ _ _ (tsp4BSame K) _ t.rank (t.over hn K J) (t.own hn K J) 0 P.layered)
    (@Over.rankBound _ _ _ _ _ _ (tsp4BSame K) _ t.rank (t.over hn K J) (t.own hn K J) 0 _ P.ranks)
    (fun ls c => ((t.over hn K J).sol P.layered.sink ls c).trans (P.sol ls c)) (fun h => by cases h) P.some_

/-! ### The programs -/

/-- The search on the stored words is the search on the masks with their number of words. -/
theorem tsp4_words_search (hn : 1 ≤ t.nv) (hv : t.nv ≤ 2 ^ 15) (K : TspK) (J : Int) (w fu : Nat) (lim : Nat → Bool) (N : Nat) (p0 : Int) :
    (@BB.search _ (tsp4Same K) (t.mdlW K J) w fu lim N p0).map (fun s => (s.primal, s.inc, s.sols, s.stopped, s.wrel, s.log, s.pq)) =
      (@BB.search _ (tsp4BSame K) (t.mdlB K J) w fu lim N p0).map (fun s => (s.primal, s.inc, s.sols, s.stopped, s.wrel, s.log, s.pq)) :=
  @state_equality_via _ _ (tsp4BSame K) _ _ _ _ _ _ _ (t.kept hn hv K J) (t.homOn hn hv K J) (fun a b _ _ => Tsp4W.same K a b) w fu lim N p0

theorem tsp4_words_some (hn : 1 ≤ t.nv) (hv : t.nv ≤ 2 ^ 15) {K : TspK} {J : Int} {w fu : Nat} {lim : Nat → Bool} {N : Nat} {p0 : Int} {s : BB.BS Tsp4W}
    (h : @BB.search _ (tsp4Same K) (t.mdlW K J) w fu lim N p0 = some s) : ∃ s', @BB.search _ (tsp4BSame K) (t.mdlB K J) w fu lim N p0 = some s' ∧
      s'.primal = s.primal ∧ s'.inc = s.inc ∧ s'.sols = s.sols ∧ s'.stopped = s.stopped := by
  have e := tsp4_words_search hn hv K J w fu lim N p0
  rw [h, Option.map_some] at e
  obtain ⟨s', h1, h2⟩ := Option.map_eq_some_iff.1 e.symm
  simp only [Prod.mk.injEq] at h2
  exact ⟨s', h1, h2.1, h2.2.1, h2.2.2.1, h2.2.2.2.1⟩

/-- C153.  Everything the programs report is a tour with its length, shorter than what was reported before, whatever
the local bound gives where it reads what was never written. -/
theorem tsp4_words_sound (hn : 1 ≤ t.nv) (hv : t.nv ≤ 2 ^ 15) (hd : t.Nonneg) {D : Int} (hD : t.Bnd D)
    {K : TspK} {J : Int} {w fu N : Nat} {lim : Nat → Bool} {s : BB.BS Tsp4W} (h : @BB.search _ (tsp4Same K) (t.mdlW K J) w fu lim N 2147483647 = some s) :
    (∀ x, x ∈ s.sols → t.Tour x.2 x.1) ∧ (2147483647 :: s.sols.map (·.1)).Pairwise (fun a b => b < a) := by
  obtain ⟨s', h1, _, _, h2, _⟩ := tsp4_words_some hn hv h
  rw [← h2]
  letI := tsp4BSame K
  have P := t.progB hn hd hD K (t.tour_nonneg hn hd)
  have S := P.layered.shape.setLoc (t.mdlB K J).loc
  obtain ⟨d, _, e, _⟩ := BB.shape_sound S rfl h1
  exact ⟨fun x hx => (P.sol _ _).1 (path_setLoc.1 (d x hx)), e.imp (fun {x y} h => by
    simpa [Mdl.setLoc, Tsp4.mdlB, Sense.better] using h)⟩

/-- C153.  The searches end. -/
theorem tsp4_words_ends (hn : 1 ≤ t.nv) (hv : t.nv ≤ 2 ^ 15) (hd : t.Nonneg) {D : Int} (hD : t.Bnd D) (K : TspK) (J : Int)
    (w : Nat) {fu : Nat} (hf : t.nv + 2 ≤ fu) (lim : Nat → Bool) :
    ∃ L, ∀ N, L < N → ∃ s, @BB.search _ (tsp4Same K) (t.mdlW K J) w fu lim N 2147483647 = some s ∧ (s.stopped = true ∨ Heap.empty s.pq = true) := by
  letI := tsp4BSame K
  have P := t.progB hn hd hD K (t.tour_nonneg hn hd)
  have S := P.layered.shape.setLoc (t.mdlB K J).loc
  obtain ⟨L, hL⟩ := BB.shape_ends (p0 := 2147483647) S rfl
    (fun x v hr hq => P.ranks x v (relx_setLoc (m := t.mdlB K 0) hr) hq) w hf lim
  refine ⟨L, fun N hN => ?_⟩
  obtain ⟨s, h1, h2⟩ := hL N hN
  have e := tsp4_words_search hn hv K J w fu lim N 2147483647
  have h1 : @BB.search _ (tsp4BSame K) (t.mdlB K J) w fu lim N 2147483647 = some s := h1
  rw [h1, Option.map_some] at e
  obtain ⟨s', h3, h4⟩ := Option.map_eq_some_iff.1 e
  simp only [Prod.mk.injEq] at h4
  exact ⟨s', h3, by rw [h4.2.2.2.1, h4.2.2.2.2.2.2]; exact h2⟩

/-- C153.  With a width no layer exceeds, the programs end with a shortest tour, if what the local bound gives where it
reads what was never written is at most the length of every tour.  Missing: other values there (`tspv_root_false`). -/
theorem tsp4_words_width_partial (hn : 1 ≤ t.nv) (hv : t.nv ≤ 2 ^ 15) (hd : t.Nonneg) {D : Int} (hD : t.Bnd D) {K : TspK} {J : Int}
    (hJ : ∀ ls c, t.Tour ls c → J ≤ c) {w fu N : Nat} (hw : 1 ≤ w) (hw2 : tourWidth t.nv ≤ w) {lim : Nat → Bool} {s : BB.BS Tsp4W}
    (h : @BB.search _ (tsp4Same K) (t.mdlW K J) w fu lim N 2147483647 = some s) (hns : s.stopped = false) :
    ShortestTour t.Tour s.primal ∧ t.Tour s.inc s.primal := by
  obtain ⟨s', h1, h2, h3, _, h4⟩ := tsp4_words_some hn hv h
  rw [← h2, ← h3]
  obtain ⟨u, hu⟩ := K.progs t J
  exact @TspProg.room _ (tsp4BSame K) _ _ _ _ (t.progB hn hd hD K hJ) _ _ _
    ((t.over hn K J).room (rank := t.rank) (@Own.uniq _ _ (tsp4BSame K) _ _ _ (t.own hn K J)) ((tspv_room t hn hw hw2).1 _ hu)) _ _ h1 (h4.trans hns)

/-- The states a run can meet. -/
inductive Tsp4.MetW (t : Tsp4) (K : TspK) : Tsp4W → Prop
  | init {x} : tsp4InitW = some x → MetW t K x
  | target {x} : t.targetW = some x → MetW t K x
  | step {x y l ls} : MetW t K x → t.lgfW x = some ls → l ∈ ls → t.stfW x l = some y → MetW t K y
  | merge {a b c} : MetW t K a → MetW t K b → t.smfW K a b = some (some c) → MetW t K c

theorem Tsp4.MetW.ok (hn : 1 ≤ t.nv) (hv : t.nv ≤ 2 ^ 15) {K : TspK} {x : Tsp4W} (h : t.MetW K x) : t.OkW x := by
  induction h with
  | init h =>
    obtain ⟨x, h1, h2, _⟩ := t.init_ok hn K 0
    rw [h1, Option.some.injEq] at h
    exact h ▸ h2
  | target h =>
    obtain ⟨x, h1, h2, _⟩ := t.target hn hv K 0
    rw [h1, Option.some.injEq] at h
    exact h ▸ h2
  | step _ _ _ h ih => exact (ih.step hn hv K 0 _).2 _ h
  | merge _ _ h iha ihb =>
    obtain ⟨o, h1, _, h2⟩ := iha.merge ihb K 0
    rw [h1, Option.some.injEq] at h
    exact h2 _ h

/-- C153.  With 1 to 32768 cities the root and the sink exist, `C.size()` is the number of cities, and on every state a
run can meet all functions of the programs are defined, on the labels offered; the sets the local bounds iterate hold
cities only, each once. -/
theorem tsp4_words_defined (hn : 1 ≤ t.nv) (hv : t.nv ≤ 2 ^ 15) (K : TspK) : (∃ x, tsp4InitW = some x) ∧ (∃ x, t.targetW = some x) ∧ t.szW = some t.nv ∧ ∀ x, t.MetW K x →
    (∃ ls, t.lgfW x = some ls ∧ ∀ l ∈ ls, (∃ y, t.stfW x l = some y) ∧ ∃ c, t.stcW x l = some c) ∧ (∀ y, t.MetW K y → ∃ o, t.smfW K x y = some o) ∧
    (∃ o, t.locW K x = some o) ∧ ∃ ts, t.vertsW x.A 0 x.e = some ts ∧ ts.Nodup ∧ ∀ v ∈ ts, v < t.nv := by
  refine ⟨?_, ?_, t.sz hn hv, fun x hx => ⟨⟨_, (hx.ok hn hv).labels hn hv K 0, fun l hl => ?_⟩, fun y hy => ?_, ⟨_, (hx.ok hn hv).bound hn hv K⟩, _, (hx.ok hn hv).verts hn hv, ?_, ?_⟩⟩
  · obtain ⟨x, h, _⟩ := t.init_ok hn K 0; exact ⟨x, h⟩
  · obtain ⟨x, h, _⟩ := t.target hn hv K 0; exact ⟨x, h⟩
  · have h2 := t.mem_lgf hn (J := 0) hl
    refine ⟨?_, ?_⟩
    · have := ((hx.ok hn hv).step hn hv K 0 l).1
      cases hs : t.stfW x l with
      | some y => exact ⟨y, rfl⟩
      | none =>
        exfalso
        rw [hs] at this
        have this : none = (if l = 0 then some (⟨t.all, 0, t.nv, t.wds⟩ : Tsp4B)
          else if 0 ≤ l ∧ l < (t.nv : Int) then some ⟨mask x.A ||| 2 ^ l.toNat, l.toNat, x.hops + 1, max x.A.mxw (growTo 1 l.toNat)⟩ else none) := this
        rw [if_pos h2] at this
        split at this <;> cases this
    · exact ⟨_, by unfold Tsp4.stcW; rw [if_pos ⟨(hx.ok hn hv).e, h2⟩]⟩
  · obtain ⟨o, h, _⟩ := (hx.ok hn hv).merge (hy.ok hn hv) K 0; exact ⟨o, h⟩
  · exact List.Pairwise.filter _ List.nodup_range
  · intro v hv'; exact List.mem_range.1 (List.mem_filter.1 hv').1

/-- Runs on words, by the theorem: the five cities of `q5`, width 12. -/
example : ShortestTour q5.Tour 17 := by
  have hJ : ∀ ls c, q5.Tour ls c → (0 : Int) ≤ c := q5.tour_nonneg (by decide) q5_nonneg
  have hv : (@BB.search _ (tsp4Same .test4) (q5.mdlW .test4 0) 12 30 (fun _ => false) 50 2147483647).map (fun s => (s.stopped, s.primal)) = some (false, 17) := by decide +kernel
  obtain ⟨s, h1, h2⟩ := Option.map_eq_some_iff.1 hv
  simp only [Prod.mk.injEq] at h2
  have := (tsp4_words_width_partial (by decide) (by decide) q5_nonneg q5_bnd hJ (by decide) (by decide +kernel) h1 h2.1).1
  rwa [h2.2] at this

/-- tsptw at width 2, where layers are merged, still reports tours only. -/
example : ∃ s, @BB.search _ (tsp4Same (.tw 1)) (q5.mdlW (.tw 1) 0) 2 30 (fun _ => false) 50 2147483647 = some s ∧ s.sols ≠ [] ∧ ∀ x, x ∈ s.sols → q5.Tour x.2 x.1 := by
  have hv : (@BB.search _ (tsp4Same (.tw 1)) (q5.mdlW (.tw 1) 0) 2 30 (fun _ => false) 50 2147483647).map (fun s => s.sols.isEmpty) = some false := by decide +kernel
  obtain ⟨s, h1, h2⟩ := Option.map_eq_some_iff.1 hv
  exact ⟨s, h1, (fun h => by rw [h] at h2; cases h2), (tsp4_words_sound (by decide) (by decide) q5_nonneg q5_bnd h1).1⟩

/-- Up to 64 cities every set is one word, so equal states have equal hashes. -/
theorem tsp4_words_hash_partial (hn : 1 ≤ t.nv) (hv : t.nv ≤ 64) {K : TspK} {x y : Tsp4W} (hx : t.MetW K x) (hy : t.MetW K y) (h : x.eqv y = true) : x.hash K = y.hash K := by
  have key : ∀ {x}, t.MetW K x → x.A.mxw = 1 := by
    intro x hx
    induction hx with
    | init h =>
      obtain ⟨z, h1, _, h3⟩ := t.init_ok hn K 0
      rw [h1, Option.some.injEq] at h
      subst h
      exact congrArg Tsp4B.wd h3
    | target h =>
      obtain ⟨z, h1, _, h3⟩ := t.target hn (by omega) K 0
      rw [h1, Option.some.injEq] at h
      subst h
      have h4 : z.A.mxw = t.wds := congrArg Tsp4B.wd h3
      rw [h4, Tsp4.wds]; omega
    | @step x y l ls hx hl hm h ih =>
      have h1 := ((hx.ok hn (by omega)).step hn (by omega) K 0 l).1
      have h0 := (hx.ok hn (by omega)).labels hn (by omega) K 0
      rw [hl, Option.some.injEq] at h0
      have h2 := t.mem_lgf hn (J := 0) (h0 ▸ hm)
      rw [h] at h1
      have h1 : some y.abs = (if l = 0 then some ⟨t.all, 0, t.nv, t.wds⟩
          else if 0 ≤ l ∧ l < (t.nv : Int) then some ⟨mask x.A ||| 2 ^ l.toNat, l.toNat, x.hops + 1, max x.A.mxw (growTo 1 l.toNat)⟩ else none) := h1
      by_cases hc : l = 0
      · rw [if_pos hc, Option.some.injEq] at h1
        have h4 : y.A.mxw = t.wds := congrArg Tsp4B.wd h1
        rw [h4, Tsp4.wds]; omega
      · rw [if_neg hc, if_pos h2, Option.some.injEq] at h1
        have h4 : y.A.mxw = max x.A.mxw (growTo 1 l.toNat) := congrArg Tsp4B.wd h1
        rw [h4, ih, growTo_same (by omega)]; rfl
    | @merge a b c ha hb h iha ihb =>
      obtain ⟨o, h1, h2, _⟩ := (ha.ok hn (by omega)).merge (hb.ok hn (by omega)) K 0
      rw [h1, Option.some.injEq] at h
      subst h
      have h2 : some c.abs = (if a.e = b.e ∧ a.hops = b.hops then
        if K.nearM t (mask a.A) (mask b.A) = true then some ⟨mask a.A &&& mask b.A, a.e, a.hops, a.A.mxw⟩ else none else none) := h2
      split at h2
      · split at h2
        · rw [Option.some.injEq] at h2
          have h4 : c.A.mxw = a.A.mxw := congrArg Tsp4B.wd h2
          rw [h4, iha]
        · cases h2
      · cases h2
  unfold Tsp4W.eqv at h
  rw [Bool.and_eq_true, Bool.and_eq_true, decide_eq_true_iff, decide_eq_true_iff, eq_mask] at h
  obtain ⟨⟨h1, h2⟩, h3⟩ := h
  unfold Tsp4W.hash
  rw [h1, h2, hash_mask h3 (.inl (by rw [key hx, key hy]))]

/-- Seventy cities at distance 1. -/
def t470 : Tsp4 := ⟨70, fun _ _ => 1⟩

/-- From 65 cities on, two states of one run of tsp_test4 can be equal and lie in different buckets. -/
theorem tsp4_words_hash_false : ∃ x y, t470.MetW .test4 x ∧ t470.MetW .test4 y ∧ x.eqv y = true ∧ (x.hash .test4).toNat % 200191 ≠ (y.hash .test4).toNat % 200191 := by
  let go : List Int → Option Tsp4W := fun ls => ls.foldl (fun o l => o.bind fun x => (t470.lgfW x).bind fun ls => if l ∈ ls then t470.stfW x l else none) tsp4InitW
  let mg : Option Tsp4W → Option Tsp4W → Option Tsp4W := fun a b => a.bind fun a => b.bind fun b => (t470.smfW .test4 a b).bind id
  have hgo : ∀ (ls : List Int) (o : Option Tsp4W), (∀ x, o = some x → t470.MetW .test4 x) → ∀ x,
      ls.foldl (fun o l => o.bind fun x => (t470.lgfW x).bind fun ls => if l ∈ ls then t470.stfW x l else none) o = some x → t470.MetW .test4 x := by
    intro ls
    induction ls with
    | nil => intro o h; exact h
    | cons l ls ih =>
      intro o h
      refine ih _ (fun y hy => ?_)
      obtain ⟨x, h1, h2⟩ := Option.bind_eq_some_iff.1 hy
      obtain ⟨p, h3, h4⟩ := Option.bind_eq_some_iff.1 h2
      split at h4
      · rename_i hm; exact .step (h x h1) h3 hm h4
      · cases h4
  have hmet : ∀ ls x, go ls = some x → t470.MetW .test4 x := fun ls => hgo ls _ (fun x hx => .init hx)
  have hmg : ∀ a b x, (∀ y, a = some y → t470.MetW .test4 y) → (∀ y, b = some y → t470.MetW .test4 y) → mg a b = some x → t470.MetW .test4 x := by
    intro a b x ha hb h
    obtain ⟨p, h1, h2⟩ := Option.bind_eq_some_iff.1 h
    obtain ⟨q, h3, h4⟩ := Option.bind_eq_some_iff.1 h2
    obtain ⟨r, h5, h6⟩ := Option.bind_eq_some_iff.1 h4
    exact .merge (ha p h1) (hb q h3) (by rw [h5]; exact congrArg some h6)
  have hv : (mg (go [69, 2]) (go [3, 2])).bind (fun x => (mg (go [3, 2]) (go [4, 2])).map fun y =>
      (x.eqv y, (x.hash .test4).toNat % 200191, (y.hash .test4).toNat % 200191)) = some (true, 121377, 78602) := by decide +kernel
  obtain ⟨x, h1, h2⟩ := Option.bind_eq_some_iff.1 hv
  obtain ⟨y, h3, h4⟩ := Option.map_eq_some_iff.1 h2
  simp only [Prod.mk.injEq] at h4
  exact ⟨x, y, hmg _ _ x (hmet _) (hmet _) h1, hmg _ _ y (hmet _) (hmet _) h3, h4.1, by rw [h4.2.1, h4.2.2]; decide⟩

end Verif.Ex
