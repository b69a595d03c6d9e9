import Verif.TspW
import Verif.Props.GNMask
import Verif.Props.SameOn
import Verif.Props.Pull
import Verif.Props.TspV
import Verif.Props.TspRoom
/-!
# C141: the TSP program on the words it stores

Sets of the same cities may have different numbers of words, and then different hashes.  `TspB` keeps the number of
words beside the mask, so that the program's tables are a function of it.
-/
namespace Verif.GNSet
open Verif.Bits

theorem mask_inter {a b : G} (ha : a.mxw < 2 ^ 15) (hla : Live a) (hlb : Live b) (hb : b.mxw < 2 ^ 15) :
    ∃ g, inter a b = some g ∧ g.mxw = a.mxw ∧ g.nul = false ∧ mask g = mask a &&& mask b := by
  obtain ⟨c, h0, hc, hm, hk⟩ := mask_copy hla
  obtain ⟨g, h1, R, _, hn⟩ := (Rep.self (g := c) (fun h => by rw [hc] at h; cases h) (by omega)).inter (Rep.self hlb hb)
  refine ⟨g, by unfold inter; rw [h0]; exact h1, by rw [R.mxw, hm], by rw [hn, hc], Nat.eq_of_testBit_eq fun q => ?_⟩
  rw [Nat.testBit_and, mask_bit, ← hk, mask_bit, mask_bit, Bool.eq_iff_iff, R.mem, Bool.and_eq_true]

theorem mask_minus {a b : G} (ha : a.mxw < 2 ^ 15) (hla : Live a) (hlb : Live b) (hb : b.mxw < 2 ^ 15) :
    ∃ g, minus a b = some g ∧ g.mxw = a.mxw ∧ g.nul = false ∧ mask g = Ex.mdiff (mask a) (mask b) := by
  obtain ⟨c, h0, hc, hm, hk⟩ := mask_copy hla
  obtain ⟨g, h1, h2, h3, h4⟩ := mask_diff (a := c) (b := b) (by omega) (fun h => by rw [hc] at h; cases h) hlb hb
  exact ⟨g, by unfold minus; rw [h0]; exact h1, by omega, by rw [h3, hc], by rw [h4, hk]⟩

/-- `GNSet{p}`. -/
theorem mask_single {p : Nat} (hp : p < 2 ^ 20) : ∃ g, ofList [p] = some g ∧ g.nul = false ∧ g.mxw = growTo 1 p ∧ 0 < g.mxw ∧ g.mxw < 2 ^ 15 ∧ mask g = 2 ^ p := by
  have hb : growTo 1 p < 2 ^ 15 := by
    obtain ⟨_, s2, s3⟩ := growTo_spec (w := 1) (p := p) (by omega)
    by_cases h : 1 ≤ p / 64
    · have := s3 h; omega
    · rw [growTo_same (by omega)]; omega
  have hr : Rep (⟨1, 0, false, fun _ => 0⟩ : G) 1 (fun _ => False) :=
    ⟨fun h => by simp at h, rfl, by decide, fun q => by show inW (fun _ => 0) _ q = true ↔ _; rw [zero_has]; simp⟩
  obtain ⟨g, h1, R, h2, _⟩ := hr.insert (p := p) (by omega) hb
  obtain ⟨_, s2, _⟩ := growTo_spec (w := 1) (p := p) (by omega)
  refine ⟨g, ?_, h2, R.mxw, by rw [R.mxw]; omega, by rw [R.mxw]; exact hb, Nat.eq_of_testBit_eq fun q => ?_⟩
  · unfold ofList
    rw [show [p].length / 64 = 0 by simp, show grow 0 17 1 = some 1 by decide, Option.bind_some]
    show (GNSet.insert ⟨1, 0, false, fun _ => 0⟩ p).bind (insertAll []) = some g
    rw [h1]; rfl
  · rw [mask_bit, Nat.testBit_two_pow, Bool.eq_iff_iff, R.mem, decide_eq_true_iff]
    constructor
    · rintro (h | h)
      · exact h.symm
      · exact h.elim
    · intro h; exact .inl h.symm

/-- The hash of a set from its number and its count of words. -/
def hashM (k n : Nat) : BitVec 64 := hash (fun i => BitVec.ofNat 64 (k >>> (64 * i))) n

theorem hash_hashM (g : G) : hash g.t g.mxw = hashM (mask g) g.mxw := by
  refine hash_congr fun i hi => ?_
  refine BitVec.eq_of_getLsbD_eq fun j hj => ?_
  rw [BitVec.getLsbD_ofNat, Nat.testBit_shiftRight, mask_bit]
  have e1 : (64 * i + j) / 64 = i := by omega
  have e2 : (64 * i + j) % 64 = j := by omega
  show _ = (decide _ && inW g.t g.mxw (64 * i + j))
  unfold inW
  rw [e1, e2]
  simp [hj, show 64 * i + j < 64 * g.mxw by omega]

end Verif.GNSet

namespace Verif.Ex
open Verif.DD Verif.GNSet

/-- What a stored state stands for, with the number of words. -/
structure TspB where
  s : Nat
  e : Nat
  hops : Nat
  wd : Nat
deriving DecidableEq

/-- Without it. -/
def TspB.core (x : TspB) : TspS := ⟨x.s, x.e, x.hops⟩

def TspW.abs (x : TspW) : TspB := ⟨mask x.s, x.e, x.hops, x.s.mxw⟩

/-- The program's tables. -/
@[reducible] def tspBSame : Same TspB := tabSame 200191 (fun a b => decide (a.core = b.core)) (fun a => (tspHash (hashM a.s a.wd) a.e a.hops).toNat)

variable (t : Tsp)

/-- Words of the set of all cities. -/
def Tsp.wds : Nat := (t.nv + 63) / 64

def Tsp.mdlB : Mdl TspB where
  sense := .min
  sti := ⟨0, 1, 0, 1⟩
  stt := ⟨t.all, 1, t.nv, t.wds⟩
  lgf := fun x => t.mdl.lgf x.core
  stf := fun x l =>
    if l = 1 then some ⟨t.all, 1, t.nv, t.wds⟩
    else if 0 ≤ l ∧ l < (t.nv : Int) then some ⟨x.s ||| 2 ^ l.toNat, l.toNat, x.hops + 1, max x.wd (growTo 1 l.toNat)⟩ else none
  stc := fun x l => if x.e < t.nv ∧ 0 ≤ l ∧ l < (t.nv : Int) then t.d x.e l.toNat else 0
  smf := fun a b => if a.e = b.e ∧ a.hops = b.hops then some ⟨a.s &&& b.s, a.e, a.hops, a.wd⟩ else none
  eqs := fun x => decide (x.e = 1) && decide (x.hops = t.nv)
  loc := none
  sdom := none

/-- What the stored states satisfy. -/
structure Tsp.Ok (x : TspW) : Prop where
  nul : x.s.nul = false
  pos : 0 < x.s.mxw
  cap : x.s.mxw < 2 ^ 15
  bits : ∀ i, has x.s i = true → i < t.nv
  e : x.e < t.nv
  last : x.e = 1 → x.hops = t.nv → mask x.s = t.all ∧ x.s.mxw = t.wds

variable {t}

theorem Tsp.Ok.live {x : TspW} (h : t.Ok x) : GNSet.Live x.s := fun hn => by rw [h.nul] at hn; cases hn

theorem Tsp.cities (hn : 1 < t.nv) (hv : t.nv ≤ 2 ^ 15) : ∃ c, t.citiesW = some c ∧ c.nul = false ∧ c.mxw = t.wds ∧ mask c = t.all := by
  have hw : words (.interval 0 (t.nv - 1)) = t.wds := by
    simp only [words, Tsp.wds]
    rw [if_neg (by omega)]
    omega
  have hb : t.wds < 2 ^ 15 := by unfold Tsp.wds; omega
  obtain ⟨c, h1, R⟩ := gnset_mem (.interval 0 (t.nv - 1)) (by simp only [Fits]; rw [hw]; exact hb)
  have h1 : interval 0 (t.nv - 1) = some c := h1
  refine ⟨c, h1, ?_, by rw [R.mxw, hw], Nat.eq_of_testBit_eq fun q => ?_⟩
  · unfold interval at h1
    rw [if_neg (by omega)] at h1
    obtain ⟨u, _, h2⟩ := Option.map_eq_some_iff.1 h1
    rw [← h2]
  · unfold Tsp.all
    rw [mask_bit, Nat.testBit_two_pow_sub_one, Bool.eq_iff_iff, R.mem, decide_eq_true_iff]
    simp only [Mem]
    omega

theorem Tsp.target (hn : 1 < t.nv) (hv : t.nv ≤ 2 ^ 15) : ∃ x, t.targetW = some x ∧ t.Ok x ∧ x.abs = t.mdlB.stt := by
  obtain ⟨c, h1, h2, h3, h4⟩ := t.cities hn hv
  obtain ⟨d, d1, d2, d3, d4⟩ := mask_copy (g := c) (fun h => by rw [h2] at h; cases h)
  refine ⟨⟨d, 1, t.nv⟩, by unfold Tsp.targetW; rw [h1, Option.bind_some, d1]; rfl, ⟨d2, ?_, ?_, fun i hi => ?_, hn, fun _ _ => ⟨by rw [d4, h4], by rw [d3, h3]⟩⟩, ?_⟩
  · show 0 < d.mxw; rw [d3, h3]; unfold Tsp.wds; omega
  · show d.mxw < _; rw [d3, h3]; unfold Tsp.wds; omega
  · rw [← mask_bit, d4, h4, Tsp.all, Nat.testBit_two_pow_sub_one, decide_eq_true_iff] at hi; exact hi
  · show (⟨mask d, 1, t.nv, d.mxw⟩ : TspB) = ⟨t.all, 1, t.nv, t.wds⟩
    rw [d4, h4, d3, h3]

theorem Tsp.init_ok (hn : 1 < t.nv) : t.Ok t.initW ∧ t.initW.abs = t.mdlB.sti := by
  refine ⟨⟨rfl, by show 0 < 1; omega, by show 1 < _; omega, fun i hi => absurd hi (fun h => (new64_rep.mem i).1 h), hn, fun _ h => ?_⟩, ?_⟩
  · have : 0 = t.nv := h; omega
  · show (⟨mask (GNSet.new 64), 1, 0, 1⟩ : TspB) = ⟨0, 1, 0, 1⟩
    rw [mask_new]

theorem Tsp.Ok.labels {x : TspW} (hx : t.Ok x) (hn : 1 < t.nv) (hv : t.nv ≤ 2 ^ 15) : t.lgfW x = some (t.mdlB.lgf x.abs) := by
  show _ = some (if x.hops + 1 ≥ t.nv then [1] else (t.free x.abs.core).map (fun i : Nat => (i : Int)))
  unfold Tsp.lgfW
  by_cases h : x.hops + 1 ≥ t.nv
  · rw [if_pos h, if_pos h]
    decide +kernel
  · rw [if_neg h, if_neg h]
    obtain ⟨c, h1, h2, h3, h4⟩ := t.cities hn hv
    have hb : t.wds < 2 ^ 15 := by unfold Tsp.wds; omega
    have hp : 0 < t.wds := by unfold Tsp.wds; omega
    obtain ⟨r, r1, r2, r3, r4⟩ := mask_minus (a := c) (b := x.s) (by omega) (fun h => by rw [h2] at h; cases h) hx.live hx.cap
    obtain ⟨k1, k2, _⟩ := remove_keep r 1
    obtain ⟨k4, k5, _⟩ := remove_keep (remove r 1) x.e
    obtain ⟨d, d1, d2, d3, d4⟩ := mask_copy (g := remove (remove r 1) x.e) (fun h => by rw [k5, k2, r3] at h; cases h)
    rw [h1, Option.bind_some, r1, Option.bind_some, d1, Option.bind_some]
    have hbit : ∀ q, (mask d).testBit q = (decide (q < t.nv) && (!(mask x.s).testBit q && decide (q ≠ 1) && decide (q ≠ x.e))) := by
      intro q
      rw [d4, mask_remove, mask_remove, r4, h4, mdiff_bit, mdiff_bit, mdiff_bit, Tsp.all, Nat.testBit_two_pow_sub_one, Nat.testBit_two_pow, Nat.testBit_two_pow]
      by_cases h1 : q = 1 <;> by_cases h2 : q = x.e <;> simp [h1, h2, eq_comm] <;> simp_all [eq_comm]
    rw [iter_mask d2 (by omega) hv (fun q hq => by rw [← mask_bit, hbit, Bool.and_eq_true, decide_eq_true_iff] at hq; exact hq.1), Option.some.injEq]
    congr 1
    unfold Tsp.free
    refine List.filter_congr fun i hi => ?_
    rw [hbit]
    simp only [List.mem_range] at hi
    show (decide (i < t.nv) && _) = (!(mask x.s).testBit i && decide (i ≠ 1) && decide (i ≠ x.e))
    rw [decide_eq_true hi, Bool.true_and]

theorem Tsp.Ok.step {x : TspW} (hx : t.Ok x) (hn : 1 < t.nv) (hv : t.nv ≤ 2 ^ 15) (l : Int) :
    (t.stfW x l).map TspW.abs = t.mdlB.stf x.abs l ∧ ∀ y, t.stfW x l = some y → t.Ok y := by
  show _ = (if l = 1 then some (⟨t.all, 1, t.nv, t.wds⟩ : TspB)
    else if 0 ≤ l ∧ l < (t.nv : Int) then some ⟨mask x.s ||| 2 ^ l.toNat, l.toNat, x.hops + 1, max x.s.mxw (growTo 1 l.toNat)⟩ else none) ∧ _
  unfold Tsp.stfW
  by_cases h1 : l = 1
  · rw [if_pos h1, if_pos h1]
    obtain ⟨z, z1, z2, z3⟩ := t.target hn hv
    rw [z1]
    exact ⟨congrArg some z3, fun y hy => by cases hy; exact z2⟩
  · rw [if_neg h1, if_neg h1]
    by_cases h2 : 0 ≤ l ∧ l < (t.nv : Int)
    · rw [if_pos h2, if_pos h2]
      obtain ⟨o, o1, o2, o3, o4, o5, o6⟩ := mask_single (p := l.toNat) (by omega)
      obtain ⟨u, u1, u2, u3, u4⟩ := mask_union hx.cap hx.live (b := o) (fun h => by rw [o2] at h; cases h) o5
      rw [o1, Option.bind_some, u1, Option.map_some]
      refine ⟨?_, ?_⟩
      · show some (⟨mask u, l.toNat, x.hops + 1, u.mxw⟩ : TspB) = _
        rw [u4, o6, u2, o3]
      · intro y hy
        cases hy
        have p1 := hx.pos; have p2 := hx.cap
        refine ⟨u3, by show 0 < u.mxw; omega, by show u.mxw < _; omega, fun i hi => ?_, by show l.toNat < _; omega, fun he => ?_⟩
        · rw [← mask_bit, u4, o6, Nat.testBit_or, Nat.testBit_two_pow, Bool.or_eq_true, decide_eq_true_iff, mask_bit] at hi
          rcases hi with hi | hi
          · exact hx.bits i hi
          · omega
        · have he : l.toNat = 1 := he
          omega
    · rw [if_neg h2, if_neg h2]
      exact ⟨rfl, fun y hy => by cases hy⟩

theorem Tsp.Ok.merge {a b : TspW} (ha : t.Ok a) (hb : t.Ok b) :
    ∃ o, t.smfW a b = some o ∧ o.map TspW.abs = t.mdlB.smf a.abs b.abs ∧ ∀ y, o = some y → t.Ok y := by
  show ∃ o, t.smfW a b = some o ∧ o.map TspW.abs = (if a.e = b.e ∧ a.hops = b.hops then some ⟨mask a.s &&& mask b.s, a.e, a.hops, a.s.mxw⟩ else none) ∧ _
  unfold Tsp.smfW
  obtain ⟨u, u1, u2, u3, u4⟩ := mask_inter ha.cap ha.live hb.live hb.cap
  rw [u1, Option.map_some]
  by_cases h : a.e = b.e ∧ a.hops = b.hops
  · rw [if_pos h, if_pos h]
    refine ⟨_, rfl, by simp only [Option.map_some, TspW.abs, u4, u2], ?_⟩
    intro y hy
    cases hy
    have p1 := ha.pos; have p2 := ha.cap
    refine ⟨u3, by show 0 < u.mxw; omega, by show u.mxw < _; omega, fun i hi => ?_, ha.e, fun h1 h2 => ?_⟩
    · rw [← mask_bit, u4, Nat.testBit_and, Bool.and_eq_true, mask_bit] at hi
      exact ha.bits i hi.1
    · obtain ⟨a1, a2⟩ := ha.last h1 h2
      obtain ⟨b1, _⟩ := hb.last (h.1 ▸ h1) (h.2 ▸ h2)
      exact ⟨by rw [u4, a1, b1, Nat.and_self], by rw [u2, a2]⟩
  · rw [if_neg h, if_neg h]
    exact ⟨none, rfl, rfl, fun y hy => by cases hy⟩

theorem Tsp.kept (hn : 1 < t.nv) (hv : t.nv ≤ 2 ^ 15) : Kept t.Ok t.mdlW where
  sti := (t.init_ok hn).1
  stt := by
    obtain ⟨x, h1, h2, _⟩ := t.target hn hv
    show t.Ok (t.targetW.getD _)
    rw [h1]; exact h2
  stf := fun s l y hs h => (hs.step hn hv l).2 y h
  smf := fun a b c ha hb h => by
    obtain ⟨o, h1, _, h2⟩ := ha.merge hb
    have h : (t.smfW a b).getD none = some c := h
    rw [h1] at h
    exact h2 c h

theorem Tsp.homOn (hn : 1 < t.nv) (hv : t.nv ≤ 2 ^ 15) : HomOn t.Ok TspW.abs t.mdlW t.mdlB where
  sense := rfl
  sti := (t.init_ok hn).2.symm
  stt := by
    obtain ⟨x, h1, _, h3⟩ := t.target hn hv
    show _ = (t.targetW.getD _).abs
    rw [h1, ← h3]; rfl
  lgf := fun s hs => by
    show _ = (t.lgfW s).getD []
    rw [hs.labels hn hv]; rfl
  stf := fun s l hs => (hs.step hn hv l).1.symm
  stc := fun s l hs => by
    show (if s.e < t.nv ∧ 0 ≤ l ∧ l < (t.nv : Int) then t.d s.e l.toNat else 0) = (t.stcW s l).getD 0
    unfold Tsp.stcW
    split <;> rfl
  smf := fun a b ha hb => by
    obtain ⟨o, h1, h2, _⟩ := ha.merge hb
    show _ = ((t.smfW a b).getD none).map _
    rw [h1, ← h2]; rfl
  eqs := fun _ _ => rfl
  loc := ⟨rfl, fun h h' e => by cases e⟩
  sdom := ⟨rfl, fun h h' e => by cases e⟩

theorem TspW.eqv_core (a b : TspW) : decide (a.abs.core = b.abs.core) = a.eqv b := by
  unfold TspW.eqv
  rw [Bool.eq_iff_iff, decide_eq_true_iff, Bool.and_eq_true, Bool.and_eq_true, decide_eq_true_iff, decide_eq_true_iff, eq_mask]
  simp only [TspW.abs, TspB.core, TspS.mk.injEq]
  constructor
  · rintro ⟨h1, h2, h3⟩; exact ⟨⟨h2, h3⟩, h1⟩
  · rintro ⟨⟨h1, h2⟩, h3⟩; exact ⟨h3, h1, h2⟩

theorem TspW.hash_abs (a : TspW) : tspHash (hashM a.abs.s a.abs.wd) a.abs.e a.abs.hops = a.hash := by
  unfold TspW.hash
  rw [hash_hashM]
  rfl

theorem TspW.same (a b : TspW) : tspBSame.same a.abs b.abs = tspSame.same a b := by
  unfold tspBSame tspSame tabSame
  simp only [TspW.eqv_core, TspW.hash_abs]

/-! ### From words to sets -/

/-- Terminal states are the sink. -/
def Tsp.Good (t : Tsp) (x : TspB) : Prop := x.e < t.nv ∧ (x.e = 1 → x.hops = t.nv → x.s = t.all ∧ x.wd = t.wds)

theorem Tsp.mem_lgf (hn : 1 < t.nv) {x : TspS} {l : Int} (hl : l ∈ t.mdl.lgf x) : 0 ≤ l ∧ l < (t.nv : Int) := by
  have hl : l ∈ (if x.hops + 1 ≥ t.nv then [1] else (t.free x).map (fun i : Nat => (i : Int))) := hl
  by_cases h : x.hops + 1 ≥ t.nv
  · rw [if_pos h, List.mem_singleton] at hl; omega
  · rw [if_neg h] at hl
    obtain ⟨i, hi, rfl⟩ := List.mem_map.1 hl
    have := List.mem_range.1 (List.mem_filter.1 hi).1
    omega

theorem Tsp.over (hn : 1 < t.nv) : Over t.Good TspB.core t.mdlB t.mdl where
  p0 := ⟨hn, fun _ h => by have : 0 = t.nv := h; omega⟩
  pt := ⟨hn, fun _ _ => ⟨rfl, rfl⟩⟩
  ps := fun s l y _ hl h => by
    have h : (if l = 1 then some ⟨t.all, 1, t.nv, t.wds⟩
      else if 0 ≤ l ∧ l < (t.nv : Int) then some ⟨s.s ||| 2 ^ l.toNat, l.toNat, s.hops + 1, max s.wd (growTo 1 l.toNat)⟩ else none) = some y := h
    by_cases h1 : l = 1
    · rw [if_pos h1] at h; cases h; exact ⟨hn, fun _ _ => ⟨rfl, rfl⟩⟩
    · have h2 := t.mem_lgf hn hl
      rw [if_neg h1, if_pos h2] at h; cases h
      exact ⟨by show l.toNat < _; omega, fun he => by have he : l.toNat = 1 := he; omega⟩
  pm := fun a b c ha hb h => by
    have h : (if a.e = b.e ∧ a.hops = b.hops then some ⟨a.s &&& b.s, a.e, a.hops, a.wd⟩ else none) = some c := h
    by_cases hc : a.e = b.e ∧ a.hops = b.hops
    · rw [if_pos hc] at h; cases h
      refine ⟨ha.1, fun h1 h2 => ?_⟩
      obtain ⟨a1, a2⟩ := ha.2 h1 h2
      obtain ⟨b1, _⟩ := hb.2 (hc.1 ▸ h1) (hc.2 ▸ h2)
      exact ⟨by show a.s &&& b.s = _; rw [a1, b1, Nat.and_self], a2⟩
    · rw [if_neg hc] at h; cases h
  sense := rfl
  sti := rfl
  stt := rfl
  lgf := fun _ _ => rfl
  stf := fun s l _ hl => by
    have h2 := t.mem_lgf hn hl
    show (if l = 1 then some ⟨t.all, 1, t.nv⟩ else some ⟨s.s ||| 2 ^ l.toNat, l.toNat, s.hops + 1⟩) =
      (if l = 1 then some ⟨t.all, 1, t.nv, t.wds⟩
        else if 0 ≤ l ∧ l < (t.nv : Int) then some ⟨s.s ||| 2 ^ l.toNat, l.toNat, s.hops + 1, max s.wd (growTo 1 l.toNat)⟩ else none).map TspB.core
    by_cases h1 : l = 1
    · rw [if_pos h1, if_pos h1]; rfl
    · rw [if_neg h1, if_neg h1, if_pos h2]; rfl
  stc := fun s l hs hl => by
    have h2 := t.mem_lgf hn hl
    show t.d s.e l.toNat = if s.e < t.nv ∧ 0 ≤ l ∧ l < (t.nv : Int) then t.d s.e l.toNat else 0
    rw [if_pos ⟨hs.1, h2⟩]
  smf := fun a b _ _ => by
    show (if a.e = b.e ∧ a.hops = b.hops then some ⟨a.s &&& b.s, a.e, a.hops⟩ else none) =
      (if a.e = b.e ∧ a.hops = b.hops then some ⟨a.s &&& b.s, a.e, a.hops, a.wd⟩ else none).map TspB.core
    split <;> rfl
  eqs := fun _ _ => rfl
  loc := rfl
  sdom := rfl
  ends := fun a b ha hb he hab => by
    have he : (decide (a.e = 1) && decide (a.hops = t.nv)) = true := he
    rw [Bool.and_eq_true, decide_eq_true_iff, decide_eq_true_iff] at he
    unfold TspB.core at hab
    rw [TspS.mk.injEq] at hab
    obtain ⟨e1, e2, e3⟩ := hab
    have h1 := (ha.2 he.1 he.2).2
    have h2 := (hb.2 (e2 ▸ he.1) (e3 ▸ he.2)).2
    cases a; cases b
    simp only at e1 e2 e3 h1 h2
    rw [e1, e2, e3, h1, h2]

/-- On a state that decisions reach, the words are those of its largest city. -/
def Tsp.Top (t : Tsp) (x : TspB) : Prop := t.Good x ∧ ((x.e = 1 ∧ x.hops = t.nv) ∨
  ((x.wd = 1 ∨ ∃ i, x.s.testBit i = true ∧ x.wd = growTo 1 i) ∧ 1 ≤ x.wd ∧ ∀ i, x.s.testBit i = true → growTo 1 i ≤ x.wd))

theorem Tsp.top_path (hn : 1 < t.nv) {x y : TspB} {ls : List Int} {c : Int} (hp : Path t.mdlB x ls c y) : t.Top x → t.Top y := by
  induction hp with
  | nil => exact id
  | @cons s s' z l ls c hs _ ih =>
    intro hx
    refine ih ⟨(t.over hn).ps _ _ _ hx.1 hs.2.1 hs.2.2, ?_⟩
    have h : (if l = 1 then some ⟨t.all, 1, t.nv, t.wds⟩
      else if 0 ≤ l ∧ l < (t.nv : Int) then some ⟨s.s ||| 2 ^ l.toNat, l.toNat, s.hops + 1, max s.wd (growTo 1 l.toNat)⟩ else none) = some s' := hs.2.2
    by_cases h1 : l = 1
    · rw [if_pos h1] at h; cases h; exact .inl ⟨rfl, rfl⟩
    · rw [if_neg h1, if_pos (t.mem_lgf hn hs.2.1)] at h; cases h
      rcases hx.2 with ⟨h2, h3⟩ | ⟨h2, h3, h4⟩
      · have : t.mdlB.eqs s = true := by show (decide (s.e = 1) && decide (s.hops = t.nv)) = true; rw [h2, h3]; simp
        rw [hs.1] at this; cases this
      · obtain ⟨_, g2, _⟩ := growTo_spec (w := 1) (p := l.toNat) (by omega)
        refine .inr ⟨?_, by show 1 ≤ max _ _; omega, fun i hi => ?_⟩
        · show max s.wd (growTo 1 l.toNat) = 1 ∨ ∃ i, (s.s ||| 2 ^ l.toNat).testBit i = true ∧ max s.wd (growTo 1 l.toNat) = growTo 1 i
          by_cases hc : s.wd ≤ growTo 1 l.toNat
          · exact .inr ⟨l.toNat, by rw [Nat.testBit_or, Nat.testBit_two_pow]; simp, by omega⟩
          · rcases h2 with h2 | ⟨i, h2, h5⟩
            · exact .inl (by omega)
            · exact .inr ⟨i, by rw [Nat.testBit_or, h2]; rfl, by omega⟩
        · have hi : (s.s ||| 2 ^ l.toNat).testBit i = true := hi
          rw [Nat.testBit_or, Nat.testBit_two_pow, Bool.or_eq_true, decide_eq_true_iff] at hi
          show growTo 1 i ≤ max s.wd (growTo 1 l.toNat)
          rcases hi with hi | hi
          · have := h4 i hi; omega
          · rw [← hi]; omega

theorem Tsp.Top.uniq {a b : TspB} (ha : t.Top a) (hb : t.Top b) (h : a.core = b.core) : a = b := by
  unfold TspB.core at h
  rw [TspS.mk.injEq] at h
  obtain ⟨e1, e2, e3⟩ := h
  have key : a.wd = b.wd := by
    by_cases hT : a.e = 1 ∧ a.hops = t.nv
    · rw [(ha.1.2 hT.1 hT.2).2, (hb.1.2 (e2 ▸ hT.1) (e3 ▸ hT.2)).2]
    · obtain ⟨a1, a2, a3⟩ := ha.2.resolve_left hT
      obtain ⟨b1, b2, b3⟩ := hb.2.resolve_left (by rw [← e2, ← e3]; exact hT)
      have h1 : a.wd ≤ b.wd := by
        rcases a1 with h | ⟨i, h, h'⟩
        · omega
        · rw [h']; exact b3 i (e1 ▸ h)
      have h2 : b.wd ≤ a.wd := by
        rcases b1 with h | ⟨i, h, h'⟩
        · omega
        · rw [h']; exact a3 i (e1 ▸ h)
      omega
  cases a; cases b
  simp only at e1 e2 e3 key
  rw [e1, e2, e3, key]

theorem Tsp.own (hn : 1 < t.nv) : @Own _ _ tspBSame t.Good TspB.core t.mdlB :=
  @Own.mk _ _ tspBSame t.Good TspB.core t.mdlB
    (fun a => by show (decide (a.core = a.core) && _ == _) = true; simp)
    (fun a b h => by
      have h : (decide (a.core = b.core) && _ == _) = true := h
      show (decide (b.core = a.core) && _ == _) = true
      rw [Bool.and_eq_true, decide_eq_true_iff, beq_iff_eq] at h ⊢
      exact ⟨h.1.symm, h.2.symm⟩)
    (fun a b _ _ h => by
      have h : (decide (a.core = b.core) && _ == _) = true := h
      rw [Bool.and_eq_true, decide_eq_true_iff] at h
      exact h.1)
    (fun a b la lb ca cb ha hb h => by
      have h0 : t.Top t.mdlB.sti := ⟨(t.over hn).p0, .inr ⟨.inl rfl, Nat.le_refl _, fun i hi => by
        have hi : (0 : Nat).testBit i = true := hi
        rw [Nat.zero_testBit] at hi; cases hi⟩⟩
      exact (t.top_path hn ha h0).uniq (t.top_path hn hb h0) h)

theorem Tsp.progB (hn : 1 < t.nv) {D : Int} (hD : t.Bnd D) (hlow : ∀ ls c, t.Tour ls c → -2147483647 ≤ c) :
    @TspProg _ tspBSame t.mdlB (fun x => x.hops) t.nv t.Tour := by
  have P := t.prog hn hD hlow
  exact @TspProg.mk _ tspBSame _ _ _ _ rfl rfl
    (@Over.layered _ _ _ _ _ _ tspBSame _ t.rank (t.over hn) (t.own hn) 0 P.layered)
    (@Over.rankBound _ _ _ _ _ _ tspBSame _ t.rank (t.over hn) (t.own hn) 0 _ P.ranks)
    (fun ls c => ((t.over hn).sol P.layered.sink ls c).trans (P.sol ls c)) (fun _ => hlow) P.some_

/-! ### The program -/

/-- The search on the stored words is the search on the masks with their number of words. -/
theorem tsp_words_search (hn : 1 < t.nv) (hv : t.nv ≤ 2 ^ 15) (w fu : Nat) (lim : Nat → Bool) (N : Nat) (p0 : Int) :
    (@BB.search _ tspSame t.mdlW w fu lim N p0).map (fun s => (s.primal, s.inc, s.sols, s.stopped, s.wrel, s.log, s.pq)) =
      (@BB.search _ tspBSame t.mdlB w fu lim N p0).map (fun s => (s.primal, s.inc, s.sols, s.stopped, s.wrel, s.log, s.pq)) :=
  @state_equality_via _ _ tspBSame _ _ _ _ _ _ _ (t.kept hn hv) (t.homOn hn hv) (fun a b _ _ => TspW.same a b) w fu lim N p0

theorem tsp_words_some (hn : 1 < t.nv) (hv : t.nv ≤ 2 ^ 15) {w fu : Nat} {lim : Nat → Bool} {N : Nat} {p0 : Int} {s : BB.BS TspW}
    (h : @BB.search _ tspSame t.mdlW w fu lim N p0 = some s) : ∃ s', @BB.search _ tspBSame t.mdlB w fu lim N p0 = some s' ∧
      s'.primal = s.primal ∧ s'.inc = s.inc ∧ s'.sols = s.sols ∧ s'.stopped = s.stopped := by
  have e := tsp_words_search hn hv w fu lim N p0
  rw [h, Option.map_some] at e
  obtain ⟨s', h1, h2⟩ := Option.map_eq_some_iff.1 e.symm
  simp only [Prod.mk.injEq] at h2
  exact ⟨s', h1, h2.1, h2.2.1, h2.2.2.1, h2.2.2.2.1⟩

/-- C141.  Everything the program reports is a tour with its length. -/
theorem tsp_words_sound (hn : 1 < t.nv) (hv : t.nv ≤ 2 ^ 15) {D : Int} (hD : t.Bnd D) (hlow : ∀ ls c, t.Tour ls c → -2147483647 ≤ c)
    {w fu N : Nat} {lim : Nat → Bool} {s : BB.BS TspW} (h : @BB.search _ tspSame t.mdlW w fu lim N 2147483647 = some s) :
    ∀ x, x ∈ s.sols → t.Tour x.2 x.1 := by
  obtain ⟨s', h1, _, _, h2, _⟩ := tsp_words_some hn hv h
  rw [← h2]
  exact @TspProg.sound _ tspBSame _ _ _ _ (t.progB hn hD hlow) _ _ _ _ _ h1

/-- C141.  The search ends. -/
theorem tsp_words_ends (hn : 1 < t.nv) (hv : t.nv ≤ 2 ^ 15) {D : Int} (hD : t.Bnd D) (hlow : ∀ ls c, t.Tour ls c → -2147483647 ≤ c)
    (w : Nat) {fu : Nat} (hf : t.nv + 2 ≤ fu) (lim : Nat → Bool) :
    ∃ L, ∀ N, L < N → ∃ s, @BB.search _ tspSame t.mdlW w fu lim N 2147483647 = some s ∧ (s.stopped = true ∨ Heap.empty s.pq = true) := by
  obtain ⟨L, hL⟩ := @TspProg.ends _ tspBSame _ _ _ _ (t.progB hn hD hlow) w _ hf lim
  refine ⟨L, fun N hN => ?_⟩
  obtain ⟨s, h1, h2⟩ := hL N hN
  have e := tsp_words_search hn hv w fu lim N 2147483647
  rw [h1, Option.map_some] at e
  obtain ⟨s', h3, h4⟩ := Option.map_eq_some_iff.1 e
  simp only [Prod.mk.injEq] at h4
  exact ⟨s', h3, by rw [h4.2.2.2.1, h4.2.2.2.2.2.2]; exact h2⟩

/-- C141.  With a width no layer exceeds, the program ends with a shortest tour. -/
theorem tsp_words_width (hn : 1 < t.nv) (hv : t.nv ≤ 2 ^ 15) {D : Int} (hD : t.Bnd D) (hlow : ∀ ls c, t.Tour ls c → -2147483647 ≤ c)
    {w fu N : Nat} (hw : 1 ≤ w) (hw2 : tourWidth t.nv ≤ w) {lim : Nat → Bool} {s : BB.BS TspW}
    (h : @BB.search _ tspSame t.mdlW w fu lim N 2147483647 = some s) (hns : s.stopped = false) :
    ShortestTour t.Tour s.primal ∧ t.Tour s.inc s.primal := by
  obtain ⟨s', h1, h2, h3, _, h4⟩ := tsp_words_some hn hv h
  rw [← h2, ← h3]
  exact @TspProg.room _ tspBSame _ _ _ _ (t.progB hn hD hlow) _ _ _
    ((t.over hn).room (rank := t.rank) (@Own.uniq _ _ tspBSame _ _ _ (t.own hn)) (tsp_room t hn hw hw2)) _ _ h1 (h4.trans hns)

/-- The states a run can meet. -/
inductive Tsp.Met (t : Tsp) : TspW → Prop
  | init : Met t t.initW
  | target {x} : t.targetW = some x → Met t x
  | step {x y l ls} : Met t x → t.lgfW x = some ls → l ∈ ls → t.stfW x l = some y → Met t y
  | merge {a b c} : Met t a → Met t b → t.smfW a b = some (some c) → Met t c

theorem Tsp.Met.ok (hn : 1 < t.nv) (hv : t.nv ≤ 2 ^ 15) {x : TspW} (h : t.Met x) : t.Ok x := by
  induction h with
  | init => exact (t.init_ok hn).1
  | target h =>
    obtain ⟨x, h1, h2, _⟩ := t.target hn hv
    rw [h1, Option.some.injEq] at h
    exact h ▸ h2
  | step _ _ _ h ih => exact (ih.step hn hv _).2 _ h
  | merge _ _ h iha ihb =>
    obtain ⟨o, h1, _, h2⟩ := iha.merge ihb
    rw [h1, Option.some.injEq] at h
    exact h2 _ h

/-- C141.  With 2 to 32768 cities the sink exists, and on every state a run can meet all functions of the program are
defined, on the labels offered. -/
theorem tsp_words_defined (hn : 1 < t.nv) (hv : t.nv ≤ 2 ^ 15) : (∃ x, t.targetW = some x) ∧ ∀ x, t.Met x →
    (∃ ls, t.lgfW x = some ls ∧ ∀ l ∈ ls, (∃ y, t.stfW x l = some y) ∧ ∃ c, t.stcW x l = some c) ∧ ∀ y, t.Met y → ∃ o, t.smfW x y = some o := by
  refine ⟨?_, fun x hx => ⟨⟨_, (hx.ok hn hv).labels hn hv, fun l hl => ?_⟩, fun y hy => ?_⟩⟩
  · obtain ⟨x, h, _⟩ := t.target hn hv; exact ⟨x, h⟩
  · have h2 := t.mem_lgf hn hl
    refine ⟨?_, ?_⟩
    · have := ((hx.ok hn hv).step hn hv l).1
      cases hs : t.stfW x l with
      | some y => exact ⟨y, rfl⟩
      | none =>
        exfalso
        rw [hs] at this
        have this : none = (if l = 1 then some (⟨t.all, 1, t.nv, t.wds⟩ : TspB)
          else if 0 ≤ l ∧ l < (t.nv : Int) then some ⟨mask x.s ||| 2 ^ l.toNat, l.toNat, x.hops + 1, max x.s.mxw (growTo 1 l.toNat)⟩ else none) := this
        rw [if_pos h2] at this
        split at this <;> cases this
    · exact ⟨_, by unfold Tsp.stcW; rw [if_pos ⟨(hx.ok hn hv).e, h2⟩]⟩
  · obtain ⟨o, h, _⟩ := (hx.ok hn hv).merge (hy.ok hn hv); exact ⟨o, h⟩

/-- Up to 64 cities every set is one word, so equal states have equal hashes. -/
theorem tsp_words_hash_partial (hn : 1 < t.nv) (hv : t.nv ≤ 64) {x y : TspW} (hx : t.Met x) (hy : t.Met y) (h : x.eqv y = true) : x.hash = y.hash := by
  have key : ∀ {x}, t.Met x → x.s.mxw = 1 := by
    intro x hx
    induction hx with
    | init => rfl
    | target h =>
      obtain ⟨z, h1, _, h3⟩ := t.target hn (by omega)
      rw [h1, Option.some.injEq] at h
      subst h
      have h4 : z.s.mxw = t.wds := congrArg TspB.wd h3
      rw [h4, Tsp.wds]; omega
    | @step x y l ls hx hl hm h ih =>
      have h1 := ((hx.ok hn (by omega)).step hn (by omega) l).1
      have h0 := (hx.ok hn (by omega)).labels hn (by omega)
      rw [hl, Option.some.injEq] at h0
      have h2 := t.mem_lgf hn (h0 ▸ hm)
      rw [h] at h1
      have h1 : some y.abs = (if l = 1 then some ⟨t.all, 1, t.nv, t.wds⟩
          else if 0 ≤ l ∧ l < (t.nv : Int) then some ⟨mask x.s ||| 2 ^ l.toNat, l.toNat, x.hops + 1, max x.s.mxw (growTo 1 l.toNat)⟩ else none) := h1
      by_cases hc : l = 1
      · rw [if_pos hc, Option.some.injEq] at h1
        have h4 : y.s.mxw = t.wds := congrArg TspB.wd h1
        rw [h4, Tsp.wds]; omega
      · rw [if_neg hc, if_pos h2, Option.some.injEq] at h1
        have h4 : y.s.mxw = max x.s.mxw (growTo 1 l.toNat) := congrArg TspB.wd h1
        rw [h4, ih, growTo_same (by omega)]; rfl
    | @merge a b c ha hb h iha ihb =>
      obtain ⟨o, h1, h2, _⟩ := (ha.ok hn (by omega)).merge (hb.ok hn (by omega))
      rw [h1, Option.some.injEq] at h
      subst h
      have h2 : some c.abs = (if a.e = b.e ∧ a.hops = b.hops then some ⟨mask a.s &&& mask b.s, a.e, a.hops, a.s.mxw⟩ else none) := h2
      split at h2
      · rw [Option.some.injEq] at h2
        have h4 : c.s.mxw = a.s.mxw := congrArg TspB.wd h2
        rw [h4, iha]
      · cases h2
  unfold TspW.eqv at h
  rw [Bool.and_eq_true, Bool.and_eq_true, decide_eq_true_iff, decide_eq_true_iff, eq_mask] at h
  obtain ⟨⟨h1, h2⟩, h3⟩ := h
  unfold TspW.hash
  rw [h1, h2, hash_mask h3 (.inl (by rw [key hx, key hy]))]

/-- Seventy cities at distance 1. -/
def t70 : Tsp := ⟨70, fun _ _ => 1⟩

/-- From 65 cities on, two states of one run can be equal and lie in different buckets: cities 69 and 2 merged with 3
and 2, and 3 and 2 merged with 4 and 2, both leave city 2, in two words and in one. -/
theorem tsp_words_hash_false : ∃ x y, t70.Met x ∧ t70.Met y ∧ x.eqv y = true ∧ x.hash.toNat % 200191 ≠ y.hash.toNat % 200191 := by
  let go : List Int → Option TspW := fun ls => ls.foldl (fun o l => o.bind fun x => (t70.lgfW x).bind fun ls => if l ∈ ls then t70.stfW x l else none) (some t70.initW)
  let mg : Option TspW → Option TspW → Option TspW := fun a b => a.bind fun a => b.bind fun b => (t70.smfW a b).bind id
  have hgo : ∀ (ls : List Int) (o : Option TspW), (∀ x, o = some x → t70.Met x) → ∀ x,
      ls.foldl (fun o l => o.bind fun x => (t70.lgfW x).bind fun ls => if l ∈ ls then t70.stfW x l else none) o = some x → t70.Met x := by
    intro ls
    induction ls with
    | nil => intro o h; exact h
    | cons l ls ih =>
      intro o h
      refine ih _ (fun y hy => ?_)
      obtain ⟨x, h1, h2⟩ := Option.bind_eq_some_iff.1 hy
      obtain ⟨p, h3, h4⟩ := Option.bind_eq_some_iff.1 h2
      split at h4
      · rename_i hm; exact .step (h x h1) h3 hm h4
      · cases h4
  have hmet : ∀ ls x, go ls = some x → t70.Met x := fun ls => hgo ls _ (fun x hx => by cases hx; exact .init)
  have hmg : ∀ a b x, (∀ y, a = some y → t70.Met y) → (∀ y, b = some y → t70.Met y) → mg a b = some x → t70.Met x := by
    intro a b x ha hb h
    obtain ⟨p, h1, h2⟩ := Option.bind_eq_some_iff.1 h
    obtain ⟨q, h3, h4⟩ := Option.bind_eq_some_iff.1 h2
    obtain ⟨r, h5, h6⟩ := Option.bind_eq_some_iff.1 h4
    exact .merge (ha p h1) (hb q h3) (by rw [h5]; exact congrArg some h6)
  have hv : (mg (go [69, 2]) (go [3, 2])).bind (fun x => (mg (go [3, 2]) (go [4, 2])).map fun y =>
      (x.eqv y, x.hash.toNat % 200191, y.hash.toNat % 200191)) = some (true, 110399, 175953) := by decide +kernel
  obtain ⟨x, h1, h2⟩ := Option.bind_eq_some_iff.1 hv
  obtain ⟨y, h3, h4⟩ := Option.map_eq_some_iff.1 h2
  simp only [Prod.mk.injEq] at h4
  exact ⟨x, y, hmg _ _ x (hmet _) (hmet _) h1, hmg _ _ y (hmet _) (hmet _) h3, h4.1, by rw [h4.2.1, h4.2.2]; decide⟩

/-- A run on words, by the theorem: four cities, width 6. -/
example : ∃ s, @BB.search _ tspSame t4.mdlW 6 10 (fun _ => false) 50 2147483647 = some s ∧ s.inc = [2, 3, 0, 1] ∧ ShortestTour t4.Tour 19 := by
  have hv : (@BB.search _ tspSame t4.mdlW 6 10 (fun _ => false) 50 2147483647).map (fun s => (s.primal, s.inc, s.stopped)) = some (19, [2, 3, 0, 1], false) := by
    decide +kernel
  obtain ⟨s, h1, h2⟩ := Option.map_eq_some_iff.1 hv
  simp only [Prod.mk.injEq] at h2
  have hp : ∀ i, i < 4 → ∀ j, j < 4 → 0 ≤ t4.d i j := by decide
  have := tsp_words_width (t := t4) (by decide) (by decide) t4_bnd
    (fun ls c hc => by have := Tsp.tour_nonneg (by decide) (fun i j hi hj _ => hp i hi j hj) ls c hc; omega) (by decide) (by decide) h1 h2.2.2
  exact ⟨s, h1, h2.2.1, h2.1 ▸ this.1⟩

end Verif.Ex
