import Verif.GNMem
import Verif.Props.GNSet
/-!
# C139: `GNSet` objects are values
-/
namespace Verif.GNMem
open Verif.Bits
open Verif.GNSet (G ceil64 grow)

/-! ### Sets as values -/

/-- Not a moved-from set with words. -/
def usable (g : G) : Bool := !(g.nul && decide (g.mxw ≠ 0))

/-- What a statement does when every variable holds a value of its own. -/
def vstep (e : Nat → Option G) : Op → Option (Nat → Option G)
  | .new v nb => if (e v).isSome then none else some (put e v (some (GNSet.new nb)))
  | .copy v u => if (e v).isSome then none else (e u).bind fun g => (GNSet.copy g).map fun h => put e v (some h)
  | .move v u => if (e v).isSome then none else (e u).map fun g => put (put e v (some g)) u (some (GNSet.moved g))
  | .copyAsg v u => (e v).bind fun g => (e u).bind fun s => (GNSet.assign g s).map fun h => put e v (some h)
  | .moveAsg v u => (e v).bind fun _ => (e u).map fun s => put (put e v (some s)) u (some (GNSet.moved s))
  | .insert v p => (e v).bind fun g => if usable g then (GNSet.insert g p).map fun h => put e v (some h) else none
  | .inpl v u f => (e v).bind fun g => (e u).bind fun s => if usable g && usable s then (f.val g s).map fun h => put e v (some h) else none
  | .union v u => (e v).bind fun g => (e u).bind fun s => if usable g && usable s then (GNSet.unionWith g s).map fun h => put e v (some h) else none
  | .free v => (e v).map fun _ => put e v none

def vrun (e : Nat → Option G) : List Op → Option (Nat → Option G)
  | [] => some e
  | o :: os => (vstep e o).bind fun e => vrun e os

/-! ### What memory looks like -/

/-- The object has the fields and the words of the value. -/
def Ref (s : St) : Option Obj → Option G → Prop
  | none, none => True
  | some o, some g => o.mxw = g.mxw ∧ o.nbp = g.nbp ∧ g.nul = o.ptr.isNone ∧
      ∀ a, o.ptr = some a → ∃ t, s.mem a = some (o.mxw, t) ∧ ∀ i, i < o.mxw → t i = g.t i
  | _, _ => False

structure R (s : St) (e : Nat → Option G) : Prop where
  vars : ∀ v, Ref s (s.obj v) (e v)
  inj : ∀ v w o q a, s.obj v = some o → s.obj w = some q → o.ptr = some a → q.ptr = some a → v = w
  fresh : ∀ a, s.next ≤ a → s.mem a = none
  noleak : ∀ a x, s.mem a = some x → ∃ v o, s.obj v = some o ∧ o.ptr = some a

theorem R.empty : R St.empty (fun _ => none) :=
  ⟨fun _ => trivial, fun _ _ _ _ _ h => (by cases h), fun _ _ => rfl, fun _ _ h => (by cases h)⟩

/-- Cases of a variable. -/
theorem R.cases {s : St} {e : Nat → Option G} (H : R s e) (v : Nat) :
    (s.obj v = none ∧ e v = none) ∨ ∃ o g, s.obj v = some o ∧ e v = some g ∧ Ref s (some o) (some g) := by
  have h := H.vars v
  cases ho : s.obj v with
  | none => cases hg : e v with
    | none => exact .inl ⟨rfl, rfl⟩
    | some g => rw [ho, hg] at h; exact h.elim
  | some o => cases hg : e v with
    | none => rw [ho, hg] at h; exact h.elim
    | some g => rw [ho, hg] at h; exact .inr ⟨o, g, rfl, rfl, h⟩

/-- The array of a variable. -/
def arr (s : St) (v : Nat) : Option Nat := (s.obj v).bind Obj.ptr

theorem arr_some {s : St} {v a : Nat} (h : arr s v = some a) : ∃ o, s.obj v = some o ∧ o.ptr = some a := by
  unfold arr at h
  cases ho : s.obj v with
  | none => rw [ho] at h; cases h
  | some o => rw [ho] at h; exact ⟨o, rfl, h⟩

/-- A variable gets an array of its own that was not allocated before; its old one is deleted. -/
theorem R.own {s s' : St} {e : Nat → Option G} (H : R s e) {v m nb : Nat} {t : Nat → W} {g : G}
    (hn : s'.next = s.next + 1) (ho : ∀ w, s'.obj w = if w = v then some ⟨m, nb, some s.next⟩ else s.obj w)
    (hm : ∀ a, s'.mem a = if a = s.next then some (m, t) else if arr s v = some a then none else s.mem a)
    (h1 : g.mxw = m) (h2 : g.nbp = nb) (h3 : g.nul = false) (h4 : ∀ i, i < m → t i = g.t i) : R s' (put e v (some g)) := by
  have hfr : ∀ w o a, s.obj w = some o → o.ptr = some a → a ≠ s.next := by
    intro w o a hw ha hc
    rcases H.cases w with ⟨h, _⟩ | ⟨o', g', h, _, hr⟩
    · rw [h] at hw; cases hw
    · rw [h] at hw; cases hw
      obtain ⟨t', ht', _⟩ := hr.2.2.2 a ha
      rw [H.fresh a (by omega)] at ht'; cases ht'
  refine ⟨fun w => ?_, fun x y o q a hx hy ha hb => ?_, fun a ha => ?_, fun a x hx => ?_⟩
  · rw [ho w]
    unfold put
    by_cases hw : w = v
    · rw [if_pos hw, if_pos hw]
      refine ⟨h1.symm, h2.symm, h3, fun a ha => ?_⟩
      cases ha
      exact ⟨t, by rw [hm, if_pos rfl], h4⟩
    · rw [if_neg hw, if_neg hw]
      rcases H.cases w with ⟨h, h'⟩ | ⟨o, g', h, h', hr⟩
      · rw [h, h']; trivial
      · rw [h, h']
        refine ⟨hr.1, hr.2.1, hr.2.2.1, fun a ha => ?_⟩
        obtain ⟨t', ht', hi⟩ := hr.2.2.2 a ha
        refine ⟨t', ?_, hi⟩
        rw [hm, if_neg (hfr w o a h ha), if_neg, ht']
        intro hc
        obtain ⟨o2, h2, h2'⟩ := arr_some hc
        exact hw (H.inj w v o o2 a h h2 ha h2')
  · rw [ho] at hx hy
    by_cases h1 : x = v
    · rw [if_pos h1] at hx; cases hx; cases ha
      by_cases h2 : y = v
      · omega
      · rw [if_neg h2] at hy
        exact (hfr y q _ hy hb rfl).elim
    · rw [if_neg h1] at hx
      by_cases h2 : y = v
      · rw [if_pos h2] at hy; cases hy; cases hb
        exact (hfr x o _ hx ha rfl).elim
      · rw [if_neg h2] at hy
        exact H.inj x y o q a hx hy ha hb
  · rw [hm, if_neg (by omega), H.fresh a (by omega)]
    split <;> rfl
  · rw [hm] at hx
    by_cases h1 : a = s.next
    · exact ⟨v, _, by rw [ho, if_pos rfl], by rw [h1]⟩
    · rw [if_neg h1] at hx
      by_cases h2 : arr s v = some a
      · rw [if_pos h2] at hx; cases hx
      · rw [if_neg h2] at hx
        obtain ⟨w, o, hw, ha⟩ := H.noleak a x hx
        refine ⟨w, o, ?_, ha⟩
        rw [ho, if_neg, hw]
        intro hc
        subst hc
        exact h2 (by unfold arr; rw [hw]; exact ha)

/-- A variable keeps its array, with new contents. -/
theorem R.inplace {s s' : St} {e : Nat → Option G} (H : R s e) {v nb : Nat} {o : Obj} {t : Nat → W} {g : G} (hv : s.obj v = some o)
    (hn : s'.next = s.next) (ho : ∀ w, s'.obj w = if w = v then some ⟨o.mxw, nb, o.ptr⟩ else s.obj w)
    (hm : ∀ a, s'.mem a = if o.ptr = some a then some (o.mxw, t) else s.mem a)
    (h1 : g.mxw = o.mxw) (h2 : g.nbp = nb) (h3 : g.nul = o.ptr.isNone) (h4 : ∀ i, i < o.mxw → t i = g.t i) : R s' (put e v (some g)) := by
  have hin : ∀ a, o.ptr = some a → s.mem a ≠ none := by
    intro a ha
    rcases H.cases v with ⟨h, _⟩ | ⟨o', g', h, _, hr⟩
    · rw [h] at hv; cases hv
    · rw [h] at hv; cases hv
      obtain ⟨t', ht', _⟩ := hr.2.2.2 a ha
      rw [ht']; simp
  refine ⟨fun w => ?_, fun x y o1 q a hx hy ha hb => ?_, fun a ha => ?_, fun a x hx => ?_⟩
  · rw [ho w]
    unfold put
    by_cases hw : w = v
    · rw [if_pos hw, if_pos hw]
      exact ⟨h1.symm, h2.symm, h3, fun a ha => ⟨t, by rw [hm, if_pos ha], h4⟩⟩
    · rw [if_neg hw, if_neg hw]
      rcases H.cases w with ⟨h, h'⟩ | ⟨o', g', h, h', hr⟩
      · rw [h, h']; trivial
      · rw [h, h']
        refine ⟨hr.1, hr.2.1, hr.2.2.1, fun a ha => ?_⟩
        obtain ⟨t', ht', hi⟩ := hr.2.2.2 a ha
        refine ⟨t', ?_, hi⟩
        rw [hm, if_neg, ht']
        exact fun hc => hw (H.inj w v o' o a h hv ha hc)
  · have key : ∀ z (o1 : Obj), s'.obj z = some o1 → o1.ptr = some a → ∃ o2, s.obj z = some o2 ∧ o2.ptr = some a := by
      intro z o1 hz hz'
      rw [ho] at hz
      by_cases h : z = v
      · rw [if_pos h] at hz; cases hz; exact ⟨o, by rw [h, hv], hz'⟩
      · rw [if_neg h] at hz; exact ⟨o1, hz, hz'⟩
    obtain ⟨o2, a1, a2⟩ := key x o1 hx ha
    obtain ⟨o3, b1, b2⟩ := key y q hy hb
    exact H.inj x y o2 o3 a a1 b1 a2 b2
  · rw [hm, if_neg, H.fresh a (by omega)]
    exact fun hc => hin a hc (H.fresh a (by omega))
  · rw [hm] at hx
    by_cases h1 : o.ptr = some a
    · exact ⟨v, ⟨o.mxw, nb, o.ptr⟩, by rw [ho, if_pos rfl], h1⟩
    · rw [if_neg h1] at hx
      obtain ⟨w, o1, hw, ha⟩ := H.noleak a x hx
      refine ⟨w, o1, ?_, ha⟩
      rw [ho, if_neg, hw]
      intro hc
      subst hc
      rw [hv] at hw; cases hw
      exact h1 ha

/-- The array of a variable is deleted; the variable goes out of scope or is left with a null pointer. -/
theorem R.gone {s s' : St} {e : Nat → Option G} (H : R s e) {v : Nat} {o' : Option Obj} {g' : Option G}
    (hn : s'.next = s.next) (ho : ∀ w, s'.obj w = if w = v then o' else s.obj w)
    (hm : ∀ a, s'.mem a = if arr s v = some a then none else s.mem a)
    (hp : ∀ q, o' = some q → q.ptr = none) (hr : Ref s' o' g') : R s' (put e v g') := by
  refine ⟨fun w => ?_, fun x y o1 q a hx hy ha hb => ?_, fun a ha => ?_, fun a x hx => ?_⟩
  · rw [ho w]
    unfold put
    by_cases hw : w = v
    · rw [if_pos hw, if_pos hw]; exact hr
    · rw [if_neg hw, if_neg hw]
      rcases H.cases w with ⟨h, h'⟩ | ⟨o', g', h, h', hr⟩
      · rw [h, h']; trivial
      · rw [h, h']
        refine ⟨hr.1, hr.2.1, hr.2.2.1, fun a ha => ?_⟩
        obtain ⟨t', ht', hi⟩ := hr.2.2.2 a ha
        refine ⟨t', ?_, hi⟩
        rw [hm, if_neg, ht']
        intro hc
        obtain ⟨o2, h2, h2'⟩ := arr_some hc
        exact hw (H.inj w v _ o2 a h h2 ha h2')
  · rw [ho] at hx hy
    by_cases h1 : x = v
    · rw [if_pos h1] at hx; rw [hp _ hx] at ha; cases ha
    · rw [if_neg h1] at hx
      by_cases h2 : y = v
      · rw [if_pos h2] at hy; rw [hp _ hy] at hb; cases hb
      · rw [if_neg h2] at hy
        exact H.inj x y o1 q a hx hy ha hb
  · rw [hm, H.fresh a (by omega)]
    split <;> rfl
  · rw [hm] at hx
    by_cases h2 : arr s v = some a
    · rw [if_pos h2] at hx; cases hx
    · rw [if_neg h2] at hx
      obtain ⟨w, o, hw, ha⟩ := H.noleak a x hx
      refine ⟨w, o, ?_, ha⟩
      rw [ho, if_neg, hw]
      intro hc
      subst hc
      exact h2 (by unfold arr; rw [hw]; exact ha)

/-- A pointer goes from one variable to another one without array. -/
theorem R.steal {s s' : St} {e : Nat → Option G} (H : R s e) {v u : Nat} {q : Obj} {g : G} (hvu : v ≠ u) (hu : s.obj u = some q) (hg : e u = some g)
    (hv : arr s v = none) (hn : s'.next = s.next)
    (ho : ∀ w, s'.obj w = if w = u then some { q with ptr := none } else if w = v then some q else s.obj w)
    (hm : ∀ a, s'.mem a = s.mem a) : R s' (put (put e v (some g)) u (some (GNSet.moved g))) := by
  have hru := H.vars u
  rw [hu, hg] at hru
  refine ⟨fun w => ?_, fun x y o1 q1 a hx hy ha hb => ?_, fun a ha => ?_, fun a x hx => ?_⟩
  · rw [ho w]
    unfold put
    by_cases hw : w = u
    · rw [if_pos hw, if_pos hw]
      exact ⟨hru.1, hru.2.1, rfl, fun a ha => by cases ha⟩
    · rw [if_neg hw, if_neg hw]
      by_cases hw2 : w = v
      · rw [if_pos hw2, if_pos hw2]
        exact ⟨hru.1, hru.2.1, hru.2.2.1, fun a ha => by rw [hm]; exact hru.2.2.2 a ha⟩
      · rw [if_neg hw2, if_neg hw2]
        rcases H.cases w with ⟨h, h'⟩ | ⟨o', g', h, h', hr⟩
        · rw [h, h']; trivial
        · rw [h, h']
          exact ⟨hr.1, hr.2.1, hr.2.2.1, fun a ha => by rw [hm]; exact hr.2.2.2 a ha⟩
  · have key : ∀ z (o1 : Obj), s'.obj z = some o1 → o1.ptr = some a → z ≠ u ∧ ((z = v ∧ q.ptr = some a) ∨ (z ≠ v ∧ s.obj z = some o1)) := by
      intro z o1 hz hz'
      rw [ho] at hz
      by_cases h : z = u
      · rw [if_pos h] at hz; cases hz; cases hz'
      · rw [if_neg h] at hz
        by_cases h2 : z = v
        · rw [if_pos h2] at hz; cases hz; exact ⟨h, .inl ⟨h2, hz'⟩⟩
        · rw [if_neg h2] at hz; exact ⟨h, .inr ⟨h2, hz⟩⟩
    obtain ⟨n1, k1⟩ := key x o1 hx ha
    obtain ⟨n2, k2⟩ := key y q1 hy hb
    rcases k1 with ⟨c1, d1⟩ | ⟨c1, d1⟩ <;> rcases k2 with ⟨c2, d2⟩ | ⟨c2, d2⟩
    · omega
    · exact absurd (H.inj u y q q1 a hu d2 d1 hb) (fun h => n2 h.symm)
    · exact absurd (H.inj x u o1 q a d1 hu ha d2) n1
    · exact H.inj x y o1 q1 a d1 d2 ha hb
  · rw [hm, H.fresh a (by omega)]
  · rw [hm] at hx
    obtain ⟨w, o, hw, ha⟩ := H.noleak a x hx
    by_cases h1 : w = u
    · subst h1
      rw [hu] at hw; cases hw
      exact ⟨v, q, by rw [ho, if_neg hvu, if_pos rfl], ha⟩
    · by_cases h2 : w = v
      · subst h2
        unfold arr at hv
        rw [hw] at hv
        rw [show o.ptr = none from hv] at ha; cases ha
      · exact ⟨w, o, by rw [ho, if_neg h1, if_neg h2, hw], ha⟩

/-! ### Reading, writing, deleting -/

theorem rd_eq {s : St} {p : Option Nat} {n : Nat} {f : Nat → W} (h : ∀ a, p = some a → ∃ t, s.mem a = some (n, t) ∧ ∀ i, i < n → t i = f i)
    (hz : p = none → n = 0) : ∃ t, rd s p n = some t ∧ ∀ i, i < n → t i = f i := by
  unfold rd
  by_cases h0 : n = 0
  · rw [if_pos h0]; exact ⟨_, rfl, fun i hi => by omega⟩
  · rw [if_neg h0]
    cases p with
    | none => exact (h0 (hz rfl)).elim
    | some a =>
      obtain ⟨t, ht, hi⟩ := h a rfl
      exact ⟨t, by simp [ht], hi⟩

theorem rd_null {s : St} {n : Nat} (h : n ≠ 0) : rd s none n = none := by
  unfold rd; rw [if_neg h]; rfl

theorem wr_eq {s : St} {p : Option Nat} {n k : Nat} {x : Nat → W} (t : Nat → W) (h : ∀ a, p = some a → s.mem a = some (n, x)) (hk : k ≤ n)
    (hz : p = none → k = 0) : ∃ s', wr s p k t = some s' ∧ s'.obj = s.obj ∧ s'.next = s.next ∧
      ∀ a, s'.mem a = if p = some a then some (n, fun i => if i < k then t i else x i) else s.mem a := by
  unfold wr
  by_cases h0 : k = 0
  · rw [if_pos h0]
    refine ⟨s, rfl, rfl, rfl, fun a => ?_⟩
    by_cases ha : p = some a
    · rw [if_pos ha, h a ha]; simp [h0]
    · rw [if_neg ha]
  · rw [if_neg h0]
    cases p with
    | none => exact (h0 (hz rfl)).elim
    | some a =>
      have ha := h a rfl
      refine ⟨{ s with mem := put s.mem a (some (n, fun i => if i < k then t i else x i)) }, by simp [ha, hk], rfl, rfl, fun b => ?_⟩
      show put s.mem a _ b = _
      unfold put
      by_cases hb : b = a
      · rw [if_pos hb, if_pos (by rw [hb])]
      · rw [if_neg hb, if_neg (fun hc => hb (by cases hc; rfl))]

theorem del_eq {s : St} {p : Option Nat} (h : ∀ a, p = some a → s.mem a ≠ none) :
    ∃ s', del s p = some s' ∧ s'.obj = s.obj ∧ s'.next = s.next ∧ ∀ a, s'.mem a = if p = some a then none else s.mem a := by
  cases p with
  | none => exact ⟨s, rfl, rfl, rfl, fun a => by rw [if_neg (by simp)]⟩
  | some b =>
    refine ⟨{ s with mem := put s.mem b none }, ?_, rfl, rfl, fun a => ?_⟩
    · unfold del
      simp only
      rw [if_pos]
      have := h b rfl
      cases hm : s.mem b with
      | none => exact (this hm).elim
      | some x => rfl
    · show put s.mem b none a = _
      unfold put
      by_cases hb : a = b
      · rw [if_pos hb, if_pos (by rw [hb])]
      · rw [if_neg hb, if_neg (fun hc => hb (by cases hc; rfl))]

theorem Ref.alive {s : St} {o : Obj} {g : G} (h : Ref s (some o) (some g)) : ∀ a, o.ptr = some a → s.mem a ≠ none := by
  intro a ha
  obtain ⟨t, ht, _⟩ := h.2.2.2 a ha
  rw [ht]; simp

theorem Ref.null {s : St} {o : Obj} {g : G} (h : Ref s (some o) (some g)) (hu : usable g = true) : o.ptr = none → o.mxw = 0 := by
  intro hp
  have h3 := h.2.2.1
  rw [hp] at h3
  unfold usable at hu
  rw [h3, ← h.1] at hu
  simpa using hu

theorem Ref.rd {s : St} {o : Obj} {g : G} (h : Ref s (some o) (some g)) (hu : usable g = true) :
    ∃ t, rd s o.ptr o.mxw = some t ∧ ∀ i, i < o.mxw → t i = g.t i := rd_eq h.2.2.2 (h.null hu)

theorem Ref.bad {s s' : St} {o : Obj} {g : G} (h : Ref s (some o) (some g)) (hu : usable g = false) : o.ptr = none ∧ o.mxw ≠ 0 ∧ GNMem.rd s' o.ptr o.mxw = none := by
  have h3 := h.2.2.1
  unfold usable at hu
  have hn : g.nul = true ∧ g.mxw ≠ 0 := by simpa using hu
  rw [hn.1] at h3
  have hp : o.ptr = none := by cases ho : o.ptr with
    | none => rfl
    | some a => rw [ho] at h3; cases h3
  have : o.mxw ≠ 0 := by rw [h.1]; exact hn.2
  exact ⟨hp, this, by rw [hp]; exact rd_null this⟩

theorem Ref.words {s : St} {o : Obj} {g : G} (h : Ref s (some o) (some g)) : ∃ x, ∀ a, o.ptr = some a → s.mem a = some (o.mxw, x) := by
  cases ho : o.ptr with
  | none => exact ⟨fun _ => 0, fun a ha => by cases ha⟩
  | some b =>
    obtain ⟨t, ht, _⟩ := h.2.2.2 b ho
    exact ⟨t, fun a ha => by cases ha; exact ht⟩

theorem R.notnext {s : St} {e : Nat → Option G} (H : R s e) {v : Nat} {o : Obj} (hv : s.obj v = some o) : o.ptr ≠ some s.next := by
  intro hc
  have h := H.vars v
  rw [hv] at h
  cases hg : e v with
  | none => rw [hg] at h; exact h
  | some g => rw [hg] at h; exact h.alive _ hc (H.fresh _ (Nat.le_refl _))

/-! ### One statement -/

/-- Both runs are undefined, or memory represents the values. -/
def Sim : Option St → Option (Nat → Option G) → Prop
  | none, none => True
  | some s, some e => R s e
  | _, _ => False

theorem sim_new {s : St} {e : Nat → Option G} (H : R s e) (v nb : Nat) : Sim (step s (.new v nb)) (vstep e (.new v nb)) := by
  simp only [step, vstep]
  rcases H.cases v with ⟨h, h'⟩ | ⟨o, g, h, h', hr⟩
  · rw [h, h']
    simp only [Option.isSome_none, Bool.false_eq_true, if_false]
    by_cases h0 : ceil64 nb = 0
    · rw [if_pos h0]
      refine H.gone (o' := some ⟨0, nb, none⟩) rfl (fun w => rfl) (fun a => ?_) (fun q hq => by cases hq; rfl) ?_
      · rw [if_neg]; rfl
        unfold arr; rw [h]; simp
      · refine ⟨by simp [GNSet.new, h0], rfl, by simp [GNSet.new, h0], fun a ha => by cases ha⟩
    · rw [if_neg h0]
      refine H.own (t := fun _ => 0) rfl (fun w => rfl) (fun a => ?_) rfl rfl (by simp [GNSet.new, h0]) (fun i _ => rfl)
      show put s.mem s.next _ a = _
      unfold put arr
      rw [h]; simp
  · rw [h, h']; trivial

theorem sim_copy {s : St} {e : Nat → Option G} (H : R s e) (v u : Nat) : Sim (step s (.copy v u)) (vstep e (.copy v u)) := by
  simp only [step, vstep]
  rcases H.cases v with ⟨h, h'⟩ | ⟨o, g, h, h', hr⟩
  · rw [h, h']
    simp only [Option.isSome_none, Bool.false_eq_true, if_false]
    rcases H.cases u with ⟨k, k'⟩ | ⟨o, g, k, k', hr⟩
    · rw [k, k']; trivial
    · rw [k, k']
      simp only [Option.bind_some]
      cases hu : usable g with
      | false =>
        rw [(hr.bad hu).2.2]
        unfold usable at hu
        have hn : g.nul = true ∧ g.mxw ≠ 0 := by simpa using hu
        rw [show GNSet.copy g = none from by unfold GNSet.copy; rw [if_pos (by simpa using hn)]]
        trivial
      | true =>
        have hc : GNSet.copy g = some { g with nul := false } := by
          unfold GNSet.copy; rw [if_neg]
          unfold usable at hu
          intro hc
          rw [hc.1] at hu
          simp [hc.2] at hu
        rw [hc]
        obtain ⟨t, ht, hi⟩ := rd_eq (s := (alloc s o.mxw (fun _ => 0)).1) (p := o.ptr) (n := o.mxw) (f := g.t) (fun a ha => by
          obtain ⟨t, h1, h2⟩ := hr.2.2.2 a ha
          refine ⟨t, ?_, h2⟩
          show put s.mem s.next _ a = _
          unfold put
          rw [if_neg (fun hc => H.notnext k (by rw [ha, hc])), h1]) (hr.null hu)
        rw [ht]
        obtain ⟨s', hw, w1, w2, w3⟩ := wr_eq (s := (alloc s o.mxw (fun _ => 0)).1) (p := some s.next) (n := o.mxw) (k := o.mxw) (x := fun _ => 0) t
          (fun a ha => by cases ha; show put s.mem s.next _ s.next = _; unfold put; rw [if_pos rfl]) (Nat.le_refl _) (fun hc => by cases hc)
        simp only [Option.bind_some, Option.map_some]
        rw [show (alloc s o.mxw (fun _ => 0)).2 = s.next from rfl, hw]
        refine H.own (t := fun i => if i < o.mxw then t i else 0) w2 (fun w => ?_) (fun a => ?_) hr.1.symm hr.2.1.symm rfl (fun i hlt => ?_)
        · show put s'.obj v _ w = _
          rw [w1]; rfl
        · show s'.mem a = _
          rw [w3]
          show (if _ then _ else put s.mem s.next _ a) = _
          unfold put arr
          rw [h]
          by_cases ha : a = s.next
          · rw [if_pos (by rw [ha]), if_pos ha]
          · rw [if_neg (fun hc => ha (by cases hc; rfl)), if_neg ha, if_neg ha]; simp
        · simp only [hlt, if_true]; exact hi i hlt
  · rw [h, h']; trivial

theorem sim_move {s : St} {e : Nat → Option G} (H : R s e) (v u : Nat) : Sim (step s (.move v u)) (vstep e (.move v u)) := by
  simp only [step, vstep]
  rcases H.cases v with ⟨h, h'⟩ | ⟨o, g, h, h', hr⟩
  · rw [h, h']
    simp only [Option.isSome_none, Bool.false_eq_true, if_false]
    rcases H.cases u with ⟨k, k'⟩ | ⟨o, g, k, k', hr⟩
    · rw [k, k']; trivial
    · rw [k, k']
      have hvu : v ≠ u := fun hc => by rw [hc, k] at h; cases h
      exact H.steal hvu k k' (by unfold arr; rw [h]; rfl) rfl (fun w => rfl) (fun a => rfl)
  · rw [h, h']; trivial

theorem sim_free {s : St} {e : Nat → Option G} (H : R s e) (v : Nat) : Sim (step s (.free v)) (vstep e (.free v)) := by
  simp only [step, vstep]
  rcases H.cases v with ⟨h, h'⟩ | ⟨o, g, h, h', hr⟩
  · rw [h, h']; trivial
  · rw [h, h']
    simp only [Option.bind_some, Option.map_some]
    obtain ⟨s', hd, d1, d2, d3⟩ := del_eq hr.alive
    rw [hd]
    refine H.gone (o' := none) d2 (fun w => ?_) (fun a => ?_) (fun q hq => by cases hq) trivial
    · show put s'.obj v _ w = _
      rw [d1]; rfl
    · show s'.mem a = _
      rw [d3]; unfold arr; rw [h]; rfl

theorem sim_moveAsg {s : St} {e : Nat → Option G} (H : R s e) (v u : Nat) : Sim (step s (.moveAsg v u)) (vstep e (.moveAsg v u)) := by
  simp only [step, vstep]
  rcases H.cases v with ⟨h, h'⟩ | ⟨o, g, h, h', hr⟩
  · rw [h, h']; trivial
  · rw [h, h']
    simp only [Option.bind_some]
    obtain ⟨s', hd, d1, d2, d3⟩ := del_eq hr.alive
    rw [hd]
    simp only [Option.bind_some]
    rw [d1]
    rcases H.cases u with ⟨k, k'⟩ | ⟨q, g', k, k', hr'⟩
    · rw [k, k']; trivial
    · rw [k, k']
      by_cases hvu : v = u
      · subst hvu
        rw [h] at k; cases k
        rw [h'] at k'; cases k'
        have hp : put (put e v (some g)) v (some (GNSet.moved g)) = put e v (some (GNSet.moved g)) := by
          funext w; unfold put; split <;> rfl
        show R _ (put (put e v (some g)) v (some (GNSet.moved g)))
        rw [hp]
        refine H.gone (o' := some { o with ptr := none }) d2 (fun w => ?_) (fun a => ?_) (fun q hq => by cases hq; rfl)
          ⟨hr.1, hr.2.1, rfl, fun a ha => by cases ha⟩
        · show put (put s'.obj v _) v _ w = _
          rw [d1]; unfold put; split <;> rfl
        · show s'.mem a = _
          rw [d3]; unfold arr; rw [h]; rfl
      · have H1 : R (setObj s' v (some { o with ptr := none })) (put e v (some (GNSet.moved g))) := by
          refine H.gone (o' := some { o with ptr := none }) d2 (fun w => ?_) (fun a => ?_) (fun q hq => by cases hq; rfl)
            ⟨hr.1, hr.2.1, rfl, fun a ha => by cases ha⟩
          · show put s'.obj v _ w = _
            rw [d1]; rfl
          · show s'.mem a = _
            rw [d3]; unfold arr; rw [h]; rfl
        have hp : put (put e v (some g')) u (some (GNSet.moved g')) = put (put (put e v (some (GNSet.moved g))) v (some g')) u (some (GNSet.moved g')) := by
          funext w; unfold put
          by_cases h1 : w = u
          · rw [if_pos h1, if_pos h1]
          · rw [if_neg h1, if_neg h1]; split <;> rfl
        show R _ (put (put e v (some g')) u (some (GNSet.moved g')))
        rw [hp]
        refine H1.steal hvu (q := q) ?_ ?_ ?_ rfl (fun w => ?_) (fun a => rfl)
        · show put s'.obj v _ u = _
          unfold put; rw [if_neg (fun hc => hvu hc.symm), d1, k]
        · unfold put; rw [if_neg (fun hc => hvu hc.symm), k']
        · unfold arr
          show (put s'.obj v _ v).bind _ = _
          unfold put; rw [if_pos rfl]; rfl
        · show put (put s'.obj v _) u _ w = if w = u then _ else if w = v then _ else put s'.obj v _ w
          unfold put
          by_cases h1 : w = u
          · rw [if_pos h1, if_pos h1]
          · rw [if_neg h1, if_neg h1]
            by_cases h2 : w = v
            · rw [if_pos h2, if_pos h2]
            · rw [if_neg h2, if_neg h2, if_neg h2]

theorem sim_copyAsg {s : St} {e : Nat → Option G} (H : R s e) (v u : Nat) : Sim (step s (.copyAsg v u)) (vstep e (.copyAsg v u)) := by
  simp only [step, vstep]
  rcases H.cases v with ⟨h, h'⟩ | ⟨o, g, h, h', hr⟩
  · rw [h, h']; trivial
  rcases H.cases u with ⟨k, k'⟩ | ⟨q, g', k, k', hr'⟩
  · rw [h, h', k, k']; trivial
  rw [h, h', k, k']
  simp only [Option.bind_some]
  have hus : usable g' = false → g'.nul = true ∧ g'.mxw ≠ 0 := fun hu => by unfold usable at hu; simpa using hu
  have hus' : usable g' = true → ¬ (g'.nul = true ∧ g'.mxw ≠ 0) := fun hu hc => by unfold usable at hu; simp [hc.1, hc.2] at hu
  by_cases hm : q.mxw = o.mxw
  · rw [if_neg (fun hc => hc hm)]
    simp only [Option.bind_some]
    have hmg : g'.mxw = g.mxw := by rw [← hr.1, ← hr'.1, hm]
    have hass : GNSet.assign g g' = if g'.mxw ≠ 0 ∧ (g.nul ∨ g'.nul) then none else some { g' with nul := g.nul } := by
      unfold GNSet.assign
      simp only [hmg, ne_eq, not_true, if_false]
    cases hu : usable g' with
    | false =>
      rw [(hr'.bad hu).2.2, hass, if_pos ⟨(hus hu).2, .inr (hus hu).1⟩]
      trivial
    | true =>
      obtain ⟨t, ht, hi⟩ := hr'.rd hu
      rw [ht]
      simp only [Option.bind_some]
      cases hu2 : usable g with
      | false =>
        obtain ⟨b1, b2, _⟩ := hr.bad (s' := s) hu2
        have hn : g.nul = true ∧ g.mxw ≠ 0 := by unfold usable at hu2; simpa using hu2
        rw [hass, if_pos ⟨by rw [hmg]; exact hn.2, .inl hn.1⟩]
        rw [show wr s o.ptr q.mxw t = none from by unfold wr; rw [if_neg (by rw [hm]; exact b2), b1]; rfl]
        trivial
      | true =>
        have hn : ¬ (g'.mxw ≠ 0 ∧ (g.nul = true ∨ g'.nul = true)) := by
          rintro ⟨c1, c2⟩
          rcases c2 with c2 | c2
          · unfold usable at hu2; rw [hmg] at c1; simp [c1, c2] at hu2
          · exact hus' hu ⟨c2, c1⟩
        rw [hass, if_neg hn]
        obtain ⟨x, hx⟩ := hr.words
        obtain ⟨s', hw, w1, w2, w3⟩ := wr_eq (k := q.mxw) t hx (by omega) (fun hc => by rw [hm]; exact hr.null hu2 hc)
        rw [hw]
        refine H.inplace h w2 (nb := q.nbp) (fun w => ?_) w3 (by rw [← hm]; exact hr'.1.symm) hr'.2.1.symm hr.2.2.1 (fun i hlt => ?_)
        · show put s'.obj v _ w = _
          rw [w1, hm]; rfl
        · simp only [hm, hlt, if_true]; exact hi i (by omega)
  · rw [if_pos hm]
    have huv : u ≠ v := fun hc => by rw [hc, h] at k; cases k; exact hm rfl
    have hmg : g'.mxw ≠ g.mxw := by rw [← hr.1, ← hr'.1]; exact hm
    have hass : GNSet.assign g g' = if g'.mxw ≠ 0 ∧ g'.nul then none else some { g' with nul := false } := by
      unfold GNSet.assign
      simp [hmg]
    obtain ⟨s1, hd, d1, d2, d3⟩ := del_eq hr.alive
    rw [hd]
    simp only [Option.map_some, Option.bind_some]
    cases hu : usable g' with
    | false =>
      rw [(hr'.bad hu).2.2, hass, if_pos ⟨(hus hu).2, (hus hu).1⟩]
      trivial
    | true =>
      rw [hass, if_neg (fun hc => hus' hu ⟨hc.2, hc.1⟩)]
      have hal : ∀ a, (alloc s1 q.mxw (fun _ => 0)).1.mem a = if a = s.next then some (q.mxw, fun _ => 0) else if o.ptr = some a then none else s.mem a := by
        intro a
        show put s1.mem s1.next _ a = _
        unfold put
        rw [d2, d3]
      obtain ⟨t, ht, hi⟩ := rd_eq (s := (alloc s1 q.mxw (fun _ => 0)).1) (p := q.ptr) (n := q.mxw) (f := g'.t) (fun a ha => by
        obtain ⟨t, h1, h2⟩ := hr'.2.2.2 a ha
        refine ⟨t, ?_, h2⟩
        rw [hal, if_neg (fun hc => H.notnext k (by rw [ha, hc])), if_neg (fun hc => huv (H.inj u v q o a k h ha hc)), h1]) (hr'.null hu)
      rw [ht]
      obtain ⟨s', hw, w1, w2, w3⟩ := wr_eq (s := (alloc s1 q.mxw (fun _ => 0)).1) (p := some s.next) (n := q.mxw) (k := q.mxw) (x := fun _ => 0) t
        (fun a ha => by cases ha; rw [hal, if_pos rfl]) (Nat.le_refl _) (fun hc => by cases hc)
      simp only [Option.bind_some, Option.map_some]
      rw [show (alloc s1 q.mxw (fun _ => 0)).2 = s.next from d2, hw]
      refine H.own (t := fun i => if i < q.mxw then t i else 0) (by rw [← d2]; exact w2) (fun w => ?_) (fun a => ?_) hr'.1.symm hr'.2.1.symm rfl (fun i hlt => ?_)
      · show put s'.obj v _ w = _
        rw [w1]
        show put s1.obj v _ w = _
        rw [d1]; rfl
      · show s'.mem a = _
        rw [w3, hal]
        unfold arr
        rw [h]
        by_cases ha : a = s.next
        · rw [if_pos (by rw [ha]), if_pos ha]
        · rw [if_neg (fun hc => ha (by cases hc; rfl)), if_neg ha, if_neg ha]; rfl
      · simp only [hlt, if_true]; exact hi i hlt

theorem grow_gt {i : Nat} : ∀ f m k, grow i f m = some k → i < k := by
  intro f
  induction f with
  | zero => intro m k h; cases h
  | succ f ih =>
    intro m k h
    unfold grow at h
    by_cases hc : m ≤ i
    · rw [if_pos hc] at h; exact ih _ _ h
    · rw [if_neg hc] at h; cases h; omega

theorem sim_insert {s : St} {e : Nat → Option G} (H : R s e) (v p : Nat) : Sim (step s (.insert v p)) (vstep e (.insert v p)) := by
  simp only [step, vstep]
  rcases H.cases v with ⟨h, h'⟩ | ⟨o, g, h, h', hr⟩
  · rw [h, h']; trivial
  rw [h, h']
  simp only [Option.bind_some]
  cases hu : usable g with
  | false =>
    simp only [Bool.false_eq_true, if_false]
    by_cases hm : o.mxw ≤ p / 64
    · rw [if_pos hm]
      cases grow (p / 64) 17 o.mxw with
      | none => trivial
      | some m =>
        simp only [Option.bind_some]
        rw [(hr.bad hu).2.2]; trivial
    · rw [if_neg hm]
      simp only [Option.bind_some]
      rw [(hr.bad hu).2.2]; trivial
  | true =>
    simp only [if_true]
    unfold GNSet.insert
    simp only []
    rw [← hr.1]
    by_cases hm : o.mxw ≤ p / 64
    · rw [if_pos hm, if_pos hm]
      cases hg : grow (p / 64) 17 o.mxw with
      | none => trivial
      | some m =>
        have hgt := grow_gt _ _ _ hg
        have hal : ∀ a, (alloc s m (fun _ => 0)).1.mem a = if a = s.next then some (m, fun _ => 0) else s.mem a := fun a => rfl
        obtain ⟨t, ht, hi⟩ := rd_eq (s := (alloc s m (fun _ => 0)).1) (p := o.ptr) (n := o.mxw) (f := g.t) (fun a ha => by
          obtain ⟨t, h1, h2⟩ := hr.2.2.2 a ha
          exact ⟨t, by rw [hal, if_neg (fun hc => H.notnext h (by rw [ha, hc])), h1], h2⟩) (hr.null hu)
        obtain ⟨s2, hw, w1, w2, w3⟩ := wr_eq (s := (alloc s m (fun _ => 0)).1) (p := some s.next) (n := m) (k := m) (x := fun _ => 0)
          (fun i => if i < o.mxw then t i else 0) (fun a ha => by cases ha; rw [hal, if_pos rfl]) (Nat.le_refl _) (fun hc => by cases hc)
        obtain ⟨s3, hd, d1, d2, d3⟩ := del_eq (s := s2) (p := o.ptr) (fun a ha => by
          rw [w3, hal]
          by_cases hc : a = s.next
          · exact absurd ha (by rw [hc]; exact H.notnext h)
          · rw [if_neg (fun hc' => hc (by cases hc'; rfl)), if_neg hc]; exact hr.alive a ha)
        simp only [Option.bind_some, Option.map_some]
        rw [ht]
        simp only [Option.bind_some]
        rw [show (alloc s m (fun _ => 0)).2 = s.next from rfl, hw]
        simp only [Option.bind_some]
        rw [hd]
        simp only [Option.bind_some, Option.map_some]
        have hs3 : s3.mem s.next = some (m, fun i => if i < m then (if i < o.mxw then t i else 0) else 0) := by
          rw [d3, if_neg (H.notnext h), w3, if_pos rfl]
        obtain ⟨t2, ht2, hi2⟩ := rd_eq (s := s3) (p := some s.next) (n := m) (f := fun i => if i < o.mxw then t i else 0) (fun a ha => by
          cases ha; exact ⟨_, hs3, fun i hi => by simp only [hi, if_true]⟩) (fun hc => by cases hc)
        rw [ht2]
        obtain ⟨s4, hw4, x1, x2, x3⟩ := wr_eq (s := s3) (p := some s.next) (n := m) (k := m) (upd t2 (p / 64) (t2 (p / 64) ||| bit (p % 64))) (fun a ha => by
          cases ha; exact hs3) (Nat.le_refl _) (fun hc => by cases hc)
        simp only [Option.bind_some, Option.map_some]
        rw [hw4]
        refine H.own (v := v) (m := m) (nb := max o.nbp (p % 2 ^ 16)) (t := fun i => if i < m then upd t2 (p / 64) (t2 (p / 64) ||| bit (p % 64)) i else
            (if i < m then (if i < o.mxw then t i else 0) else 0)) (by
            show s4.next = _
            rw [x2, d2, w2]; rfl) (fun w => ?_) (fun a => ?_) rfl (by rw [hr.2.1]) rfl (fun i hlt => ?_)
        · show put s4.obj v _ w = _
          rw [x1, d1, w1]; rfl
        · show s4.mem a = _
          rw [x3, d3, w3, hal]
          unfold arr
          rw [h]
          by_cases ha : a = s.next
          · rw [if_pos (by rw [ha]), if_pos ha]
          · have hne : ¬ some s.next = some a := fun hc => ha (by cases hc; rfl)
            rw [if_neg hne, if_neg ha, if_neg hne, if_neg ha]; rfl
        · simp only [hlt, if_true]
          have e1 : ∀ j, j < m → t2 j = if j < o.mxw then g.t j else 0 := by
            intro j hj
            rw [hi2 j hj]
            by_cases hc : j < o.mxw
            · rw [if_pos hc, if_pos hc, hi j hc]
            · rw [if_neg hc, if_neg hc]
          unfold upd
          split
          · rw [e1 _ hgt]
          · rw [e1 i hlt]
    · rw [if_neg hm, if_neg hm]
      have hnn : g.nul = false := by
        cases hc : g.nul with
        | false => rfl
        | true =>
          unfold usable at hu; rw [hc, ← hr.1] at hu
          have : o.mxw = 0 := by simpa using hu
          omega
      rw [hnn]
      simp only [Bool.false_eq_true, if_false, Option.bind_some, Option.map_some]
      obtain ⟨t, ht, hi⟩ := hr.rd hu
      rw [ht]
      obtain ⟨x, hx⟩ := hr.words
      obtain ⟨s4, hw4, x1, x2, x3⟩ := wr_eq (k := o.mxw) (upd t (p / 64) (t (p / 64) ||| bit (p % 64))) hx (Nat.le_refl _) (hr.null hu)
      simp only [Option.bind_some]
      rw [hw4]
      refine H.inplace h (nb := max o.nbp (p % 2 ^ 16)) x2 (fun w => ?_) x3 hr.1.symm (by rw [hr.2.1]) hr.2.2.1 (fun i hlt => ?_)
      · show put s4.obj v _ w = _
        rw [x1]; rfl
      · simp only [hlt, if_true]
        unfold upd
        split
        · rw [hi _ (by omega)]
        · rw [hi i hlt]

/-- The functions in place read and write the first `mxw` words only. -/
theorem val_congr (f : In) {a b c d : G} (h1 : a.mxw = b.mxw) (h2 : a.nbp = b.nbp) (h3 : a.nul = b.nul) (h4 : ∀ i, i < b.mxw → a.t i = b.t i)
    (k1 : c.mxw = d.mxw) (k4 : ∀ i, i < d.mxw → c.t i = d.t i) :
    (f.val a c = none ∧ f.val b d = none) ∨ ∃ x y, f.val a c = some x ∧ f.val b d = some y ∧ y.mxw = b.mxw ∧ y.nbp = b.nbp ∧ y.nul = b.nul ∧
      ∀ i, i < b.mxw → x.t i = y.t i := by
  obtain ⟨n, nb, nu, t⟩ := a
  obtain ⟨n1, nb1, nu1, t1⟩ := b
  simp only at h1 h2 h3 h4
  subst h1; subst h2; subst h3
  cases f with
  | clear =>
    simp only [In.val, GNSet.clear, GNSet.sh]
    by_cases hn : n < 2 ^ 15
    · rw [if_pos hn, if_pos hn]
      exact .inr ⟨_, _, rfl, rfl, rfl, rfl, rfl, fun i hi => by simp only [each_apply, hi, if_true]⟩
    · rw [if_neg hn, if_neg hn]; exact .inl ⟨rfl, rfl⟩
  | complement =>
    simp only [In.val, GNSet.complement, GNSet.sh]
    by_cases hn : n < 2 ^ 15
    · rw [if_pos hn, if_pos hn]
      exact .inr ⟨_, _, rfl, rfl, rfl, rfl, rfl, fun i hi => by simp only [each_apply, hi, if_true, h4 i hi]⟩
    · rw [if_neg hn, if_neg hn]; exact .inl ⟨rfl, rfl⟩
  | remove p =>
    simp only [In.val, GNSet.remove]
    by_cases hn : p / 64 < n
    · rw [if_pos hn, if_pos hn]
      refine .inr ⟨_, _, rfl, rfl, rfl, rfl, rfl, fun i hi => ?_⟩
      simp only [upd]
      split
      · rw [h4 _ hn]
      · exact h4 i hi
    · rw [if_neg hn, if_neg hn]; exact .inr ⟨_, _, rfl, rfl, rfl, rfl, rfl, h4⟩
  | inter =>
    simp only [In.val, GNSet.interWith, GNSet.sh]
    by_cases hn : n < 2 ^ 15
    · rw [if_pos hn, if_pos hn]
      refine .inr ⟨_, _, rfl, rfl, rfl, rfl, rfl, fun i hi => ?_⟩
      simp only [each_apply, k1]
      by_cases hc : i < d.mxw
      · rw [h4 i hi, k4 i hc]
      · rw [if_pos ⟨by omega, hi⟩, if_pos ⟨by omega, hi⟩]
    · rw [if_neg hn, if_neg hn]; exact .inl ⟨rfl, rfl⟩
  | diff =>
    simp only [In.val, GNSet.diffWith, GNSet.sh, k1]
    by_cases hn : min n d.mxw < 2 ^ 15
    · rw [if_pos hn, if_pos hn]
      refine .inr ⟨_, _, rfl, rfl, rfl, rfl, rfl, fun i hi => ?_⟩
      simp only [each_apply]
      by_cases hc : i < min n d.mxw
      · rw [if_pos hc, if_pos hc, h4 i hi, k4 i (by omega)]
      · rw [if_neg hc, if_neg hc, h4 i hi]
    · rw [if_neg hn, if_neg hn]; exact .inl ⟨rfl, rfl⟩
  | removeAbove p =>
    simp only [In.val, GNSet.removeAbove]
    by_cases hb : nb < p + 1
    · rw [if_pos hb, if_pos hb]; exact .inr ⟨_, _, rfl, rfl, rfl, rfl, rfl, h4⟩
    · rw [if_neg hb, if_neg hb]
      by_cases hn : (p + 1) / 64 < n
      · rw [if_pos hn, if_pos hn]
        refine .inr ⟨_, _, rfl, rfl, rfl, rfl, rfl, fun i hi => ?_⟩
        simp only [h4 _ hn, h4 i hi]
      · rw [if_neg hn, if_neg hn]; exact .inl ⟨rfl, rfl⟩

theorem put_self {s : St} {o : Obj} {v : Nat} (h : s.obj v = some o) (w : Nat) : s.obj w = if w = v then some ⟨o.mxw, o.nbp, o.ptr⟩ else s.obj w := by
  split
  · rename_i hw; rw [hw, h]
  · rfl

theorem sim_inpl {s : St} {e : Nat → Option G} (H : R s e) (v u : Nat) (f : In) : Sim (step s (.inpl v u f)) (vstep e (.inpl v u f)) := by
  simp only [step, vstep]
  rcases H.cases v with ⟨h, h'⟩ | ⟨o, g, h, h', hr⟩
  · rw [h, h']; trivial
  rcases H.cases u with ⟨k, k'⟩ | ⟨q, g', k, k', hr'⟩
  · rw [h, h', k, k']; trivial
  rw [h, h', k, k']
  simp only [Option.bind_some]
  cases hu : usable g with
  | false => rw [(hr.bad hu).2.2]; trivial
  | true =>
    obtain ⟨t, ht, hi⟩ := hr.rd hu
    rw [ht]
    simp only [Option.bind_some]
    cases hu' : usable g' with
    | false => rw [(hr'.bad hu').2.2]; trivial
    | true =>
      obtain ⟨t', ht', hi'⟩ := hr'.rd hu'
      rw [ht']
      simp only [Option.bind_some, Bool.and_self, if_true]
      rcases val_congr f (a := ⟨o.mxw, o.nbp, o.ptr.isNone, t⟩) (b := g) (c := ⟨q.mxw, q.nbp, q.ptr.isNone, t'⟩) (d := g') hr.1 hr.2.1 hr.2.2.1.symm
        (by rw [← hr.1]; exact hi) hr'.1 (by rw [← hr'.1]; exact hi') with ⟨c1, c2⟩ | ⟨x, y, c1, c2, y1, y2, y3, y4⟩
      · rw [c1, c2]; trivial
      · rw [c1, c2]
        obtain ⟨z, hz⟩ := hr.words
        obtain ⟨s', hw, w1, w2, w3⟩ := wr_eq (k := o.mxw) x.t hz (Nat.le_refl _) (hr.null hu)
        simp only [Option.bind_some, Option.map_some]
        rw [hw]
        refine H.inplace h (nb := o.nbp) w2 (fun w => ?_) w3 (by rw [y1, hr.1]) (by rw [y2, hr.2.1]) (by rw [y3, hr.2.2.1]) (fun i hlt => ?_)
        · rw [w1]; exact put_self h w
        · simp only [hlt, if_true]; exact y4 i (by rw [← hr.1]; exact hlt)

theorem sim_union {s : St} {e : Nat → Option G} (H : R s e) (v u : Nat) : Sim (step s (.union v u)) (vstep e (.union v u)) := by
  simp only [step, vstep]
  rcases H.cases v with ⟨h, h'⟩ | ⟨o, g, h, h', hr⟩
  · rw [h, h']; trivial
  rcases H.cases u with ⟨k, k'⟩ | ⟨q, g', k, k', hr'⟩
  · rw [h, h', k, k']; trivial
  rw [h, h', k, k']
  simp only [Option.bind_some]
  cases hu : usable g with
  | false => rw [(hr.bad hu).2.2]; trivial
  | true =>
    obtain ⟨t, ht, hi⟩ := hr.rd hu
    rw [ht]
    simp only [Option.bind_some]
    cases hu' : usable g' with
    | false => rw [(hr'.bad hu').2.2]; trivial
    | true =>
      obtain ⟨t', ht', hi'⟩ := hr'.rd hu'
      rw [ht']
      simp only [Option.bind_some, Bool.and_self, if_true]
      unfold GNSet.unionWith GNSet.sh
      simp only []
      rw [← hr.1, ← hr'.1]
      by_cases hq : q.mxw < 2 ^ 15
      · rw [if_pos hq]
        obtain ⟨z, hz⟩ := hr.words
        obtain ⟨s1, hw, w1, w2, w3⟩ := wr_eq (k := min o.mxw q.mxw) (fun i => t i ||| t' i) hz (by omega) (fun hc => by rw [hr.null hu hc]; omega)
        rw [hw]
        simp only [Option.bind_some]
        have hzt : ∀ a, o.ptr = some a → ∀ i, i < o.mxw → z i = g.t i := by
          intro a ha i hlt
          obtain ⟨t3, h3, h4⟩ := hr.2.2.2 a ha
          rw [hz a ha] at h3; cases h3
          exact h4 i hlt
        by_cases hlt : o.mxw < q.mxw
        · rw [if_pos hlt, if_pos hlt, if_pos hq]
          have hal : ∀ a, (alloc s1 q.mxw (fun _ => 0)).1.mem a = if a = s.next then some (q.mxw, fun _ => 0) else s1.mem a := by
            intro a
            show put s1.mem s1.next _ a = _
            unfold put; rw [w2]
          have hnn := H.notnext h
          obtain ⟨t1, ht1, hi1⟩ := rd_eq (s := (alloc s1 q.mxw (fun _ => 0)).1) (p := o.ptr) (n := o.mxw) (f := fun i => g.t i ||| g'.t i) (fun a ha => by
            refine ⟨_, by rw [hal, if_neg (fun hc => hnn (by rw [ha, hc])), w3, if_pos ha], fun i hlt' => ?_⟩
            simp only [show i < min o.mxw q.mxw by omega, if_true]
            rw [hi i hlt', hi' i (by omega)]) (hr.null hu)
          rw [ht1]
          obtain ⟨s3, hw3, x1, x2, x3⟩ := wr_eq (s := (alloc s1 q.mxw (fun _ => 0)).1) (p := some s.next) (n := q.mxw) (k := q.mxw) (x := fun _ => 0)
            (fun i => if i < o.mxw then t1 i else t' i) (fun a ha => by cases ha; rw [hal, if_pos rfl]) (Nat.le_refl _) (fun hc => by cases hc)
          simp only [Option.bind_some]
          rw [show (alloc s1 q.mxw (fun _ => 0)).2 = s.next from w2, hw3]
          obtain ⟨s4, hd, d1, d2, d3⟩ := del_eq (s := s3) (p := o.ptr) (fun a ha => by
            have hne : ¬ a = s.next := fun hc => hnn (by rw [ha, hc])
            rw [x3, if_neg (fun hc => hne (by cases hc; rfl)), hal, if_neg hne, w3, if_pos ha]; simp)
          simp only [Option.bind_some]
          rw [hd]
          refine H.own (t := fun i => if i < q.mxw then (if i < o.mxw then t1 i else t' i) else 0) (by
            show s4.next = _
            rw [d2, x2]
            show s1.next + 1 = _
            rw [w2]) (fun w => ?_) (fun a => ?_) rfl hr'.2.1.symm rfl (fun i hi2 => ?_)
          · show put s4.obj v _ w = _
            rw [d1, x1]
            show put s1.obj v _ w = _
            rw [w1]; rfl
          · show s4.mem a = _
            rw [d3, x3, hal, w3]
            unfold arr
            rw [h]
            by_cases ha : a = s.next
            · rw [if_neg (by rw [ha]; exact hnn), if_pos (by rw [ha]), if_pos ha]
            · have hne : ¬ some s.next = some a := fun hc => ha (by cases hc; rfl)
              rw [if_neg hne, if_neg ha, if_neg ha]
              show (if o.ptr = some a then _ else _) = if o.ptr = some a then _ else _
              by_cases hp : o.ptr = some a
              · rw [if_pos hp, if_pos hp]
              · rw [if_neg hp, if_neg hp, if_neg hp]
          · simp only [hi2, if_true, each_apply]
            by_cases hc : i < o.mxw
            · rw [if_pos hc, if_pos hc, if_pos (by omega), hi1 i hc]
            · rw [if_neg hc, if_neg hc, hi' i hi2]
        · rw [if_neg hlt, if_neg hlt, if_pos (by omega)]
          refine H.inplace h (nb := o.nbp) w2 (fun w => ?_) w3 rfl hr.2.1.symm hr.2.2.1 (fun i hi2 => ?_)
          · rw [w1]; exact put_self h w
          · simp only [each_apply]
            by_cases hc : i < min o.mxw q.mxw
            · rw [if_pos hc, if_pos hc, hi i hi2, hi' i (by omega)]
            · rw [if_neg hc, if_neg hc]
              cases hp : o.ptr with
              | none => have := hr.null hu hp; omega
              | some a => exact hzt a hp i hi2
      · rw [if_neg hq]
        by_cases hlt : o.mxw < q.mxw
        · rw [if_pos hlt, if_neg hq]; trivial
        · rw [if_neg hlt, if_neg (by omega)]; trivial

theorem sim_step {s : St} {e : Nat → Option G} (H : R s e) (o : Op) : Sim (step s o) (vstep e o) := by
  cases o with
  | new v nb => exact sim_new H v nb
  | copy v u => exact sim_copy H v u
  | move v u => exact sim_move H v u
  | copyAsg v u => exact sim_copyAsg H v u
  | moveAsg v u => exact sim_moveAsg H v u
  | insert v p => exact sim_insert H v p
  | inpl v u f => exact sim_inpl H v u f
  | union v u => exact sim_union H v u
  | free v => exact sim_free H v

/-- Every program over sets does in memory what it does on values, and is undefined in memory only if it is on values. -/
theorem run_values (ops : List Op) : ∀ {s : St} {e : Nat → Option G}, R s e → Sim (run s ops) (vrun e ops) := by
  induction ops with
  | nil => intro s e H; exact H
  | cons o os ih =>
    intro s e H
    have h := sim_step H o
    show Sim ((step s o).bind _) ((vstep e o).bind _)
    cases h1 : step s o with
    | none => cases h2 : vstep e o with
      | none => trivial
      | some e' => rw [h1, h2] at h; exact h.elim
    | some s' => cases h2 : vstep e o with
      | none => rw [h1, h2] at h; exact h.elim
      | some e' => rw [h1, h2] at h; exact ih h

theorem run_R {ops : List Op} {s : St} (h : run St.empty ops = some s) : ∃ e, vrun (fun _ => none) ops = some e ∧ R s e := by
  have h1 := run_values ops R.empty
  rw [h] at h1
  cases h2 : vrun (fun _ => none) ops with
  | none => rw [h2] at h1; exact h1.elim
  | some e => rw [h2] at h1; exact ⟨e, rfl, h1⟩

end Verif.GNMem
