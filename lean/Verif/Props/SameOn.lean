import Verif.Props.Same
/-!
# The states' own equality, on the states a run can meet

`Hom` (C109) asks its equations of every value of the state type.  Here they are asked only of the states
satisfying an invariant that the user's functions keep.
-/
namespace Verif.DD
variable {σ κ : Type}

/-- The invariant holds at the root and the sink, and transitions and merges keep it. -/
structure Kept (P : σ → Prop) (m : Mdl σ) : Prop where
  sti : P m.sti
  stt : P m.stt
  stf : ∀ s l t, P s → m.stf s l = some t → P t
  smf : ∀ a b c, P a → P b → m.smf a b = some c → P c

/-- `Hom`, asked only of the states satisfying `P`. -/
structure HomOn (P : σ → Prop) (f : σ → κ) (m : Mdl σ) (k : Mdl κ) : Prop where
  sense : k.sense = m.sense
  sti : k.sti = f m.sti
  stt : k.stt = f m.stt
  lgf : ∀ s, P s → k.lgf (f s) = m.lgf s
  stf : ∀ s l, P s → k.stf (f s) l = (m.stf s l).map f
  stc : ∀ s l, P s → k.stc (f s) l = m.stc s l
  smf : ∀ a b, P a → P b → k.smf (f a) (f b) = (m.smf a b).map f
  eqs : ∀ s, P s → k.eqs (f s) = m.eqs s
  loc : (m.loc.isSome = k.loc.isSome) ∧ ∀ h h', m.loc = some h → k.loc = some h' → ∀ s c, P s → h s c = h' (f s) c
  sdom : (m.sdom.isSome = k.sdom.isSome) ∧ ∀ h h', m.sdom = some h → k.sdom = some h' → ∀ a b, P a → P b → h a b = h' (f a) (f b)

/-- The model on the states satisfying the invariant. -/
def Mdl.sub (m : Mdl σ) {P : σ → Prop} (hP : Kept P m) : Mdl {s // P s} where
  sense := m.sense
  sti := ⟨m.sti, hP.sti⟩
  stt := ⟨m.stt, hP.stt⟩
  lgf := fun s => m.lgf s.1
  stf := fun s l => (m.stf s.1 l).pmap Subtype.mk fun t ht => hP.stf s.1 l t s.2 ht
  stc := fun s l => m.stc s.1 l
  smf := fun a b => (m.smf a.1 b.1).pmap Subtype.mk fun t ht => hP.smf a.1 b.1 t a.2 b.2 ht
  eqs := fun s => m.eqs s.1
  loc := m.loc.map fun h s c => h s.1 c
  sdom := m.sdom.map fun h a b => h a.1 b.1

theorem pmap_val {P : σ → Prop} (o : Option σ) (h : ∀ t, o = some t → P t) : o = (o.pmap Subtype.mk h).map Subtype.val := by
  cases o <;> rfl

theorem Mdl.sub_val (m : Mdl σ) {P : σ → Prop} (hP : Kept P m) : Hom Subtype.val (m.sub hP) m where
  sense := rfl
  sti := rfl
  stt := rfl
  lgf := fun _ => rfl
  stf := fun _ _ => pmap_val _ _
  stc := fun _ _ => rfl
  smf := fun _ _ => pmap_val _ _
  eqs := fun _ => rfl
  loc := rfl
  sdom := rfl

theorem pmap_map {P : σ → Prop} (f : σ → κ) (o : Option σ) (h : ∀ t, o = some t → P t) :
    o.map f = (o.pmap Subtype.mk h).map (fun s => f s.1) := by
  cases o <;> rfl

theorem HomOn.sub {P : σ → Prop} {f : σ → κ} {m : Mdl σ} {k : Mdl κ} (hf : HomOn P f m k) (hP : Kept P m) :
    Hom (fun s : {s // P s} => f s.1) (m.sub hP) k where
  sense := hf.sense
  sti := hf.sti
  stt := hf.stt
  lgf := fun s => hf.lgf s.1 s.2
  stf := fun s l => (hf.stf s.1 l s.2).trans (pmap_map f _ _)
  stc := fun s l => hf.stc s.1 l s.2
  smf := fun a b => (hf.smf a.1 b.1 a.2 b.2).trans (pmap_map f _ _)
  eqs := fun s => hf.eqs s.1 s.2
  loc := by
    obtain ⟨h1, h2⟩ := hf.loc
    show m.loc.map _ = _
    cases hm : m.loc with
    | none => rw [hm] at h1; cases hk : k.loc with
      | none => rfl
      | some _ => rw [hk] at h1; cases h1
    | some h => rw [hm] at h1; cases hk : k.loc with
      | none => rw [hk] at h1; cases h1
      | some h' => exact congrArg some (funext fun s => funext fun c => h2 h h' hm hk s.1 c s.2)
  sdom := by
    obtain ⟨h1, h2⟩ := hf.sdom
    show m.sdom.map _ = _
    cases hm : m.sdom with
    | none => rw [hm] at h1; cases hk : k.sdom with
      | none => rfl
      | some _ => rw [hk] at h1; cases h1
    | some h => rw [hm] at h1; cases hk : k.sdom with
      | none => rw [hk] at h1; cases h1
      | some h' => exact congrArg some (funext fun a => funext fun b => h2 h h' hm hk a.1 b.1 a.2 b.2)

end Verif.DD

namespace Verif.Ex
open Verif.DD

/-- C109 on an invariant, for any way `κ` has of telling states apart. -/
theorem state_equality_via {σ κ : Type} [Same κ] {P : σ → Prop} {f : σ → κ} {n : Nat} {eqv : σ → σ → Bool} {hash : σ → Nat} {m : Mdl σ} {k : Mdl κ}
    (hP : Kept P m) (hf : HomOn P f m k) (hS : ∀ a b, P a → P b → Same.same (f a) (f b) = (tabSame n eqv hash).same a b)
    (w fu : Nat) (lim : Nat → Bool) (N : Nat) (p0 : Int) :
    (@BB.search σ (tabSame n eqv hash) m w fu lim N p0).map (fun s => (s.primal, s.inc, s.sols, s.stopped, s.wrel, s.log, s.pq)) =
      (BB.search k w fu lim N p0).map (fun s => (s.primal, s.inc, s.sols, s.stopped, s.wrel, s.log, s.pq)) := by
  let eq' : {s // P s} → {s // P s} → Bool := fun a b => eqv a.1 b.1
  let ha' : {s // P s} → Nat := fun a => hash a.1
  have h1 := @BB.searchT_map _ _ _ _ _ (tabSame n eq' ha') (tabSame n eqv hash) (fun _ _ => rfl) (m.sub_val hP)
    (fun _ _ => m.sub hP) (fun _ _ => m) (fun _ _ => m.sub_val hP) (fun _ _ => (m.sub hP).loc) (fun _ _ => m.loc)
    (fun _ _ => (m.sub_val hP).loc) w fu lim N p0
  have h2 := @BB.searchT_map _ _ _ _ _ (tabSame n eq' ha') _ (fun a b => hS a.1 b.1 a.2 b.2) (hf.sub hP)
    (fun _ _ => m.sub hP) (fun _ _ => k) (fun _ _ => hf.sub hP) (fun _ _ => (m.sub hP).loc) (fun _ _ => k.loc)
    (fun _ _ => (hf.sub hP).loc) w fu lim N p0
  unfold BB.search BB.searchP
  rw [h1, h2, Option.map_map, Option.map_map]
  rfl

variable {σ κ : Type} [DecidableEq κ] {P : σ → Prop} {f : σ → κ} {n : Nat} {eqv : σ → σ → Bool} {hash : σ → Nat}

/-- C109 on an invariant: if, on the states satisfying `P`, equality compares exactly what `f` keeps, equal states
have equal hashes, and the user's functions act through `f`, then the search over the hash tables is the search on
the kept parts. -/
theorem state_equality_on {m : Mdl σ} {k : Mdl κ} (hP : Kept P m) (hf : HomOn P f m k)
    (he : ∀ a b, P a → P b → (eqv a b = true ↔ f a = f b)) (hh : ∀ a b, P a → P b → f a = f b → hash a = hash b)
    (w fu : Nat) (lim : Nat → Bool) (N : Nat) (p0 : Int) :
    (@BB.search σ (tabSame n eqv hash) m w fu lim N p0).map (fun s => (s.primal, s.inc, s.sols, s.stopped, s.wrel, s.log, s.pq)) =
      (BB.search k w fu lim N p0).map (fun s => (s.primal, s.inc, s.sols, s.stopped, s.wrel, s.log, s.pq)) :=
  state_equality_via hP hf (fun a b ha hb =>
    tabSame_same (f := fun s : {s // P s} => f s.1) (eqv := fun a b => eqv a.1 b.1) (hash := fun a => hash a.1)
      (fun a b => he a.1 b.1 a.2 b.2) (fun a b => hh a.1 b.1 a.2 b.2) ⟨a, ha⟩ ⟨b, hb⟩) w fu lim N p0

/-- The same for one relaxed diagram. -/
theorem state_equality_relaxed_on {m : Mdl σ} {k : Mdl κ} (hP : Kept P m) (hf : HomOn P f m k)
    (he : ∀ a b, P a → P b → (eqv a b = true ↔ f a = f b)) (hh : ∀ a b, P a → P b → f a = f b → hash a = hash b)
    (p : Int) (w fu : Nat) {r : Src σ} (hr : P r.st) :
    (@relaxed σ (tabSame n eqv hash) m p w fu r).map (fun g => (g.bound g.trg, g.lab g.trg, g.exact, cutSet g)) =
      (relaxed k p w fu ⟨f r.st, r.lab, r.bound, r.bb⟩).map (fun g => (g.bound g.trg, g.lab g.trg, g.exact, cutSet g)) := by
  let eq' : {s // P s} → {s // P s} → Bool := fun a b => eqv a.1 b.1
  let ha' : {s // P s} → Nat := fun a => hash a.1
  let r' : Src {s // P s} := ⟨⟨r.st, hr⟩, r.lab, r.bound, r.bb⟩
  have h1 := @relaxed_map _ _ _ _ _ (tabSame n eq' ha') (tabSame n eqv hash) (fun _ _ => rfl) (m.sub_val hP) p w fu r'
  have h2 := @relaxed_map _ _ _ _ _ (tabSame n eq' ha') _
    (tabSame_same (f := fun s : {s // P s} => f s.1) (fun a b => he a.1 b.1 a.2 b.2) (fun a b => hh a.1 b.1 a.2 b.2)) (hf.sub hP) p w fu r'
  rw [show (⟨f r.st, r.lab, r.bound, r.bb⟩ : Src κ) = r'.map (fun s => f s.1) from rfl, show r = r'.map Subtype.val from rfl, h1, h2,
    Option.map_map, Option.map_map]
  congr 1
  funext g
  show ((g.map Subtype.val).bound (g.map Subtype.val).trg, (g.map Subtype.val).lab (g.map Subtype.val).trg, (g.map Subtype.val).exact, cutSet (g.map Subtype.val)) =
    ((g.map fun s => f s.1).bound (g.map fun s => f s.1).trg, (g.map fun s => f s.1).lab (g.map fun s => f s.1).trg, (g.map fun s => f s.1).exact, cutSet (g.map fun s => f s.1))
  rw [cutSet_map, cutSet_map]
  rfl

end Verif.Ex
