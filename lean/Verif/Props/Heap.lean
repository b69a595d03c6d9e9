import Verif.Heap
/-!
# Properties of `Heap` (C24, C25, C26)

The specification is a finite map from handles to values (a bag of handle/value pairs) with
one relation per operation.  It knows nothing about arrays or positions.
-/
namespace Verif.Heap
variable {α : Type}

/-- Bag of (handle, value) pairs. -/
abbrev Bag (α : Type) := Nat → Option α

/-- What a client sees of one operation. -/
inductive Ev (α : Type) where
  | ins (x : α) (l : Nat)
  | ext (x : α)
  | rem (l : Nat) (x : α)
  | dec (l : Nat)
  | clr

/-- Specification of one operation on the bag. -/
inductive Spec (ord : α → α → Bool) (dec : α → α) : Bag α → Ev α → Bag α → Prop where
  | ins (m x l) : m l = none → Spec ord dec m (.ins x l) (upd m l (some x))
  | ext (m l x) : m l = some x → (∀ k y, m k = some y → ¬ ord y x = true) →
      Spec ord dec m (.ext x) (upd m l none)
  | rem (m l x) : m l = some x → Spec ord dec m (.rem l x) (upd m l none)
  | dec (m l x) : m l = some x → Spec ord dec m (.dec l) (upd m l (some (dec x)))
  | clr (m) : Spec ord dec m .clr (fun _ => none)

/-- Specification of a history. -/
inductive SpecRun (ord : α → α → Bool) (dec : α → α) : Bag α → List (Ev α) → Bag α → Prop where
  | nil (m) : SpecRun ord dec m [] m
  | cons {m e m1 es m2} : Spec ord dec m e m1 → SpecRun ord dec m1 es m2 → SpecRun ord dec m (e :: es) m2

/-- Client calls. -/
inductive Op (α : Type) where
  | insertHeap (x : α)
  | extractMax
  | remove (l : Nat)
  | decrease (l : Nat)
  | clear

/-- A call is legal: `extractMax` needs an element, `remove`/`decrease` need a handle that is
still in the heap, and `--` must not make the value worse. -/
def Legal (ord : α → α → Bool) (dec : α → α) (h : H α) : Op α → Prop
  | .insertHeap _ => True
  | .extractMax => empty h = false
  | .remove l => l ∈ locs h
  | .decrease l => l ∈ locs h ∧ ¬ ord (h.val l) (dec (h.val l)) = true
  | .clear => True

/-- Run one call of the model. -/
def exec (ord : α → α → Bool) (dec : α → α) (h : H α) : Op α → H α × Ev α
  | .insertHeap x => ((insertHeap ord h x).1, .ins x (insertHeap ord h x).2)
  | .extractMax => ((extractMax ord h).1, .ext (extractMax ord h).2)
  | .remove l => ((remove ord h l).1, .rem l (remove ord h l).2)
  | .decrease l => (decrease ord dec h l, .dec l)
  | .clear => (clear h, .clr)

/-- A history of legal calls. -/
inductive Run (ord : α → α → Bool) (dec : α → α) : H α → List (Ev α) → H α → Prop where
  | nil (h) : Run ord dec h [] h
  | cons {h o es h2} : Legal ord dec h o → Run ord dec (exec ord dec h o).1 es h2 →
      Run ord dec h ((exec ord dec h o).2 :: es) h2

/-- The bag a heap represents, as seen through `operator[]` and `value()`. -/
def bag (h : H α) : Bag α := fun l => if l ∈ locs h then some (h.val l) else none

/-- Invariant kept by every legal history. -/
structure Inv (ord : α → α → Bool) (h : H α) : Prop where
  wf : WF h
  ordered : Ordered ord h

theorem bag_live {h : H α} {l : Nat} (hl : Live h l) : bag h l = some (h.val l) := by
  simp only [bag]; rw [if_pos ((mem_locs l).2 hl)]
theorem bag_dead {h : H α} {l : Nat} (hl : ¬ Live h l) : bag h l = none := by
  simp only [bag]; rw [if_neg (fun h' => hl ((mem_locs l).1 h'))]
theorem bag_some {h : H α} {l : Nat} {x : α} (hl : bag h l = some x) : Live h l ∧ h.val l = x := by
  by_cases h1 : Live h l
  · rw [bag_live h1] at hl; exact ⟨h1, Option.some.inj hl⟩
  · rw [bag_dead h1] at hl; cases hl

/-- How `bag` changes when a location leaves. -/
theorem bag_del {h g : H α} {l : Nat} (hv : g.val = h.val) (hl : ∀ k, Live g k ↔ (Live h k ∧ k ≠ l)) :
    bag g = upd (bag h) l none := by
  funext k
  by_cases hk : k = l
  · subst hk; rw [upd_same]; exact bag_dead (fun h' => ((hl _).1 h').2 rfl)
  · rw [upd_ne _ _ hk]
    by_cases h1 : Live h k
    · rw [bag_live h1, bag_live ((hl k).2 ⟨h1, hk⟩), hv]
    · rw [bag_dead h1, bag_dead (fun h' => h1 ((hl k).1 h').1)]

theorem step_inv {ord : α → α → Bool} (ho : SWO ord) (dec : α → α) {h : H α} (hi : Inv ord h) {o : Op α}
    (hl : Legal ord dec h o) :
    Inv ord (exec ord dec h o).1 ∧ Spec ord dec (bag h) (exec ord dec h o).2 (bag (exec ord dec h o).1) := by
  obtain ⟨w, hord⟩ := hi
  cases o with
  | insertHeap x =>
    obtain ⟨a, b, c, d, e, f, _⟩ := insertHeap_spec ho w hord x
    refine ⟨⟨a, b⟩, ?_⟩
    have hb : bag (insertHeap ord h x).1 = upd (bag h) (insertHeap ord h x).2 (some x) := by
      funext k
      by_cases hk : k = (insertHeap ord h x).2
      · rw [hk, upd_same, bag_live ((d _).2 (Or.inr rfl)), e]
      · rw [upd_ne _ _ hk]
        by_cases h1 : Live h k
        · rw [bag_live h1, bag_live ((d k).2 (Or.inl h1)), f k h1]
        · rw [bag_dead h1, bag_dead (fun h' => ((d k).1 h').elim h1 hk)]
    simp only [exec]
    rw [hb]
    exact Spec.ins _ _ _ (bag_dead c)
  | extractMax =>
    have hne : 2 ≤ h.at_ := by
      have h1 := w.one_le
      have h2 : h.at_ ≠ 1 := by simpa [Legal, empty] using hl
      omega
    obtain ⟨a, b, l, c, d, e, f, g, _⟩ := extractMax_spec ho w hord hne
    refine ⟨⟨a, b⟩, ?_⟩
    simp only [exec]
    rw [bag_del g f, d]
    refine Spec.ext _ _ _ (bag_live c) (fun k y hk => ?_)
    obtain ⟨h1, h2⟩ := bag_some hk
    rw [← h2]; exact e k h1
  | remove l =>
    have hl' := (mem_locs l).1 hl
    obtain ⟨a, b, c, d, e, _⟩ := remove_spec ho w hord hl'
    refine ⟨⟨a, b⟩, ?_⟩
    simp only [exec]
    rw [bag_del e d, c]
    exact Spec.rem _ _ _ (bag_live hl')
  | decrease l =>
    have hl' := (mem_locs l).1 hl.1
    obtain ⟨a, b, c, d, _⟩ := decrease_spec ho dec w hord hl' hl.2
    refine ⟨⟨a, b⟩, ?_⟩
    have hb : bag (decrease ord dec h l) = upd (bag h) l (some (dec (h.val l))) := by
      funext k
      by_cases hk : k = l
      · subst hk; rw [upd_same, bag_live ((c k).2 hl'), d, upd_same]
      · rw [upd_ne _ _ hk]
        by_cases h1 : Live h k
        · rw [bag_live h1, bag_live ((c k).2 h1), d, upd_ne _ _ hk]
        · rw [bag_dead h1, bag_dead (fun h' => h1 ((c k).1 h'))]
    simp only [exec]
    rw [hb]
    exact Spec.dec _ _ _ (bag_live hl')
  | clear =>
    refine ⟨⟨⟨Nat.le_refl _, Nat.le_trans w.one_le w.cap, w.pos_eq, w.alloc⟩, fun i h1 h2 => ?_⟩, ?_⟩
    · have h2 : i < 1 := h2
      omega
    · have : bag (clear h) = fun _ => none := by
        funext k
        refine bag_dead ?_
        rintro ⟨i, h1, h2, _⟩
        have h2 : i < 1 := h2
        omega
      simp only [exec]
      rw [this]; exact Spec.clr _

theorem inv_mk {ord : α → α → Bool} (dflt : α) {sz : Nat} (hsz : 1 ≤ sz) :
    Inv ord (mk' dflt sz) ∧ bag (mk' dflt sz) = fun _ => none := by
  refine ⟨⟨WF_mk dflt sz hsz, fun i h1 h2 => ?_⟩, ?_⟩
  · have h2 : i < 1 := h2
    omega
  · funext k
    refine bag_dead ?_
    rintro ⟨i, h1, h2, _⟩
    have h2 : i < 1 := h2
    omega

theorem run_refines {ord : α → α → Bool} (ho : SWO ord) (dec : α → α) {h h' : H α} {es : List (Ev α)}
    (hi : Inv ord h) (hr : Run ord dec h es h') : Inv ord h' ∧ SpecRun ord dec (bag h) es (bag h') := by
  induction hr with
  | nil h => exact ⟨hi, SpecRun.nil _⟩
  | cons hl _ ih =>
    obtain ⟨a, b⟩ := step_inv ho dec hi hl
    obtain ⟨c, d⟩ := ih a
    exact ⟨c, SpecRun.cons b d⟩

/-- **C24.** Every history of legal calls on a fresh heap of capacity ≥ 1 is a history of the
bag specification, ending in the bag the heap shows; no handle occurs twice in it, and
`size()` counts its entries. -/
theorem heap_refines_bag {ord : α → α → Bool} (ho : SWO ord) (dec : α → α) (dflt : α) {sz : Nat}
    (hsz : 1 ≤ sz) {es : List (Ev α)} {h' : H α} (hr : Run ord dec (mk' dflt sz) es h') :
    SpecRun ord dec (fun _ => none) es (bag h') ∧ (locs h').Nodup ∧ (locs h').length = size h' := by
  obtain ⟨a, b⟩ := inv_mk (ord := ord) dflt hsz
  obtain ⟨c, d⟩ := run_refines ho dec a hr
  rw [b] at d
  exact ⟨d, nodup_locs c.wf, by simp [locs]⟩

/-- Integers under `<`: the order used by the degree queue of `computeBest`. -/
theorem swo_lt : SWO (fun a b : Int => decide (a < b)) :=
  ⟨fun a b h => by simp at *; omega, fun a b c h1 h2 => by simp at *; omega⟩

/-- A history with growth: capacity 1, three inserts, a removal, an extraction. -/
example : ∃ h', Run (fun a b : Int => decide (a < b)) (fun x => x - 1) (mk' (0 : Int) 1)
    [.ins 5 1, .ins 3 2, .ins 4 3, .dec 1, .rem 2 3, .ext 4] h' :=
  ⟨_, .cons (o := .insertHeap 5) trivial <| .cons (o := .insertHeap 3) trivial <|
    .cons (o := .insertHeap 4) trivial <| .cons (o := .decrease 1) (by simp only [Legal]; decide) <|
    .cons (o := .remove 2) (by simp only [Legal]; decide) <|
    .cons (o := .extractMax) (by simp only [Legal]; decide) <| .nil _⟩

/-! ### C25: `insert` in any order, `buildHeap`, then extraction -/

/-- Raw inserts (`insert`, no order maintained). -/
def insertAll (h : H α) : List α → H α
  | [] => h
  | x :: xs => insertAll (insert h x).1 xs

/-- Extract `n` times. -/
def drain (ord : α → α → Bool) : Nat → H α → List α
  | 0, _ => []
  | n + 1, h => (extractMax ord h).2 :: drain ord n (extractMax ord h).1

/-- Values in position order. -/
def vals (h : H α) : List α := (locs h).map h.val

theorem locs_perm {h g : H α} (wh : WF h) (wg : WF g) (hl : ∀ k, Live g k ↔ Live h k) : (locs g).Perm (locs h) :=
  (List.perm_ext_iff_of_nodup (nodup_locs wg) (nodup_locs wh)).2
    (fun k => by rw [mem_locs, mem_locs]; exact hl k)

theorem insertAll_spec : ∀ (xs : List α) {h : H α}, WF h →
    WF (insertAll h xs) ∧ (vals (insertAll h xs)).Perm (vals h ++ xs) ∧ (insertAll h xs).at_ = h.at_ + xs.length := by
  intro xs
  induction xs with
  | nil => intro h w; exact ⟨w, by simp [insertAll], rfl⟩
  | cons x xs ih =>
    intro h w
    obtain ⟨a1, a2, a3, a4, a5, a6, _, _⟩ := insert_spec w x
    obtain ⟨b1, b2, b3⟩ := ih a1
    refine ⟨b1, b2.trans ?_, by rw [insertAll, b3, a6, List.length_cons]; omega⟩
    have hp : (locs (insert h x).1).Perm ((insert h x).2 :: locs h) := by
      refine (List.perm_ext_iff_of_nodup (nodup_locs a1) ?_).2 (fun k => ?_)
      · exact List.nodup_cons.2 ⟨fun h' => a2 ((mem_locs _).1 h'), nodup_locs w⟩
      · rw [mem_locs, List.mem_cons, mem_locs, a3]; exact or_comm
    have hv : (vals (insert h x).1).Perm (x :: vals h) := by
      refine (hp.map _).trans ?_
      rw [List.map_cons, a4]
      refine List.Perm.cons _ ?_
      rw [vals, List.map_congr_left (fun k hk => a5 k ((mem_locs k).1 hk))]
    refine (hv.append_right xs).trans ?_
    rw [List.cons_append]
    exact List.perm_middle.symm

theorem drain_spec {ord : α → α → Bool} (ho : SWO ord) : ∀ (n : Nat) {h : H α}, Inv ord h → h.at_ = n + 1 →
    (drain ord n h).Perm (vals h) ∧ (drain ord n h).Pairwise (fun a b => ¬ ord b a = true) := by
  intro n
  induction n with
  | zero => intro h _ hat; simp [drain, vals, locs, size, hat]
  | succ n ih =>
    intro h hi hat
    obtain ⟨a, b, l, c, d, e, f, g, hat'⟩ := extractMax_spec ho hi.wf hi.ordered (by omega)
    obtain ⟨p, q⟩ := ih ⟨a, b⟩ (by omega)
    have hp : (locs h).Perm (l :: locs (extractMax ord h).1) := by
      refine (List.perm_ext_iff_of_nodup (nodup_locs hi.wf) ?_).2 (fun k => ?_)
      · exact List.nodup_cons.2 ⟨fun h' => ((f l).1 ((mem_locs _).1 h')).2 rfl, nodup_locs a⟩
      · rw [mem_locs, List.mem_cons, mem_locs, f]
        by_cases hk : k = l
        · subst hk; simp [c]
        · simp [hk]
    simp only [drain]
    constructor
    · refine List.Perm.trans (List.Perm.cons _ p) ?_
      have := hp.map h.val
      rw [List.map_cons, ← d] at this
      rw [vals, g]
      exact this.symm
    · refine List.pairwise_cons.2 ⟨fun y hy => ?_, q⟩
      have hy := p.mem_iff.1 hy
      simp only [vals, List.mem_map] at hy
      obtain ⟨k, hk, rfl⟩ := hy
      rw [d, g]
      exact e k ((f k).1 ((mem_locs k).1 hk)).1

/-- **C25 (build).** Insert any list in any order, call `buildHeap` once, extract everything:
the result is that list, ordered. -/
theorem build_then_drain_sorts {ord : α → α → Bool} (ho : SWO ord) (dflt : α) {sz : Nat} (hsz : 1 ≤ sz)
    (xs : List α) :
    let out := drain ord xs.length (buildHeap ord (insertAll (mk' dflt sz) xs))
    out.Perm xs ∧ out.Pairwise (fun a b => ¬ ord b a = true) := by
  obtain ⟨a, b, c⟩ := insertAll_spec xs (WF_mk dflt sz hsz)
  obtain ⟨s, o⟩ := buildHeap_spec ho a
  obtain ⟨p, q⟩ := drain_spec ho xs.length ⟨s.wf, o⟩ (by rw [s.at_eq, c]; show 1 + _ = _; omega)
  refine ⟨p.trans ?_, q⟩
  refine List.Perm.trans ?_ (b.trans ?_)
  · rw [vals, s.val]; exact (locs_perm a s.wf s.live).map _
  · simp [vals, locs, size, mk']

/-- `buildHeap` keeps every handle and value, whatever the order before. -/
theorem buildHeap_keeps {ord : α → α → Bool} (ho : SWO ord) {h : H α} (w : WF h) :
    Inv ord (buildHeap ord h) ∧ bag (buildHeap ord h) = bag h := by
  obtain ⟨s, o⟩ := buildHeap_spec ho w
  refine ⟨⟨s.wf, o⟩, ?_⟩
  funext k
  by_cases h1 : Live h k
  · rw [bag_live h1, bag_live ((s.live k).2 h1), s.val]
  · rw [bag_dead h1, bag_dead (fun h' => h1 ((s.live k).1 h'))]

/-- **C25 (decrease).** Insert any list, `buildHeap`, then any legal history (decreases,
extractions, ...): the calls follow the bag specification, so each extraction returns an
element nothing is ordered before. -/
theorem build_then_run_refines {ord : α → α → Bool} (ho : SWO ord) (dec : α → α) (dflt : α) {sz : Nat}
    (hsz : 1 ≤ sz) (xs : List α) {es : List (Ev α)} {h' : H α}
    (hr : Run ord dec (buildHeap ord (insertAll (mk' dflt sz) xs)) es h') :
    SpecRun ord dec (bag (insertAll (mk' dflt sz) xs)) es (bag h') := by
  obtain ⟨a, _, _⟩ := insertAll_spec xs (WF_mk dflt sz hsz)
  obtain ⟨b, c⟩ := buildHeap_keeps ho a
  rw [← c]
  exact (run_refines ho dec b hr).2

example : drain (fun a b : Int => decide (a < b)) 4
    (buildHeap (fun a b => decide (a < b)) (insertAll (mk' 0 2) [4, 1, 3, 2])) = [1, 2, 3, 4] := by decide

/-! ### C26: `find` -/

/-- **C26 is false.** On a fresh, empty heap `find` reports the default value. -/
theorem find_stale_false : ∃ (h : H Int) (x : Int), empty h = true ∧ find h x = some 1 :=
  ⟨mk' 0 4, 0, by decide, by decide⟩

/-- Also after real use: the extracted value 7 is still found, at a dead handle. -/
theorem find_after_extract_false :
    let ord := fun a b : Int => decide (a < b)
    let h := (extractMax ord (insertHeap ord (mk' 0 4) 7).1).1
    empty h = true ∧ find h 7 = some 1 := by decide

theorem findLoop_some [DecidableEq α] (h : H α) (x : α) : ∀ (n i l : Nat), findLoop h x n i = some l →
    ∃ j, i ≤ j ∧ j < i + n ∧ h.data j = l ∧ h.val l = x := by
  intro n
  induction n with
  | zero => intro i l hl; cases hl
  | succ n ih =>
    intro i l hl
    simp only [findLoop] at hl
    split at hl
    · rename_i hv
      exact ⟨i, by omega, by omega, Option.some.inj hl, by rw [← Option.some.inj hl]; exact hv⟩
    · obtain ⟨j, a, b, c⟩ := ih _ _ hl
      exact ⟨j, by omega, by omega, c⟩

theorem findLoop_none [DecidableEq α] (h : H α) (x : α) : ∀ (n i : Nat), findLoop h x n i = none →
    ∀ j, i ≤ j → j < i + n → h.v j ≠ x := by
  intro n
  induction n with
  | zero => intro i _ j h1 h2; omega
  | succ n ih =>
    intro i hl j h1 h2
    simp only [findLoop] at hl
    split at hl
    · cases hl
    · rename_i hv
      by_cases hj : j = i
      · subst hj; exact hv
      · exact ih _ hl j (by omega) (by omega)

/-- **C26 (partial).** What holds: a value in the bag is found, and what is found is a
location holding that value.  Missing: the location may be outside the bag. -/
theorem find_partial [DecidableEq α] {h : H α} (w : WF h) (x : α) :
    (∀ l, bag h l = some x → (find h x).isSome = true) ∧ (∀ l, find h x = some l → h.val l = x) := by
  constructor
  · intro l hl
    obtain ⟨⟨i, h1, h2, h3⟩, h4⟩ := bag_some hl
    cases hn : find h x with
    | some _ => rfl
    | none =>
      exact absurd (by rw [H.v, h3, h4]) (findLoop_none h x _ _ hn i h1 (by have := w.cap; omega))
  · intro l hl
    obtain ⟨_, _, _, _, h5⟩ := findLoop_some h x _ _ _ hl
    exact h5

/-- On a full heap (no spare slots) the claim holds: `find` answers exactly for the bag. -/
theorem find_full_partial [DecidableEq α] {h : H α} (w : WF h) (hfull : h.at_ = h.mxs) (x : α) :
    (find h x).isSome = true ↔ ∃ l, bag h l = some x := by
  constructor
  · intro hs
    obtain ⟨l, hl⟩ := Option.isSome_iff_exists.1 hs
    obtain ⟨j, h1, h2, h3, h4⟩ := findLoop_some h x _ _ _ hl
    exact ⟨l, by rw [bag_live ⟨j, h1, by omega, h3⟩, h4]⟩
  · rintro ⟨l, hl⟩
    exact (find_partial w x).1 l hl

end Verif.Heap
