import Verif.ANList
/-!
# C42: the node list against lists without repetition

The specification is a list; `none` is a call the class does not allow: pushing a member, removing a
non-member, popping an empty list.
-/
namespace Verif.ANList

def stepL (f : Nat) (l : List Nat) : Op → Option (List Nat × Out)
  | .push n => if n ∈ l then none else some (l ++ [n], .unit)
  | .pop => if l = [] then none else some (l.dropLast, .unit)
  | .remove n => if n ∈ l then some (l.erase n, .unit) else none
  | .clear => some ([], .unit)
  | .front => some (l, .node l.head?)
  | .back => some (l, .node l.getLast?)
  | .iter => if l.length ≤ f then some (l, .list l) else none

def runL (f : Nat) : List Nat → List Op → Option (List Nat × List Out)
  | l, [] => some (l, [])
  | l, o :: os => (stepL f l o).bind fun p => (runL f p.1 os).map fun q => (q.1, p.2 :: q.2)

/-- Doubly linked segment with predecessor `p` and successor `t`. -/
def Lk (next prev : Nat → Option Nat) : Option Nat → List Nat → Option Nat → Prop
  | _, [], _ => True
  | p, x :: xs, t => prev x = p ∧ next x = xs.head?.or t ∧ Lk next prev (some x) xs t

structure Rep (s : L) (l : List Nat) : Prop where
  nodup : l.Nodup
  head : s.head = l.head?
  tail : s.tail = l.getLast?
  links : Lk s.next s.prev none l none

theorem Lk.frame {next prev next' prev' : Nat → Option Nat} : ∀ {l : List Nat} {p t : Option Nat},
    (∀ x, x ∈ l → next' x = next x ∧ prev' x = prev x) → Lk next prev p l t → Lk next' prev' p l t := by
  intro l
  induction l with
  | nil => intro p t _ _; trivial
  | cons x xs ih =>
    intro p t h hl
    exact ⟨by rw [(h x (by simp)).2]; exact hl.1, by rw [(h x (by simp)).1]; exact hl.2.1,
      ih (fun y hy => h y (by simp [hy])) hl.2.2⟩

theorem Lk.append {next prev : Nat → Option Nat} : ∀ {a b : List Nat} {p t : Option Nat},
    Lk next prev p (a ++ b) t ↔ Lk next prev p a (b.head?.or t) ∧ Lk next prev (a.getLast?.or p) b t := by
  intro a
  induction a with
  | nil => intro b p t; simp [Lk]
  | cons x xs ih =>
    intro b p t
    have h1 : ((x :: xs).getLast?.or p) = (xs.getLast?.or (some x)) := by
      cases xs with
      | nil => rfl
      | cons y ys =>
        simp [List.getLast?_cons]
    have h2 : (xs ++ b).head?.or t = xs.head?.or (b.head?.or t) := by
      cases xs <;> simp
    rw [h1]
    simp only [List.cons_append, Lk, ih, h2]
    constructor
    · rintro ⟨a1, a2, a3, a4⟩; exact ⟨⟨a1, a2, a3⟩, a4⟩
    · rintro ⟨⟨a1, a2, a3⟩, a4⟩; exact ⟨a1, a2, a3, a4⟩

theorem updO_ne {f : Nat → Option Nat} {o v : Option Nat} {x : Nat} (h : o ≠ some x) : updO f o v x = f x := by
  cases o with
  | none => rfl
  | some k => exact upd_ne _ _ (by rintro rfl; exact h rfl)

/-- Redirecting the last node of a segment. -/
theorem Lk.setLast {next prev : Nat → Option Nat} : ∀ {l : List Nat} {p t : Option Nat} (t' : Option Nat), l.Nodup →
    Lk next prev p l t → Lk (updO next l.getLast? t') prev p l t' := by
  intro l
  induction l with
  | nil => intro p t t' _ _; trivial
  | cons x xs ih =>
    intro p t t' hn hl
    rw [List.nodup_cons] at hn
    cases xs with
    | nil => exact ⟨hl.1, by simp [updO], trivial⟩
    | cons y ys =>
      rw [List.getLast?_cons_cons]
      refine ⟨hl.1, ?_, ih t' hn.2 hl.2.2⟩
      rw [updO_ne]
      · rw [hl.2.1]; rfl
      · intro hc
        exact hn.1 (List.mem_of_getLast? hc)

/-- Redirecting the first node of a segment. -/
theorem Lk.setFirst {next prev : Nat → Option Nat} {l : List Nat} {p t : Option Nat} (p' : Option Nat) (hn : l.Nodup)
    (hl : Lk next prev p l t) : Lk next (updO prev l.head? p') p' l t := by
  cases l with
  | nil => trivial
  | cons x xs =>
    rw [List.nodup_cons] at hn
    refine ⟨by simp [updO], hl.2.1, hl.2.2.frame ?_⟩
    intro y hy
    refine ⟨rfl, ?_⟩
    simp only [List.head?_cons, updO]
    exact upd_ne _ _ (by rintro rfl; exact hn.1 hy)

theorem walk_spec {s : L} : ∀ (l : List Nat) (p : Option Nat) (f : Nat), Lk s.next s.prev p l none → l.length ≤ f →
    walk s f l.head? = some l := by
  intro l
  induction l with
  | nil => intro p f _ _; cases f <;> rfl
  | cons x xs ih =>
    intro p f hl hf
    cases f with
    | zero => simp at hf
    | succ f =>
      have hx : s.next x = xs.head? := by rw [hl.2.1]; cases xs <;> rfl
      simp only [List.head?_cons, walk, hx]
      rw [ih (some x) f hl.2.2 (by simpa using hf)]
      rfl

theorem Rep.push {s : L} {l : List Nat} (R : Rep s l) {n : Nat} (hn : n ∉ l) : Rep (pushBack s n) (l ++ [n]) := by
  unfold pushBack
  have hnd : (l ++ [n]).Nodup := by
    rw [List.nodup_append]
    refine ⟨R.nodup, by simp, ?_⟩
    intro a ha b hb
    simp at hb; subst hb
    rintro rfl; exact hn ha
  split
  · rename_i hh
    rw [R.head] at hh
    have : l = [] := by cases l <;> simp at hh ⊢
    subst this
    exact ⟨by simp, rfl, rfl, by simp [Lk]⟩
  · rename_i hh
    rw [R.head] at hh
    have hne : l ≠ [] := by rintro rfl; exact hh rfl
    have hfr : Lk (upd s.next n none) (upd s.prev n s.tail) none l none := R.links.frame (fun x hx => by
      have : x ≠ n := by rintro rfl; exact hn hx
      exact ⟨upd_ne _ _ this, upd_ne _ _ this⟩)
    refine ⟨hnd, ?_, by simp, ?_⟩
    · show s.head = _
      rw [R.head]; cases l with
      | nil => exact absurd rfl hne
      | cons => rfl
    · rw [Lk.append]
      refine ⟨?_, ?_, ?_, trivial⟩
      · show Lk (updO (upd s.next n none) s.tail (some n)) _ none l (some n)
        have := hfr.setLast (some n) R.nodup
        rw [← R.tail] at this
        exact this
      · show upd s.prev n s.tail n = _
        rw [upd_same, R.tail]; simp
      · show updO (upd s.next n none) s.tail (some n) n = _
        rw [updO_ne, upd_same]
        · rfl
        · rw [R.tail]; intro hc; exact hn (List.mem_of_getLast? hc)

theorem Rep.remove {s : L} {l : List Nat} (R : Rep s l) {n : Nat} (hn : n ∈ l) : Rep (remove s n) (l.erase n) := by
  obtain ⟨a, b, rfl, hna⟩ := List.eq_append_cons_of_mem hn
  have hnd := R.nodup
  rw [List.nodup_append, List.nodup_cons] at hnd
  obtain ⟨ha, ⟨hnb, hb⟩, hdis⟩ := hnd
  have he : (a ++ n :: b).erase n = a ++ b := by
    rw [List.erase_append_right _ hna, List.erase_cons_head]
  have hl := R.links
  rw [Lk.append] at hl
  obtain ⟨hla, hpn, hnn, hlb⟩ := hl
  have hpn' : s.prev n = a.getLast? := by rw [hpn]; simp
  have hnn' : s.next n = b.head? := by rw [hnn]; simp
  have hab : ∀ x, x ∈ a → x ∉ b := fun x hx hxb => hdis x hx x (by simp [hxb]) rfl
  rw [he]
  unfold ANList.remove
  dsimp only
  rw [hpn', hnn']
  refine ⟨?_, ?_, ?_, ?_⟩
  · rw [List.nodup_append]
    exact ⟨ha, hb, fun x hx y hy => by rintro rfl; exact hab x hx hy⟩
  · show (if a.getLast? = none then b.head? else s.head) = _
    rw [R.head]
    cases a with
    | nil => rfl
    | cons x xs => simp [List.getLast?_cons]
  · show (if b.head? = none then a.getLast? else s.tail) = _
    rw [R.tail]
    cases b with
    | nil => simp
    | cons y ys => simp [List.getLast?_append, List.getLast?_cons]
  · show Lk (upd (updO s.next a.getLast? b.head?) n none) (upd (updO s.prev b.head? a.getLast?) n none) none (a ++ b) none
    rw [Lk.append]
    constructor
    · have h1 := hla.setLast (b.head?.or none) ha
      refine h1.frame (fun x hx => ?_)
      have hxn : x ≠ n := by rintro rfl; exact hna hx
      rw [upd_ne _ _ hxn, upd_ne _ _ hxn]
      refine ⟨by simp, updO_ne ?_⟩
      intro hc
      exact hab x hx (List.mem_of_head? hc)
    · have h1 := hlb.setFirst (a.getLast?.or none) hb
      refine h1.frame (fun x hx => ?_)
      have hxn : x ≠ n := by rintro rfl; exact hnb hx
      rw [upd_ne _ _ hxn, upd_ne _ _ hxn]
      refine ⟨updO_ne ?_, by simp⟩
      intro hc
      exact hab x (List.mem_of_getLast? hc) hx

theorem Rep.pop {s : L} {l : List Nat} (R : Rep s l) (hne : l ≠ []) : ∃ s', popBack s = some s' ∧ Rep s' l.dropLast := by
  obtain ⟨a, z, rfl⟩ : ∃ a z, l = a ++ [z] := ⟨l.dropLast, l.getLast hne, (List.dropLast_concat_getLast hne).symm⟩
  have hnd := R.nodup
  rw [List.nodup_append] at hnd
  have hza : z ∉ a := fun h => hnd.2.2 z h z (by simp) rfl
  have hl := R.links
  rw [Lk.append] at hl
  obtain ⟨hla, hpz, _⟩ := hl
  have hpz' : s.prev z = a.getLast? := by rw [hpz]; simp
  have ht : s.tail = some z := by rw [R.tail]; simp
  unfold popBack
  rw [ht, Option.map_some]
  refine ⟨_, rfl, ?_⟩
  rw [List.dropLast_concat]
  refine ⟨hnd.1, ?_, ?_, ?_⟩
  · show (if s.prev z = none then none else s.head) = _
    rw [hpz', R.head]
    cases a with
    | nil => rfl
    | cons x xs => simp [List.getLast?_cons]
  · exact hpz'
  · show Lk (upd (updO s.next (s.prev z) none) z none) (upd s.prev z none) none a none
    rw [hpz']
    refine (hla.setLast none hnd.1).frame (fun x hx => ?_)
    have hxz : x ≠ z := by rintro rfl; exact hza hx
    exact ⟨upd_ne _ _ hxz, upd_ne _ _ hxz⟩

theorem step_refines {f : Nat} {s : L} {l l' : List Nat} {o : Op} {y : Out} (R : Rep s l) (h : stepL f l o = some (l', y)) :
    ∃ s', step f s o = some (s', y) ∧ Rep s' l' := by
  cases o with
  | push n =>
    simp only [stepL] at h
    split at h
    · simp at h
    · simp only [Option.some.injEq, Prod.mk.injEq] at h
      obtain ⟨rfl, rfl⟩ := h
      exact ⟨_, rfl, R.push (by assumption)⟩
  | pop =>
    simp only [stepL] at h
    split at h
    · simp at h
    · simp only [Option.some.injEq, Prod.mk.injEq] at h
      obtain ⟨rfl, rfl⟩ := h
      obtain ⟨s', h1, h2⟩ := R.pop (by assumption)
      exact ⟨s', by simp [step, h1], h2⟩
  | remove n =>
    simp only [stepL] at h
    split at h
    · simp only [Option.some.injEq, Prod.mk.injEq] at h
      obtain ⟨rfl, rfl⟩ := h
      exact ⟨_, rfl, R.remove (by assumption)⟩
    · simp at h
  | clear =>
    simp only [stepL, Option.some.injEq, Prod.mk.injEq] at h
    obtain ⟨rfl, rfl⟩ := h
    exact ⟨_, rfl, by simp, rfl, rfl, trivial⟩
  | front =>
    simp only [stepL, Option.some.injEq, Prod.mk.injEq] at h
    obtain ⟨rfl, rfl⟩ := h
    exact ⟨s, by simp [step, R.head], R⟩
  | back =>
    simp only [stepL, Option.some.injEq, Prod.mk.injEq] at h
    obtain ⟨rfl, rfl⟩ := h
    exact ⟨s, by simp [step, R.tail], R⟩
  | iter =>
    simp only [stepL] at h
    split at h
    · rename_i hf
      simp only [Option.some.injEq, Prod.mk.injEq] at h
      obtain ⟨rfl, rfl⟩ := h
      refine ⟨s, ?_, R⟩
      simp only [step]
      rw [R.head, walk_spec l none f R.links hf]
      rfl
    · simp at h

/-- C42.  Any sequence of calls allowed on lists gives the same results on an `ANList`, whatever the
links of the nodes were before they were first pushed. -/
theorem list_refines {f : Nat} : ∀ (os : List Op) {s : L} {l l' : List Nat} {ys : List Out}, Rep s l →
    runL f l os = some (l', ys) → ∃ s', run f s os = some (s', ys) ∧ Rep s' l' := by
  intro os
  induction os with
  | nil =>
    intro s l l' ys R h
    simp only [runL, Option.some.injEq, Prod.mk.injEq] at h
    obtain ⟨rfl, rfl⟩ := h
    exact ⟨s, rfl, R⟩
  | cons o os ih =>
    intro s l l' ys R h
    simp only [runL, Option.bind_eq_some_iff, Option.map_eq_some_iff, Prod.mk.injEq] at h
    obtain ⟨⟨l1, y⟩, h1, ⟨l2, ys2⟩, h2, h3, h4⟩ := h
    obtain ⟨s1, e1, R1⟩ := step_refines R h1
    obtain ⟨s2, e2, R2⟩ := ih R1 h2
    dsimp only at h3 h4
    subst h3; subst h4
    exact ⟨s2, by simp [run, e1, e2], R2⟩

theorem anlist_lists {f : Nat} (next prev : Nat → Option Nat) {os : List Op} {l' : List Nat} {ys : List Out}
    (h : runL f [] os = some (l', ys)) : (run f ⟨none, none, next, prev⟩ os).map (·.2) = some ys := by
  obtain ⟨s', h1, _⟩ := list_refines os (s := ⟨none, none, next, prev⟩) (l := []) ⟨by simp, rfl, rfl, trivial⟩ h
  rw [h1]; rfl

/-- The list may hold no repetition: it never does. -/
theorem runL_nodup {f : Nat} : ∀ (os : List Op) {l l' : List Nat} {ys : List Out}, l.Nodup → runL f l os = some (l', ys) → l'.Nodup := by
  intro os l l' ys hn h
  induction os generalizing l ys with
  | nil =>
    simp only [runL, Option.some.injEq, Prod.mk.injEq] at h
    rw [← h.1]; exact hn
  | cons o os ih =>
    simp only [runL, Option.bind_eq_some_iff, Option.map_eq_some_iff, Prod.mk.injEq] at h
    obtain ⟨⟨l1, y⟩, h1, ⟨l2, ys2⟩, h2, h3, h4⟩ := h
    dsimp only at h3 h2
    subst h3
    refine ih ?_ h2
    cases o <;> simp only [stepL] at h1
    · split at h1
      · simp at h1
      · rename_i hm
        simp only [Option.some.injEq, Prod.mk.injEq] at h1
        rw [← h1.1, List.nodup_append]
        exact ⟨hn, by simp, fun a ha b hb => by simp at hb; subst hb; rintro rfl; exact hm ha⟩
    · split at h1
      · simp at h1
      · simp only [Option.some.injEq, Prod.mk.injEq] at h1
        rw [← h1.1]; exact hn.sublist (List.dropLast_sublist _)
    · split at h1
      · simp only [Option.some.injEq, Prod.mk.injEq] at h1
        rw [← h1.1]; exact hn.erase _
      · simp at h1
    all_goals first
      | (simp only [Option.some.injEq, Prod.mk.injEq] at h1; rw [← h1.1]; first | exact hn | simp)
      | (split at h1
         · simp only [Option.some.injEq, Prod.mk.injEq] at h1; rw [← h1.1]; exact hn
         · simp at h1)

example : (run 9 ⟨none, none, fun _ => some 3, fun _ => some 3⟩ [.push 4, .push 7, .push 2, .remove 7, .push 7, .pop, .remove 4, .push 9, .iter, .front, .back]).map (·.2) =
    some [.unit, .unit, .unit, .unit, .unit, .unit, .unit, .unit, .list [2, 9], .node (some 2), .node (some 9)] :=
  anlist_lists _ _ (l' := [2, 9]) (by decide)

/-- Outside the contract: removing a node that is in no list (its links are null) empties the list. -/
theorem remove_foreign {s : L} {n : Nat} (h1 : s.next n = none) (h2 : s.prev n = none) :
    (remove s n).head = none ∧ (remove s n).tail = none := by
  simp [remove, h1, h2]

end Verif.ANList
