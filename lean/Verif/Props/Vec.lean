import Verif.Vec
/-!
# C32, C33: `Vec` against lists

The specification is a family of lists; `none` is a call the library does not allow (popping an empty
vector, an index out of range) or a vector too long for half the range of the size type.
-/
namespace Verif.Vec
variable {α : Type}

/-- Drop element `i`, filling the hole with the last element. -/
def dropAt (l : List α) (i : Nat) : List α :=
  match l.getLast? with
  | none => []
  | some z => (l.set i z).dropLast

/-- What the calls mean on lists. -/
def stepL (b : Nat) (e : Nat → List α) : Op α → Option ((Nat → List α) × Out α)
  | .make r _ => some (upd e r [], .unit)
  | .push r x => if 2 * (e r).length < 2 ^ b then some (upd e r (e r ++ [x]), .nat (e r).length) else none
  | .pop r => (e r).getLast?.map fun x => (upd e r (e r).dropLast, .val x)
  | .clear r => some (upd e r [], .unit)
  | .remove r i =>
    if i + 1 = (e r).length then (e r)[i]?.map fun x => (upd e r (e r).dropLast, .rem x ((e r).length - 1))
    else if i < (e r).length then (e r).getLast?.map fun x => (upd e r (dropAt (e r) i), .rem x ((e r).length - 1))
    else none
  | .get r i => (e r)[i]?.map fun x => (e, .val x)
  | .size r => some (e, .nat (e r).length)
  | .iter r => some (e, .list ((e r).map some))
  | .copy r s => some (upd e r (e s), .unit)
  | .assign r s => some (upd e r (e s), .unit)

def runL (b : Nat) : (Nat → List α) → List (Op α) → Option ((Nat → List α) × List (Out α))
  | e, [] => some (e, [])
  | e, o :: os => (stepL b e o).bind fun p => (runL b p.1 os).map fun q => (q.1, p.2 :: q.2)

/-- The vector holds the list. -/
structure Rep (v : V α) (l : List α) : Prop where
  len : v.sz = l.length
  cap : v.sz ≤ v.msz
  cell : ∀ i, i < l.length → v.data i = l[i]?

theorem growTo_some {b p : Nat} (hp : 2 * p < 2 ^ b) : ∀ (f n : Nat), 0 < n → p < n * 2 ^ f →
    ∃ k, growTo b p (f + 1) n = some k ∧ p < k ∧ n ≤ k := by
  intro f
  induction f with
  | zero => intro n _ h; exact ⟨n, by simp only [growTo]; rw [if_neg (by omega)], by omega, Nat.le_refl _⟩
  | succ f ih =>
    intro n hn h
    rw [growTo]
    split
    · rename_i hge
      rw [Nat.mod_eq_of_lt (by omega)]
      obtain ⟨k, h1, h2, h3⟩ := ih (n * 2) (by omega) (by rw [Nat.pow_succ] at h; rw [Nat.mul_assoc, Nat.mul_comm 2]; exact h)
      exact ⟨k, h1, h2, by omega⟩
    · exact ⟨n, rfl, by omega, Nat.le_refl _⟩

theorem makeValid_spec {b p : Nat} {v : V α} (hp : 2 * p < 2 ^ b) :
    ∃ v1, makeValid b v p = some v1 ∧ v1.sz = v.sz ∧ p < v1.msz ∧ v.msz ≤ v1.msz ∧ ∀ i, i < v.msz → v1.data i = v.data i := by
  have hlt : p < 2 ^ b := by omega
  obtain ⟨k, h1, h2, h3⟩ := growTo_some hp b (if v.msz = 0 then 1 else v.msz) (by split <;> omega) (by
    split
    · omega
    · exact Nat.lt_of_lt_of_le hlt (Nat.le_mul_of_pos_left _ (by omega)))
  unfold makeValid
  rw [h1]
  refine ⟨_, rfl, ?_, ?_, ?_, ?_⟩ <;> dsimp only
  · split <;> rfl
  · split
    · exact h2
    · omega
  · split
    · show v.msz ≤ k
      split at h3 <;> omega
    · exact Nat.le_refl _
  · intro i hi
    split
    · show (if i < v.msz then v.data i else none) = _
      rw [if_pos hi]
    · rfl

theorem Rep.last {v : V α} {l : List α} (h : Rep v l) (hn : l ≠ []) : v.data (v.sz - 1) = l.getLast? := by
  have : 0 < l.length := List.length_pos_iff.2 hn
  rw [h.len, h.cell _ (by omega), List.getLast?_eq_getElem?]

theorem Rep.dropLast {v : V α} {l : List α} (h : Rep v l) : Rep { v with sz := v.sz - 1 } l.dropLast where
  len := by simp [h.len]
  cap := Nat.le_trans (Nat.sub_le _ _) h.cap
  cell := fun i hi => by
    rw [List.length_dropLast] at hi
    show v.data i = _
    rw [h.cell i (by omega), List.getElem?_dropLast, if_pos (by omega)]

theorem Rep.setAt {v : V α} {l : List α} (h : Rep v l) (i : Nat) (x : α) : Rep (setAt v i x) (l.set i x) where
  len := by simp [Vec.setAt, h.len]
  cap := h.cap
  cell := fun j hj => by
    rw [List.length_set] at hj
    show upd v.data i (some x) j = _
    by_cases hji : j = i
    · subst hji
      rw [upd_same, List.getElem?_set_self hj]
    · rw [upd_ne _ _ hji, h.cell j hj, List.getElem?_set_ne (by omega)]

theorem step_refines {b : Nat} {e : Nat → V α} {el el' : Nat → List α} {o : Op α} {y : Out α}
    (he : ∀ r, Rep (e r) (el r)) (h : stepL b el o = some (el', y)) :
    ∃ e', step b e o = some (e', y) ∧ ∀ r, Rep (e' r) (el' r) := by
  have hu : ∀ (r : Nat) (v : V α) (l : List α), Rep v l → ∀ k, Rep (upd e r v k) (upd el r l k) := by
    intro r v l hv k
    by_cases hk : k = r
    · subst hk; simpa using hv
    · rw [upd_ne _ _ hk, upd_ne _ _ hk]; exact he k
  cases o with
  | make r s =>
    simp only [stepL, Option.some.injEq, Prod.mk.injEq] at h
    obtain ⟨rfl, rfl⟩ := h
    exact ⟨_, rfl, hu r _ _ ⟨rfl, Nat.zero_le _, by simp⟩⟩
  | push r x =>
    simp only [stepL] at h
    split at h
    · rename_i hb
      simp only [Option.some.injEq, Prod.mk.injEq] at h
      obtain ⟨rfl, rfl⟩ := h
      obtain ⟨v1, h1, h2, h3, h4, h5⟩ := makeValid_spec (v := e r) (p := (e r).sz) (b := b) (by rw [(he r).len]; exact hb)
      refine ⟨upd e r { Vec.setAt v1 v1.sz x with sz := v1.sz + 1 }, ?_, hu r _ _ ⟨?_, ?_, ?_⟩⟩
      · simp only [step, push, h1, Option.map_some]
        rw [h2, (he r).len]
      · simp [h2, (he r).len]
      · show v1.sz + 1 ≤ v1.msz
        omega
      · intro i hi
        show upd v1.data v1.sz (some x) i = _
        simp only [List.length_append, List.length_singleton] at hi
        rw [h2, (he r).len]
        by_cases hi2 : i = (el r).length
        · subst hi2
          rw [upd_same, List.getElem?_append_right (Nat.le_refl _)]
          simp
        · have := (he r).cap
          have hl := (he r).len
          rw [upd_ne _ _ hi2, h5 i (by omega), (he r).cell i (by omega), List.getElem?_append_left (by omega)]
    · simp at h
  | pop r =>
    simp only [stepL, Option.map_eq_some_iff, Prod.mk.injEq] at h
    obtain ⟨x, h1, rfl, rfl⟩ := h
    have hne : el r ≠ [] := by intro hc; rw [hc] at h1; simp at h1
    refine ⟨upd e r { e r with sz := (e r).sz - 1 }, ?_, hu r _ _ (he r).dropLast⟩
    simp only [step, pop]
    rw [if_neg (by rw [(he r).len]; have := List.length_pos_iff.2 hne; omega), (he r).last hne, h1]
    rfl
  | clear r =>
    simp only [stepL, Option.some.injEq, Prod.mk.injEq] at h
    obtain ⟨rfl, rfl⟩ := h
    exact ⟨_, rfl, hu r _ _ ⟨rfl, Nat.zero_le _, by simp⟩⟩
  | remove r i =>
    simp only [stepL] at h
    have hlen := (he r).len
    split at h
    · rename_i hi
      simp only [Option.map_eq_some_iff, Prod.mk.injEq] at h
      obtain ⟨x, h1, rfl, rfl⟩ := h
      have hne : el r ≠ [] := by intro hc; rw [hc] at hi; simp at hi
      have hlast := (he r).last hne
      refine ⟨upd e r { e r with sz := (e r).sz - 1 }, ?_, hu r _ _ (he r).dropLast⟩
      have hd : (e r).data i = some x := by rw [(he r).cell i (by omega), h1]
      have hd2 : (e r).data ((e r).sz - 1) = some x := by
        rw [show (e r).sz - 1 = i by omega]; exact hd
      simp only [step, remove]
      rw [if_pos (by omega), hd2]
      simp only [Option.bind_some]
      rw [if_neg (by omega), hd]
      simp [hlen]
    · split at h
      · rename_i hi hi2
        simp only [Option.map_eq_some_iff, Prod.mk.injEq] at h
        obtain ⟨x, h1, rfl, rfl⟩ := h
        have hne : el r ≠ [] := by intro hc; rw [hc] at hi2; simp at hi2
        have hlast := (he r).last hne
        have hR := ((he r).setAt i x).dropLast
        refine ⟨upd e r { Vec.setAt (e r) i x with sz := (e r).sz - 1 }, ?_, hu r _ _ (by unfold dropAt; rw [h1]; exact hR)⟩
        simp only [step, remove]
        rw [if_pos (by omega), hlast, h1]
        simp only [Option.bind_some]
        rw [if_pos (by omega)]
        simp [Vec.setAt, hlen]
      · simp at h
  | get r i =>
    simp only [stepL, Option.map_eq_some_iff, Prod.mk.injEq] at h
    obtain ⟨x, h1, rfl, rfl⟩ := h
    refine ⟨e, ?_, he⟩
    have hi : i < (el r).length := by
      rw [List.getElem?_eq_some_iff] at h1; exact h1.1
    simp only [step, get]
    rw [if_pos (by rw [(he r).len]; exact hi), (he r).cell i hi, h1]
    rfl
  | size r =>
    simp only [stepL, Option.some.injEq, Prod.mk.injEq] at h
    obtain ⟨rfl, rfl⟩ := h
    exact ⟨e, by simp [step, (he r).len], he⟩
  | iter r =>
    simp only [stepL, Option.some.injEq, Prod.mk.injEq] at h
    obtain ⟨rfl, rfl⟩ := h
    refine ⟨e, ?_, he⟩
    have : iter (e r) = (el r).map some := by
      apply List.ext_getElem?
      intro i
      unfold iter
      rw [List.getElem?_map, List.getElem?_map, (he r).len]
      by_cases hi : i < (el r).length
      · rw [List.getElem?_range hi, Option.map_some, (he r).cell i hi, List.getElem?_eq_getElem hi]
        rfl
      · rw [List.getElem?_eq_none (by simpa using hi), List.getElem?_eq_none (by omega)]
        rfl
    simp [step, this]
  | copy r s =>
    simp only [stepL, Option.some.injEq, Prod.mk.injEq] at h
    obtain ⟨rfl, rfl⟩ := h
    exact ⟨_, rfl, hu r _ _ ⟨(he s).len, (he s).cap, fun i hi => by
      show (if i < (e s).sz then (e s).data i else none) = _
      rw [if_pos (by rw [(he s).len]; exact hi), (he s).cell i hi]⟩⟩
  | assign r s =>
    simp only [stepL, Option.some.injEq, Prod.mk.injEq] at h
    obtain ⟨rfl, rfl⟩ := h
    refine ⟨_, rfl, hu r _ _ ⟨(he s).len, ?_, fun i hi => ?_⟩⟩
    · show (e s).sz ≤ (if (e r).msz < (e s).msz then ({ e r with msz := (e s).msz, data := fun _ => none } : V α) else e r).msz
      have := (he s).cap
      split
      · exact this
      · omega
    · show (if i < (e s).sz then (e s).data i else _) = _
      rw [if_pos (by rw [(he s).len]; exact hi), (he s).cell i hi]

/-- C32.  Start from vectors holding lists (for instance, all empty, of any capacities), make any
sequence of calls allowed on lists: every call returns what the list call returns, and the vectors
still hold the lists. -/
theorem vec_refines {b : Nat} {os : List (Op α)} : ∀ {e : Nat → V α} {el el' : Nat → List α} {ys : List (Out α)},
    (∀ r, Rep (e r) (el r)) → runL b el os = some (el', ys) →
    ∃ e', run b e os = some (e', ys) ∧ ∀ r, Rep (e' r) (el' r) := by
  induction os with
  | nil =>
    intro e el el' ys he h
    simp only [runL, Option.some.injEq, Prod.mk.injEq] at h
    obtain ⟨rfl, rfl⟩ := h
    exact ⟨e, rfl, he⟩
  | cons o os ih =>
    intro e el el' ys he h
    simp only [runL, Option.bind_eq_some_iff, Option.map_eq_some_iff, Prod.mk.injEq] at h
    obtain ⟨⟨e1, y⟩, h1, ⟨e2, ys2⟩, h2, h3, h4⟩ := h
    obtain ⟨e', s1, s2⟩ := step_refines he h1
    obtain ⟨e'', t1, t2⟩ := ih s2 h2
    simp only at h3 h4
    subst h3; subst h4
    exact ⟨e'', by simp [run, s1, t1], t2⟩

/-- The same, in terms of outputs only, from vectors of any initial capacity. -/
theorem vec_lists {b : Nat} (caps : Nat → Nat) {os : List (Op α)} {el' : Nat → List α} {ys : List (Out α)}
    (h : runL b (fun _ => []) os = some (el', ys)) : (run b (fun r => mk' (caps r)) os).map (·.2) = some ys := by
  obtain ⟨e', h1, _⟩ := vec_refines (e := fun r => mk' (caps r)) (fun r => ⟨rfl, Nat.zero_le _, by simp⟩) h
  rw [h1]; rfl

/-- Growth from capacity 0 and 1, removal in the middle, assignment, on a 32-bit size. -/
example : (run 32 (fun _ => mk' 0) [.push 0 7, .push 0 8, .push 0 9, .remove 0 0, .assign 1 0, .push 1 5, .iter 0, .iter 1, .pop 1]).map (·.2) =
    some [.nat 0, .nat 1, .nat 2, .rem 9 2, .unit, .nat 2, .list [some 9, some 8], .list [some 9, some 8, some 5], .val (5 : Int)] := by
  refine vec_lists (fun _ => 0) (el' := ?_) ?_
  rotate_left
  · rfl

/-- `remove` drops exactly the element at `i`: what is left is a permutation of the list without
position `i`. -/
theorem dropAt_perm {l : List α} {i : Nat} (hi : i < l.length) : (dropAt l i).Perm (l.eraseIdx i) := by
  have hne : l ≠ [] := by intro hc; subst hc; simp at hi
  unfold dropAt
  obtain ⟨l', z, rfl⟩ : ∃ l' z, l = l' ++ [z] := ⟨l.dropLast, l.getLast hne, (List.dropLast_concat_getLast hne).symm⟩
  rw [List.getLast?_concat]
  dsimp only
  simp only [List.length_append, List.length_singleton] at hi
  by_cases h : i < l'.length
  · rw [List.set_append_left _ _ h, List.dropLast_concat, List.eraseIdx_append_of_lt_length h]
    rw [List.eraseIdx_eq_take_drop_succ, List.set_eq_take_append_cons_drop, if_pos h]
    rw [List.append_assoc]
    exact List.Perm.append_left _ (List.perm_append_comm (l₁ := [z]))
  · have : i = l'.length := by omega
    subst this
    rw [List.set_append_right _ _ (Nat.le_refl _), List.eraseIdx_append_of_length_le (Nat.le_refl _)]
    simp

theorem growTo_zero (b p : Nat) : ∀ f, growTo b p f 0 = none := by
  intro f
  induction f with
  | zero => rfl
  | succ f ih => rw [growTo, if_pos (Nat.zero_le _)]; simpa using ih

/-- The bound on the length is needed: a full vector of `2^(b-1)` elements cannot grow, the doubled
capacity wraps to 0 and the loop never ends. -/
theorem push_diverges (b : Nat) (v : V α) (x : α) (h1 : v.sz = 2 ^ b) (h2 : v.msz = 2 ^ b) : push (b + 1) v x = none := by
  have hp : 0 < 2 ^ b := Nat.pow_pos (by omega)
  unfold push makeValid
  rw [h1, h2, if_neg (by omega), growTo, if_pos (Nat.le_refl _), ← Nat.pow_succ, Nat.mod_self, growTo_zero]
  rfl

/-! ### C33 -/

/-- C33 is false: on a vector holding `[1,2,3]`, after `v[0] = 9` the vector is `[9]`. -/
theorem store_false : ∃ v v' : V Int, Rep v [1, 2, 3] ∧ store 32 v 0 9 = some v' ∧ iter v' = [some 9] := by
  refine ⟨⟨3, 4, fun i => [1, 2, 3][i]?⟩, _, ⟨rfl, by decide, fun i _ => rfl⟩, rfl, rfl⟩

/-- In general `v[i] = x` truncates the vector after position `i`. -/
theorem store_truncates {b : Nat} {v : V α} {l : List α} (h : Rep v l) {i : Nat} (hi : i < l.length) (hb : 2 * i < 2 ^ b) (x : α) :
    ∃ v', store b v i x = some v' ∧ Rep v' (l.take i ++ [x]) := by
  obtain ⟨v1, h1, h2, h3, h4, h5⟩ := makeValid_spec (v := v) hb
  refine ⟨_, by unfold store; rw [h1]; rfl, ?_, ?_, ?_⟩
  · simp; omega
  · show i + 1 ≤ v1.msz; omega
  · intro j hj
    simp only [List.length_append, List.length_take, List.length_singleton] at hj
    show upd v1.data i (some x) j = _
    by_cases hji : j = i
    · subst hji
      rw [upd_same, List.getElem?_append_right (by simp; omega)]
      simp [Nat.min_eq_left (Nat.le_of_lt hi)]
    · have := h.cap
      have := h.len
      rw [upd_ne _ _ hji, h5 j (by omega), h.cell j (by omega), List.getElem?_append_left (by simp; omega),
        List.getElem?_take_of_lt (by omega)]

/-- What survives of C33: writing the last element changes only it, and writing one past the end
appends.  Missing: every other index. -/
theorem store_partial {b : Nat} {v : V α} {l : List α} (h : Rep v l) (x : α) :
    (∀ i, i + 1 = l.length → 2 * i < 2 ^ b → ∃ v', store b v i x = some v' ∧ Rep v' (l.set i x)) ∧
    (2 * l.length < 2 ^ b → ∃ v', store b v l.length x = some v' ∧ Rep v' (l ++ [x])) := by
  refine ⟨?_, ?_⟩
  · intro i hi hb
    obtain ⟨v', h1, h2⟩ := store_truncates h (i := i) (by omega) hb x
    refine ⟨v', h1, ?_⟩
    have : l.set i x = l.take i ++ [x] := by
      rw [List.set_eq_take_append_cons_drop, if_pos (by omega), List.drop_eq_nil_of_le (by omega)]
    rw [this]; exact h2
  · intro hb
    obtain ⟨v1, h1, h2, h3, h4, h5⟩ := makeValid_spec (v := v) hb
    refine ⟨_, by unfold store; rw [h1]; rfl, by simp, by show l.length + 1 ≤ v1.msz; omega, ?_⟩
    intro j hj
    simp only [List.length_append, List.length_singleton] at hj
    show upd v1.data l.length (some x) j = _
    by_cases hji : j = l.length
    · subst hji
      rw [upd_same, List.getElem?_append_right (Nat.le_refl _)]
      simp
    · have := h.cap
      have := h.len
      rw [upd_ne _ _ hji, h5 j (by omega), h.cell j (by omega), List.getElem?_append_left (by omega)]

example : ∃ v' : V Int, store 32 (mk' 0) 0 5 = some v' ∧ Rep v' [5] :=
  (store_partial (v := mk' 0) (l := []) ⟨rfl, Nat.zero_le _, by simp⟩ 5).2 (by decide)

end Verif.Vec
