import Verif.StdSet
/-!
# C151, C152: the helpers over `std::set<int>` and `std::vector<int>`
-/
namespace Verif.StdSet
open Verif.IO

/-- What a `std::set<int>` is when iterated. -/
def Sorted (s : List Int) : Prop := s.Pairwise (· < ·)

theorem mem_ins {x v : Int} : ∀ {s : List Int}, x ∈ ins v s ↔ x = v ∨ x ∈ s
  | [] => by simp [ins]
  | a :: s => by
    unfold ins
    by_cases h1 : v < a
    · rw [if_pos h1]; simp
    · rw [if_neg h1]
      by_cases h2 : a < v
      · rw [if_pos h2, List.mem_cons, mem_ins, List.mem_cons]
        constructor
        · rintro (h | h | h)
          · exact .inr (.inl h)
          · exact .inl h
          · exact .inr (.inr h)
        · rintro (h | h | h)
          · exact .inr (.inl h)
          · exact .inl h
          · exact .inr (.inr h)
      · rw [if_neg h2, List.mem_cons]
        constructor
        · exact .inr
        · rintro (h | h)
          · exact .inl (by omega)
          · exact h

theorem ins_sorted {v : Int} : ∀ {s : List Int}, Sorted s → Sorted (ins v s)
  | [], _ => List.pairwise_singleton _ _
  | a :: s, h => by
    have h' := List.pairwise_cons.1 h
    unfold ins
    by_cases h1 : v < a
    · rw [if_pos h1]
      refine List.pairwise_cons.2 ⟨fun x hx => ?_, h⟩
      rcases List.mem_cons.1 hx with e | e
      · omega
      · have := h'.1 x e; omega
    · rw [if_neg h1]
      by_cases h2 : a < v
      · rw [if_pos h2]
        refine List.pairwise_cons.2 ⟨fun x hx => ?_, ins_sorted h'.2⟩
        rcases mem_ins.1 hx with e | e
        · omega
        · exact h'.1 x e
      · rw [if_neg h2]; exact h

/-- Sets with the same elements are iterated alike. -/
theorem Sorted.ext : ∀ {s t : List Int}, Sorted s → Sorted t → (∀ x, x ∈ s ↔ x ∈ t) → s = t
  | [], [], _, _, _ => rfl
  | [], b :: t, _, _, h => absurd ((h b).2 (by simp)) (by simp)
  | a :: s, [], _, _, h => absurd ((h a).1 (by simp)) (by simp)
  | a :: s, b :: t, hs, ht, h => by
    have hs' := List.pairwise_cons.1 hs
    have ht' := List.pairwise_cons.1 ht
    have e : a = b := by
      rcases List.mem_cons.1 ((h a).1 (by simp)) with e | e
      · exact e
      · rcases List.mem_cons.1 ((h b).2 (by simp)) with e' | e'
        · exact e'.symm
        · have := hs'.1 b e'; have := ht'.1 a e; omega
    subst e
    refine congrArg (a :: ·) (Sorted.ext hs'.2 ht'.2 fun x => ?_)
    constructor
    · intro hx
      rcases List.mem_cons.1 ((h x).1 (by simp [hx])) with e | e
      · have := hs'.1 x hx; omega
      · exact e
    · intro hx
      rcases List.mem_cons.1 ((h x).2 (by simp [hx])) with e | e
      · have := ht'.1 x hx; omega
      · exact e

theorem fold_spec (q : Int → Bool) : ∀ (s o : List Int), Sorted o →
    Sorted (s.foldl (fun o v => if q v then ins v o else o) o) ∧ ∀ x, x ∈ s.foldl (fun o v => if q v then ins v o else o) o ↔ x ∈ o ∨ x ∈ s ∧ q x = true
  | [], o, ho => ⟨ho, fun x => by simp⟩
  | a :: s, o, ho => by
    rw [List.foldl_cons]
    by_cases ha : q a = true
    · rw [if_pos ha]
      obtain ⟨h1, h2⟩ := fold_spec q s (ins a o) (ins_sorted ho)
      refine ⟨h1, fun x => ?_⟩
      rw [h2, mem_ins, List.mem_cons]
      constructor
      · rintro ((rfl | h) | h)
        · exact .inr ⟨.inl rfl, ha⟩
        · exact .inl h
        · exact .inr ⟨.inr h.1, h.2⟩
      · rintro (h | ⟨rfl | h, h'⟩)
        · exact .inl (.inr h)
        · exact .inl (.inl rfl)
        · exact .inr ⟨h, h'⟩
    · rw [if_neg ha]
      obtain ⟨h1, h2⟩ := fold_spec q s o ho
      refine ⟨h1, fun x => ?_⟩
      rw [h2, List.mem_cons]
      constructor
      · rintro (h | h)
        · exact .inl h
        · exact .inr ⟨.inr h.1, h.2⟩
      · rintro (h | ⟨rfl | h, h'⟩)
        · exact .inl h
        · exact absurd h' ha
        · exact .inr ⟨h, h'⟩

theorem filter_spec (s : List Int) (p : Int → Bool) : Sorted (filter s p) ∧ ∀ x, x ∈ filter s p ↔ x ∈ s ∧ p x = true := by
  obtain ⟨h1, h2⟩ := fold_spec p s [] List.Pairwise.nil
  exact ⟨h1, fun x => by rw [filter, h2]; simp⟩

theorem inter_spec (s t : List Int) : Sorted (inter s t) ∧ ∀ x, x ∈ inter s t ↔ x ∈ s ∧ x ∈ t := by
  obtain ⟨h1, h2⟩ := fold_spec (fun e => t.contains e) s [] List.Pairwise.nil
  exact ⟨h1, fun x => by rw [inter, h2]; simp⟩

theorem remove_spec (s : List Int) (v : Int) : Sorted (remove s v) ∧ ∀ x, x ∈ remove s v ↔ x ∈ s ∧ x ≠ v := by
  have e : remove s v = s.foldl (fun o x => if decide (x ≠ v) = true then ins x o else o) [] := by
    unfold remove
    congr 1
    funext r x
    by_cases h : x = v
    · rw [if_pos h, if_neg (by simp [h])]
    · rw [if_neg h, if_pos (by simp [h])]
  obtain ⟨h1, h2⟩ := fold_spec (fun x => decide (x ≠ v)) s [] List.Pairwise.nil
  rw [← e] at h1 h2
  exact ⟨h1, fun x => by rw [h2]; simp⟩

theorem union_spec {s : List Int} (hs : Sorted s) (t : List Int) : Sorted (union s t) ∧ ∀ x, x ∈ union s t ↔ x ∈ s ∨ x ∈ t := by
  obtain ⟨h1, h2⟩ := fold_spec (fun _ => true) t s hs
  have e : union s t = t.foldl (fun o v => if true = true then ins v o else o) s := rfl
  rw [← e] at h1 h2
  exact ⟨h1, fun x => by rw [h2]; simp⟩

/-- C151.  The set helpers return sets, with the elements their names say. -/
theorem set_ops {s t : List Int} (hs : Sorted s) :
    (Sorted (union s t) ∧ Sorted (inter s t) ∧ (∀ v, Sorted (remove s v)) ∧ ∀ p, Sorted (filter s p)) ∧
    (∀ x, x ∈ union s t ↔ x ∈ s ∨ x ∈ t) ∧ (∀ x, x ∈ inter s t ↔ x ∈ s ∧ x ∈ t) ∧ (∀ v x, x ∈ remove s v ↔ x ∈ s ∧ x ≠ v) ∧
    ∀ p x, x ∈ filter s p ↔ x ∈ s ∧ p x = true :=
  ⟨⟨(union_spec hs t).1, (inter_spec s t).1, fun v => (remove_spec s v).1, fun p => (filter_spec s p).1⟩, (union_spec hs t).2, (inter_spec s t).2,
    fun v => (remove_spec s v).2, fun p => (filter_spec s p).2⟩

/-- C151.  So the usual laws hold, as equalities of the containers. -/
theorem set_laws {s t u : List Int} (hs : Sorted s) (ht : Sorted t) :
    union s t = union t s ∧ union (union s t) u = union s (union t u) ∧ inter s t = inter t s ∧ inter (inter s t) u = inter s (inter t u) ∧
    inter s (union t u) = union (inter s t) (inter s u) ∧ union s s = s ∧ inter s s = s ∧ union s (inter s t) = s ∧
    (∀ v, remove (ins v s) v = remove s v) ∧ ∀ p, union (filter s p) (filter s fun x => !p x) = s := by
  refine ⟨?_, ?_, ?_, ?_, ?_, ?_, ?_, ?_, fun v => ?_, fun p => ?_⟩
  · exact (union_spec hs t).1.ext (union_spec ht s).1 fun x => by rw [(union_spec hs t).2, (union_spec ht s).2, or_comm]
  · exact (union_spec (union_spec hs t).1 u).1.ext (union_spec hs _).1 fun x => by
      rw [(union_spec (union_spec hs t).1 u).2, (union_spec hs t).2, (union_spec hs _).2, (union_spec ht u).2, or_assoc]
  · exact (inter_spec s t).1.ext (inter_spec t s).1 fun x => by rw [(inter_spec s t).2, (inter_spec t s).2, and_comm]
  · exact (inter_spec _ u).1.ext (inter_spec s _).1 fun x => by rw [(inter_spec _ u).2, (inter_spec s t).2, (inter_spec s _).2, (inter_spec t u).2, and_assoc]
  · exact (inter_spec s _).1.ext (union_spec (inter_spec s t).1 _).1 fun x => by
      rw [(inter_spec s _).2, (union_spec ht u).2, (union_spec (inter_spec s t).1 _).2, (inter_spec s t).2, (inter_spec s u).2, and_or_left]
  · exact (union_spec hs s).1.ext hs fun x => by rw [(union_spec hs s).2, or_self]
  · exact (inter_spec s s).1.ext hs fun x => by rw [(inter_spec s s).2, and_self]
  · exact (union_spec hs _).1.ext hs fun x => by
      rw [(union_spec hs _).2, (inter_spec s t).2]
      exact ⟨fun h => h.elim id (·.1), .inl⟩
  · exact (remove_spec _ v).1.ext (remove_spec s v).1 fun x => by
      rw [(remove_spec _ v).2, (remove_spec s v).2, mem_ins]
      exact ⟨fun h => ⟨h.1.resolve_left h.2, h.2⟩, fun h => ⟨.inr h.1, h.2⟩⟩
  · exact (union_spec (filter_spec s p).1 _).1.ext hs fun x => by
      rw [(union_spec (filter_spec s p).1 _).2, (filter_spec s p).2, (filter_spec s _).2]
      cases p x <;> simp

/-- C151.  `min` and `max` of a set that is not empty; of the empty one, the largest and the smallest `int`. -/
theorem set_minmax {s : List Int} (hs : Sorted s) :
    (s ≠ [] → min s ∈ s ∧ max s ∈ s ∧ ∀ x, x ∈ s → min s ≤ x ∧ x ≤ max s) ∧ (s = [] → min s = 2147483647 ∧ max s = -2147483648) := by
  refine ⟨fun hne => ?_, fun h => by rw [h]; exact ⟨rfl, rfl⟩⟩
  have hmin : min s ∈ s ∧ ∀ x, x ∈ s → min s ≤ x := by
    cases s with
    | nil => exact absurd rfl hne
    | cons a s =>
      refine ⟨by show a ∈ a :: s; simp, fun x hx => ?_⟩
      show a ≤ x
      rcases List.mem_cons.1 hx with e | e
      · omega
      · have := (List.pairwise_cons.1 hs).1 x e; omega
  have hmax : max s ∈ s ∧ ∀ x, x ∈ s → x ≤ max s := by
    have e : max s = s.getLast hne := by unfold max; rw [List.getLast?_eq_some_getLast hne]; rfl
    rw [e]
    refine ⟨List.getLast_mem hne, fun x hx => ?_⟩
    have hd := List.dropLast_concat_getLast hne
    rw [← hd] at hx
    have hs' : Sorted (s.dropLast ++ [s.getLast hne]) := by rw [hd]; exact hs
    rcases List.mem_append.1 hx with h | h
    · have := (List.pairwise_append.1 hs').2.2 x h _ (List.mem_singleton.2 rfl); omega
    · rw [List.mem_singleton.1 h]; omega
  exact ⟨hmin.1, hmax.1, fun x hx => ⟨hmin.2 x hx, hmax.2 x hx⟩⟩

/-- C151.  `member` says whether some element satisfies the predicate. -/
theorem member_iff {α : Type} (p : α → Bool) : ∀ c : List α, member c p = true ↔ ∃ v, v ∈ c ∧ p v = true
  | [] => by simp [member]
  | a :: c => by
    unfold member
    by_cases h : p a = true
    · rw [if_pos h]; exact ⟨fun _ => ⟨a, by simp, h⟩, fun _ => rfl⟩
    · rw [if_neg h, member_iff p c]
      constructor
      · rintro ⟨v, h1, h2⟩; exact ⟨v, by simp [h1], h2⟩
      · rintro ⟨v, h1, h2⟩
        rcases List.mem_cons.1 h1 with rfl | h1
        · exact absurd h2 h
        · exact ⟨v, h1, h2⟩

/-- `foldl` goes through the container in order: `acc i` is the accumulator after `i` elements. -/
theorem foldl_spec {α β : Type} (op : β → α → β) : ∀ (c : List α) (a : β), ∃ acc : Nat → β,
    acc 0 = a ∧ (∀ i (h : i < c.length), acc (i + 1) = op (acc i) c[i]) ∧ foldl c op a = acc c.length
  | [], a => ⟨fun _ => a, rfl, fun i h => absurd h (Nat.not_lt_zero i), rfl⟩
  | v :: c, a => by
    obtain ⟨acc, h0, h1, h2⟩ := foldl_spec op c (op a v)
    refine ⟨fun | 0 => a | i + 1 => acc i, rfl, fun i h => ?_, h2⟩
    cases i with
    | zero => exact h0
    | succ i => exact h1 i (by simpa using h)

/-- The legality test of the ruler examples (examples/gruler.cpp:104, examples/gruler_mid.cpp:113): the fold of `||` says whether
some element passes, and agrees with `std::member`. -/
theorem foldl_any {α : Type} (p : α → Bool) (c : List α) :
    (foldl c (fun a v => a || p v) false = true ↔ ∃ v, v ∈ c ∧ p v = true) ∧ foldl c (fun a v => a || p v) false = member c p := by
  have h : ∀ (c : List α) (b : Bool), foldl c (fun a v => a || p v) b = (b || member c p) := by
    intro c
    induction c with
    | nil => intro b; simp [foldl, member]
    | cons v c ih =>
      intro b
      have e : foldl (v :: c) (fun a v => a || p v) b = foldl c (fun a v => a || p v) (b || p v) := rfl
      rw [e, ih]
      cases hv : p v <;> simp [member, hv]
  have h0 : foldl c (fun a v => a || p v) false = member c p := by rw [h]; rfl
  exact ⟨by rw [h0]; exact member_iff p c, h0⟩

example : foldl [7, 2, 5] (fun a (v : Int) => 10 * a + v) 1 = 1725 := by decide

theorem sum_from {α : Type} (t : α → Int) : ∀ (c : List α) (a r : Int), sum t c a = some r ↔
    r = a + (c.map t).sum ∧ ∀ k, 1 ≤ k → k ≤ c.length → -2 ^ 31 ≤ a + ((c.take k).map t).sum ∧ a + ((c.take k).map t).sum < 2 ^ 31
  | [], a, r => by
    simp only [sum, List.map_nil, List.sum_nil, Int.add_zero, Option.some.injEq, List.length_nil]
    exact ⟨fun h => ⟨h.symm, fun k h1 h2 => by omega⟩, fun h => h.1.symm⟩
  | v :: c, a, r => by
    unfold sum FArr.int?
    simp only [List.map_cons, List.sum_cons, List.length_cons]
    by_cases hb : -2 ^ 31 ≤ a + t v ∧ a + t v < 2 ^ 31
    · rw [if_pos hb, Option.bind_some, sum_from t c]
      constructor
      · rintro ⟨h1, h2⟩
        refine ⟨by omega, fun k k1 k2 => ?_⟩
        obtain ⟨k, rfl⟩ : ∃ j, k = j + 1 := ⟨k - 1, by omega⟩
        rw [List.take_succ_cons, List.map_cons, List.sum_cons]
        by_cases hk : k = 0
        · subst hk; simpa using hb
        · have := h2 k (by omega) (by omega); omega
      · rintro ⟨h1, h2⟩
        refine ⟨by omega, fun k k1 k2 => ?_⟩
        have := h2 (k + 1) (by omega) (by omega)
        rw [List.take_succ_cons, List.map_cons, List.sum_cons] at this
        omega
    · rw [if_neg hb, Option.bind_none]
      refine ⟨fun h => (by cases h), fun ⟨_, h⟩ => ?_⟩
      have := h 1 (by omega) (by omega)
      simp only [List.take_succ_cons, List.take_zero, List.map_cons, List.map_nil, List.sum_cons, List.sum_nil, Int.add_zero] at this
      exact absurd this hb

/-- C151.  `sum` in `int` is the sum, and is defined exactly when every partial sum in the order of iteration fits. -/
theorem sum_spec {α : Type} (t : α → Int) (c : List α) (r : Int) : sum t c 0 = some r ↔
    r = (c.map t).sum ∧ ∀ k, 1 ≤ k → k ≤ c.length → -2 ^ 31 ≤ ((c.take k).map t).sum ∧ ((c.take k).map t).sum < 2 ^ 31 := by
  rw [sum_from]
  simp only [Int.zero_add]

/-- C151.  That the total fits is not enough; the order of a vector matters. -/
theorem sum_order_false : sum (fun x : Int => x) [2147483647, 1, -1] 0 = none ∧ sum (fun x : Int => x) [2147483647, -1, 1] 0 = some 2147483647 := by decide

example : Sorted [-3, 0, 7] ∧ Sorted [0, 8] ∧ union [-3, 0, 7] [0, 8] = [-3, 0, 7, 8] ∧ inter [-3, 0, 7] [0, 8] = [0] ∧
    sum (fun x => x * x) [-3, 0, 7] 0 = some 58 := by unfold Sorted; decide

/-! ### Hashes -/

theorem rot_inj {a b : BitVec 64} (h : a.rotateLeft 3 = b.rotateLeft 3) : a = b := by
  have := congrArg (fun x : BitVec 64 => x.rotateRight 3) h
  refine BitVec.eq_of_getLsbD_eq fun i hi => ?_
  have e := congrArg (fun x : BitVec 64 => x.getLsbD ((i + 3) % 64)) h
  simp only [BitVec.getLsbD_rotateLeft, Nat.reduceMod] at e
  by_cases h3 : (i + 3) % 64 < 3
  · rw [decide_eq_true h3] at e
    simp only [cond_true] at e
    have : 64 - 3 + (i + 3) % 64 = i := by omega
    rwa [this] at e
  · rw [decide_eq_false h3] at e
    have h64 : (i + 3) % 64 < 64 := by omega
    simp only [cond_false, h64, decide_true, Bool.true_and] at e
    have : (i + 3) % 64 - 3 = i := by omega
    rwa [this] at e

theorem xor_right {a b c : BitVec 64} (h : a ^^^ c = b ^^^ c) : a = b := by
  have := congrArg (· ^^^ c) h
  simpa [BitVec.xor_assoc] using this

theorem xor_left {a b c : BitVec 64} (h : c ^^^ a = c ^^^ b) : a = b := by
  rw [BitVec.xor_comm c a, BitVec.xor_comm c b] at h
  exact xor_right h

theorem hashVec_from_inj (q : List Int) : ∀ {g h : BitVec 64}, q.foldl (fun h e => h.rotateLeft 3 ^^^ BitVec.ofInt 64 e) g =
    q.foldl (fun h e => h.rotateLeft 3 ^^^ BitVec.ofInt 64 e) h → g = h := by
  induction q with
  | nil => intro g h e; exact e
  | cons a q ih => intro g h e; exact rot_inj (xor_right (ih e))

theorem ofInt_inj {a b : Int} (ha : -2147483648 ≤ a ∧ a ≤ 2147483647) (hb : -2147483648 ≤ b ∧ b ≤ 2147483647) (h : BitVec.ofInt 64 a = BitVec.ofInt 64 b) : a = b := by
  have e := congrArg BitVec.toInt h
  rw [BitVec.toInt_ofInt, BitVec.toInt_ofInt, Int.bmod_eq_of_le (by omega) (by omega), Int.bmod_eq_of_le (by omega) (by omega)] at e
  exact e

/-- C152.  Two vectors of `int` that differ in one place have different hashes. -/
theorem vec_hash_one {p q : List Int} {a b : Int} (ha : -2147483648 ≤ a ∧ a ≤ 2147483647) (hb : -2147483648 ≤ b ∧ b ≤ 2147483647)
    (h : hashVec (p ++ a :: q) = hashVec (p ++ b :: q)) : a = b := by
  unfold hashVec at h
  rw [List.foldl_append, List.foldl_append, List.foldl_cons, List.foldl_cons] at h
  exact ofInt_inj ha hb (xor_left (hashVec_from_inj q h))

/-- C152.  Differing in two places, or in length, they need not. -/
theorem vec_hash_false : hashVec [0, 8] = hashVec [1, 0] ∧ hashVec [] = hashVec [0] := by decide

theorem hashSet_tail : ∀ (t : List Int) (h : BitVec 64), t.foldl (fun (h : BitVec 64) e => (h <<< 3) ||| BitVec.ofInt 64 e) h =
    (h <<< (3 * t.length)) ||| hashSet t
  | [], h => by simp [hashSet]
  | e :: t, h => by
    have e1 : hashSet (e :: t) = (BitVec.ofInt 64 e <<< (3 * t.length)) ||| hashSet t := by
      unfold hashSet
      rw [List.foldl_cons, hashSet_tail t]
      unfold hashSet
      simp
    rw [List.foldl_cons, hashSet_tail t, e1, BitVec.shiftLeft_or_distrib, ← BitVec.shiftLeft_add, BitVec.or_assoc, List.length_cons]
    congr 2
    omega

/-- C152.  The hash of a set of at least 22 elements depends on its 22 largest alone. -/
theorem set_hash_tail {s t : List Int} (h : 22 ≤ t.length) : hashSet (s ++ t) = hashSet t := by
  have e : hashSet (s ++ t) = t.foldl (fun (h : BitVec 64) e => (h <<< 3) ||| BitVec.ofInt 64 e) (hashSet s) := by unfold hashSet; rw [List.foldl_append]
  rw [e, hashSet_tail t, BitVec.shiftLeft_eq_zero (by omega), BitVec.zero_or]

/-- C152.  With 21 this fails. -/
theorem set_hash_tail_sharp : hashSet (1 :: (List.range 21).map fun i : Nat => ((i : Int) + 2)) ≠ hashSet ((List.range 21).map fun i : Nat => ((i : Int) + 2)) := by decide +kernel

/-- C152.  Sets with the same elements have the same hash. -/
theorem set_hash_same {s t : List Int} (hs : Sorted s) (ht : Sorted t) (h : ∀ x, x ∈ s ↔ x ∈ t) : hashSet s = hashSet t := by rw [hs.ext ht h]

/-! ### Printing -/

theorem dig_ok {n : Nat} (h : n < 10) : isDig (Char.ofNat (48 + n)) = true ∧ (Char.ofNat (48 + n)).toNat = 48 + n := by
  have : ∀ n, n < 10 → isDig (Char.ofNat (48 + n)) = true ∧ (Char.ofNat (48 + n)).toNat = 48 + n := by decide
  exact this n h

theorem digVal_snoc (c : Char) : ∀ (l : List Char) (a : Nat), digVal a (l ++ [c]) = digVal a l * 10 + (c.toNat - 48)
  | [], a => rfl
  | d :: l, a => by
    rw [List.cons_append]
    exact digVal_snoc c l _

theorem digs_ok (n : Nat) : digs n ≠ [] ∧ (∀ c, c ∈ digs n → isDig c = true) ∧ digVal 0 (digs n) = n := by
  induction n using Nat.strongRecOn with
  | ind n ih =>
    unfold digs
    by_cases h : n < 10
    · rw [if_pos h]
      obtain ⟨h1, h2⟩ := dig_ok h
      refine ⟨by simp, fun c hc => by rw [List.mem_singleton.1 hc]; exact h1, ?_⟩
      have := digVal_snoc (Char.ofNat (48 + n)) [] 0
      rw [List.nil_append] at this
      rw [this, h2]
      show 0 * 10 + _ = n
      omega
    · rw [if_neg h]
      obtain ⟨i1, i2, i3⟩ := ih (n / 10) (by omega)
      obtain ⟨h1, h2⟩ := dig_ok (n := n % 10) (by omega)
      refine ⟨by simp, fun c hc => ?_, ?_⟩
      · rcases List.mem_append.1 hc with hc | hc
        · exact i2 c hc
        · rw [List.mem_singleton.1 hc]; exact h1
      · rw [digVal_snoc, i3, h2]
        omega

/-- C152.  What is written for an `int` is a numeral the readers take for the same `int`. -/
theorem put_numeral (v : Int) : Numeral (put v) v := by
  obtain ⟨h1, h2, h3⟩ := digs_ok v.natAbs
  refine ⟨digs v.natAbs, h1, h2, ?_⟩
  unfold put
  by_cases h : v < 0
  · rw [if_pos h, h3]; exact .inr (.inl ⟨rfl, by omega⟩)
  · rw [if_neg h, h3]; exact .inl ⟨rfl, by omega⟩

theorem put_chars {v : Int} {c : Char} (h : c ∈ put v) : isDig c = true ∨ c = '-' := by
  unfold put at h
  split at h
  · rcases List.mem_cons.1 h with e | e
    · exact .inr e
    · exact .inl ((digs_ok _).2.1 c e)
  · exact .inl ((digs_ok _).2.1 c h)

theorem put_inj {v w : Int} (h : put v = put w) : v = w := by
  obtain ⟨v1, v2, v3⟩ := digs_ok v.natAbs
  obtain ⟨w1, w2, w3⟩ := digs_ok w.natAbs
  have minus : ∀ n, digs n ≠ '-' :: digs v.natAbs ∧ digs n ≠ '-' :: digs w.natAbs := fun n =>
    ⟨fun e => absurd ((digs_ok n).2.1 '-' (by rw [e]; simp)) (by decide), fun e => absurd ((digs_ok n).2.1 '-' (by rw [e]; simp)) (by decide)⟩
  unfold put at h
  by_cases hv : v < 0
  · rw [if_pos hv] at h
    by_cases hw : w < 0
    · rw [if_pos hw] at h
      have := congrArg (digVal 0) (List.cons.inj h).2
      omega
    · rw [if_neg hw] at h
      exact absurd h.symm (minus _).1
  · rw [if_neg hv] at h
    by_cases hw : w < 0
    · rw [if_pos hw] at h
      exact absurd h (minus _).2
    · rw [if_neg hw] at h
      have := congrArg (digVal 0) h
      omega

/-- Two texts split by the first character of some kind agree in both parts. -/
theorem split_eq {d : Char → Bool} : ∀ {a b u v : List Char}, (∀ c, c ∈ a → d c = false) → (∀ c, c ∈ b → d c = false) →
    (∀ c, u.head? = some c → d c = true) → (∀ c, v.head? = some c → d c = true) → a ++ u = b ++ v → a = b ∧ u = v
  | [], [], _, _, _, _, _, _, h => ⟨rfl, h⟩
  | [], y :: b, u, v, _, hb, hu, _, h => by
    rw [List.nil_append] at h
    have := hu y (by rw [h]; rfl)
    rw [hb y (by simp)] at this
    cases this
  | x :: a, [], u, v, ha, _, _, hv, h => by
    rw [List.nil_append] at h
    have := hv x (by rw [← h]; rfl)
    rw [ha x (by simp)] at this
    cases this
  | x :: a, y :: b, u, v, ha, hb, hu, hv, h => by
    rw [List.cons_append, List.cons_append, List.cons.injEq] at h
    obtain ⟨e1, e2⟩ := split_eq (fun c hc => ha c (by simp [hc])) (fun c hc => hb c (by simp [hc])) hu hv h.2
    exact ⟨by rw [h.1, e1], e2⟩

/-- The elements with commas between them. -/
def commas : List Int → List Char
  | [] => []
  | [v] => put v
  | v :: w :: s => put v ++ ',' :: commas (w :: s)

theorem putFrom_eq (size : Nat) : ∀ (s : List Int) (k : Nat), k + s.length = size → putFrom size k s = commas s
  | [], _, _ => rfl
  | [v], k, h => by
    unfold putFrom
    rw [if_pos (by simp at h; omega)]
    simp [putFrom, commas]
  | v :: w :: s, k, h => by
    unfold putFrom
    rw [if_neg (by simp at h; omega), putFrom_eq size (w :: s) (k + 1) (by simp at h ⊢; omega)]
    simp [commas]

theorem put_ne (v : Int) : put v ≠ [] := by
  unfold put
  split
  · simp
  · exact (digs_ok _).1

theorem commas_inj : ∀ {s t : List Int}, commas s = commas t → s = t
  | [], [], _ => rfl
  | [], [w], h => absurd h.symm (put_ne w)
  | [], w :: x :: t, h => by simp [commas] at h
  | [v], [], h => absurd h (put_ne v)
  | v :: x :: s, [], h => by simp [commas] at h
  | v :: s, w :: t, h => by
    have hd : ∀ (v : Int) c, c ∈ put v → (fun c : Char => c == ',') c = false := fun v c hc => by
      rcases put_chars hc with h | h
      · cases he : (c == ',') with
        | false => exact he
        | true => rw [beq_iff_eq] at he; rw [he] at h; exact absurd h (by decide)
      · rw [h]; decide
    have form : ∀ (v : Int) (s : List Int), ∃ u, commas (v :: s) = put v ++ u ∧ (∀ c, u.head? = some c → (fun c : Char => c == ',') c = true) ∧
        (s = [] → u = []) ∧ (s ≠ [] → u = ',' :: commas s) := by
      intro v s
      cases s with
      | nil => exact ⟨[], by simp [commas], by simp, fun _ => rfl, fun h => absurd rfl h⟩
      | cons w s => exact ⟨',' :: commas (w :: s), rfl, fun c hc => (by cases hc; rfl), fun h => (by cases h), fun _ => rfl⟩
    obtain ⟨u, a1, a2, a3, a4⟩ := form v s
    obtain ⟨u', b1, b2, b3, b4⟩ := form w t
    rw [a1, b1] at h
    obtain ⟨e1, e2⟩ := split_eq (hd v) (hd w) a2 b2 h
    refine List.cons_eq_cons.2 ⟨put_inj e1, ?_⟩
    by_cases hs : s = []
    · by_cases ht : t = []
      · rw [hs, ht]
      · rw [a3 hs, b4 ht] at e2; cases e2
    · by_cases ht : t = []
      · rw [a4 hs, b3 ht] at e2; cases e2
      · rw [a4 hs, b4 ht, List.cons.injEq] at e2
        exact commas_inj e2.2
termination_by s => s.length

/-- C152.  A printed set is its elements in order with a comma between two, in braces. -/
theorem set_print (s : List Int) : putSet s = '{' :: commas s ++ ['}'] := by
  unfold putSet
  rw [putFrom_eq s.length s 0 (by omega)]

/-- C152.  Different sets are printed differently. -/
theorem set_print_inj {s t : List Int} (h : putSet s = putSet t) : s = t := by
  rw [set_print, set_print, List.cons_append, List.cons_append, List.cons.injEq] at h
  exact commas_inj (List.append_cancel_right h.2)

theorem body_inj : ∀ {s t : List Int}, (s.flatMap fun v => put v ++ [' ']) = (t.flatMap fun v => put v ++ [' ']) → s = t
  | [], [], _ => rfl
  | [], w :: t, h => by simp [put_ne] at h
  | v :: s, [], h => by simp [put_ne] at h
  | v :: s, w :: t, h => by
    have hd : ∀ (v : Int) c, c ∈ put v → (fun c : Char => c == ' ') c = false := fun v c hc => by
      rcases put_chars hc with h | h
      · cases he : (c == ' ') with
        | false => exact he
        | true => rw [beq_iff_eq] at he; rw [he] at h; exact absurd h (by decide)
      · rw [h]; decide
    rw [List.flatMap_cons, List.flatMap_cons, List.append_assoc, List.append_assoc] at h
    obtain ⟨e1, e2⟩ := split_eq (hd v) (hd w) (fun c hc => by cases hc; rfl) (fun c hc => by cases hc; rfl) h
    rw [List.singleton_append, List.singleton_append, List.cons.injEq] at e2
    rw [put_inj e1, body_inj e2.2]

/-- C152.  Different vectors are printed differently. -/
theorem vec_print_inj {s t : List Int} (h : putVec s = putVec t) : s = t := by
  unfold putVec at h
  have hd : ∀ n : Nat, ∀ c, c ∈ digs n → (fun c : Char => c == ')') c = false := fun n c hc => by
    have h := (digs_ok n).2.1 c hc
    cases he : (c == ')') with
    | false => exact he
    | true => rw [beq_iff_eq] at he; rw [he] at h; exact absurd h (by decide)
  simp only [List.cons_append, List.append_assoc, List.cons.injEq, true_and] at h
  obtain ⟨_, e⟩ := split_eq (hd _) (hd _) (fun c hc => by cases hc; rfl) (fun c hc => by cases hc; rfl) h
  simp only [List.nil_append, List.cons.injEq, true_and] at e
  exact body_inj (List.append_cancel_right e)

example : putSet [-12, 0, 7] = "{-12,0,7}".toList ∧ putSet [] = "{}".toList ∧ putVec [5, -1] = "(2)[5 -1 ]".toList := by decide +kernel

end Verif.StdSet
