import Verif.FArr
/-!
# C44, C45, C69: flat arrays and matrices
-/
namespace Verif.FArr
variable {α : Type}

/-! ### C45 -/

/-- The value of an array: its elements.  A live object has storage unless it is empty. -/
def Val (a : F α) (l : List α) : Prop := a.mx = l.length ∧ ∀ i (h : i < l.length), ∃ t, a.tab = some t ∧ t i = l[i]

theorem Val.get {a : F α} {l : List α} (h : Val a l) (i : Nat) : FArr.get a i = l[i]? := by
  unfold FArr.get
  rw [h.1]
  split
  · rename_i hi
    obtain ⟨t, h1, h2⟩ := h.2 i hi
    rw [h1, List.getElem?_eq_getElem hi, ← h2]; rfl
  · rename_i hi; rw [List.getElem?_eq_none (by omega)]

theorem eqLoop_spec {eq : α → α → Bool} {a b : F α} {l l' : List α} (ha : Val a l) (hb : Val b l') (hl : l.length = l'.length) :
    ∀ (f i : Nat), l.length - i < f → i ≤ l.length → l.length < 2 ^ 31 →
      ∃ r, eqLoop eq a b f ((l.length - i : Nat) : Int) i = some r ∧
        (r = true ↔ ∀ j (h : j < l.length), i ≤ j → eq l[j] (l'[j]'(by omega)) = true) := by
  intro f
  induction f with
  | zero => intro i h; omega
  | succ f ih =>
    intro i hf hi hb31
    rw [eqLoop, if_neg (by omega)]
    by_cases hc : l.length - i = 0
    · rw [hc]
      exact ⟨true, by simp, by simp; intro j hj hij; omega⟩
    · have hlt : i < l.length := by omega
      rw [if_pos (by omega), ha.get i, hb.get i, List.getElem?_eq_getElem hlt, List.getElem?_eq_getElem (by omega)]
      simp only [Option.bind_some]
      split
      · rename_i he
        obtain ⟨r, h1, h2⟩ := ih (i + 1) (by omega) (by omega) hb31
        refine ⟨r, ?_, ?_⟩
        · rw [← h1]; congr 1; omega
        · rw [h2]
          constructor
          · intro h j hj hij
            by_cases hji : j = i
            · subst hji; exact he
            · exact h j hj (by omega)
          · intro h j hj hij; exact h j hj (by omega)
      · rename_i he
        refine ⟨false, ?_, ?_⟩
        · simp; omega
        · simp only [Bool.false_eq_true, false_iff]
          intro h; exact he (h i hlt (Nat.le_refl _))

/-- C45, equality: below 2^31 elements `==` says whether the lengths and all elements agree. -/
theorem farray_eq_partial {eq : α → α → Bool} {a b : F α} {l l' : List α} (ha : Val a l) (hb : Val b l') (hn : l.length < 2 ^ 31) :
    ∃ r, eqA eq a b = some r ∧ (r = true ↔ l.length = l'.length ∧ ∀ j (h : j < l.length) (h' : j < l'.length), eq l[j] l'[j] = true) := by
  unfold eqA
  rw [ha.1, hb.1]
  split
  · rename_i hl
    obtain ⟨r, h1, h2⟩ := eqLoop_spec (eq := eq) ha hb hl (l.length + 2) 0 (by omega) (by omega) hn
    refine ⟨r, ?_, ?_⟩
    · have hbm : Int.bmod (l.length : Int) (2 ^ 32) = ((l.length - 0 : Nat) : Int) := by
        generalize l.length = n at hn
        rw [Int.bmod_eq_of_le] <;> omega
      rw [hbm]; exact h1
    · rw [h2]
      exact ⟨fun h => ⟨hl, fun j hj _ => h j hj (Nat.zero_le _)⟩, fun h j hj _ => h.2 j hj (by omega)⟩
  · rename_i hl
    exact ⟨false, rfl, by simp [hl]⟩

/-- With equality of elements proper, `==` is equality of the values. -/
theorem farray_eq_list [DecidableEq α] {a b : F α} {l l' : List α} (ha : Val a l) (hb : Val b l') (hn : l.length < 2 ^ 31) :
    eqA (fun x y => decide (x = y)) a b = some (decide (l = l')) := by
  obtain ⟨r, h1, h2⟩ := farray_eq_partial (eq := fun x y => decide (x = y)) ha hb hn
  rw [h1, Option.some.injEq]
  rw [Bool.eq_iff_iff, h2, decide_eq_true_iff]
  constructor
  · rintro ⟨h3, h4⟩
    exact List.ext_getElem h3 (fun j hj hj' => by simpa using h4 j hj hj')
  · rintro rfl; exact ⟨rfl, fun j hj _ => by simp⟩

theorem hashLoop_list (h : α → BitVec 64) (t : Nat → α) : ∀ n, hashLoop h t n = ((List.range n).map t).foldl (fun x y => x.rotateLeft 3 ^^^ h y) 0 := by
  intro n
  induction n with
  | zero => rfl
  | succ n ih => rw [hashLoop, ih, List.range_succ, List.map_append, List.foldl_append]; rfl

theorem Val.hash {a : F α} {l : List α} (hv : Val a l) (h : α → BitVec 64) :
    FArr.hash h a = some (l.foldl (fun x y => x.rotateLeft 3 ^^^ h y) 0) := by
  unfold FArr.hash
  cases l with
  | nil => rw [hv.1]; rfl
  | cons x r =>
    rw [if_neg (by rw [hv.1]; simp)]
    obtain ⟨t, h1, _⟩ := hv.2 0 (by simp)
    rw [h1]
    simp only [Option.map_some, Option.some.injEq]
    rw [hashLoop_list, hv.1]
    congr 1
    refine List.ext_getElem (by simp) (fun j hj hj' => ?_)
    obtain ⟨t', h2, h3⟩ := hv.2 j hj'
    rw [h1] at h2
    simp only [Option.some.injEq] at h2
    subst h2
    simp [h3]

/-- C45, hash: arrays that compare equal hash alike, if the elements do. -/
theorem farray_hash {eq : α → α → Bool} {h : α → BitVec 64} (hh : ∀ x y, eq x y = true → h x = h y)
    {a b : F α} {l l' : List α} (ha : Val a l) (hb : Val b l') (hn : l.length < 2 ^ 31) (he : eqA eq a b = some true) :
    ∃ v, FArr.hash h a = some v ∧ FArr.hash h b = some v := by
  obtain ⟨r, h1, h2⟩ := farray_eq_partial (eq := eq) ha hb hn
  rw [he] at h1
  simp only [Option.some.injEq] at h1
  obtain ⟨hl, h3⟩ := h2.1 h1.symm
  refine ⟨_, ha.hash h, ?_⟩
  rw [hb.hash h]
  congr 1
  have : l.map h = l'.map h := List.ext_getElem (by simpa using hl) (fun j hj hj' => by
    simp only [List.length_map] at hj hj'
    simpa using hh _ _ (h3 j hj hj'))
  have e : ∀ m : List α, m.foldl (fun x y => x.rotateLeft 3 ^^^ h y) (0 : BitVec 64) = (m.map h).foldl (fun x y => x.rotateLeft 3 ^^^ y) 0 := by
    intro m; rw [List.foldl_map]
  rw [e, e, this]

theorem val_fill (v : α) (n : Nat) : Val (fill v n) (List.replicate n v) :=
  ⟨by simp [fill], fun i hi => ⟨_, rfl, by simp⟩⟩

/-- C45 is false at 2^32 elements: the counter starts at 0 and all arrays of that size are equal. -/
theorem farray_eq_false : ¬ ∀ (a b : F Nat) (l l' : List Nat), Val a l → Val b l' →
    ∃ r, eqA (fun x y => decide (x = y)) a b = some r ∧ (r = true ↔ l = l') := by
  intro h
  obtain ⟨r, h1, h2⟩ := h (fill 0 (2 ^ 32)) (fill 1 (2 ^ 32)) _ _ (val_fill 0 _) (val_fill 1 _)
  have h3 : eqA (fun x y => decide (x = y)) (fill 0 (2 ^ 32)) (fill 1 (2 ^ 32)) = some true := by
    unfold eqA
    show (if (2 ^ 32 : Nat) = 2 ^ 32 then eqLoop _ _ _ (2 ^ 32 + 2) (Int.bmod ((2 ^ 32 : Nat) : Int) (2 ^ 32)) 0 else _) = _
    rw [if_pos rfl, show Int.bmod ((2 ^ 32 : Nat) : Int) (2 ^ 32) = 0 by decide, show (2 ^ 32 + 2 : Nat) = (2 ^ 32 + 1) + 1 from rfl, eqLoop]
    simp
  rw [h3] at h1
  simp only [Option.some.injEq] at h1
  have h4 := h2.1 h1.symm
  have h5 : (List.replicate (2 ^ 32) 0).head? = (List.replicate (2 ^ 32) 1).head? := by rw [h4]
  rw [List.head?_replicate, List.head?_replicate] at h5
  simp at h5

/-! ### C69: copies and moves -/

theorem copyLoop_apply (dst src : Nat → α) : ∀ n i, copyLoop dst src n i = if i < n then src i else dst i := by
  intro n
  induction n with
  | zero => intro i; simp [copyLoop]
  | succ n ih =>
    intro i
    rw [copyLoop, upd_apply, ih]
    by_cases h : i = n
    · subst h; simp
    · rw [if_neg h]
      by_cases h2 : i < n
      · rw [if_pos h2, if_pos (by omega)]
      · rw [if_neg h2, if_neg (by omega)]

theorem copyInto_val {dst src : Option (Nat → α)} {l : List α} (hs : Val ⟨src, l.length⟩ l) (hd : l.length ≠ 0 → dst ≠ none) :
    ∃ t, copyInto dst src l.length = some t ∧ Val ⟨t, l.length⟩ l := by
  unfold copyInto
  split
  · rename_i h0
    exact ⟨dst, rfl, rfl, fun i hi => by omega⟩
  · rename_i h0
    obtain ⟨t, ht⟩ := Option.ne_none_iff_exists'.1 (hd h0)
    obtain ⟨s, hs1, _⟩ := hs.2 0 (by omega)
    dsimp only at hs1
    rw [ht, hs1]
    refine ⟨_, rfl, rfl, fun i hi => ⟨_, rfl, ?_⟩⟩
    obtain ⟨s', h1, h2⟩ := hs.2 i hi
    rw [hs1] at h1
    simp only [Option.some.injEq] at h1
    subst h1
    rw [copyLoop_apply, if_pos hi, h2]

/-- Copy construction and moves give an object of the same value; the source of a copy is untouched
(it is an argument), the source of a move reports its old size. -/
theorem farray_copy {a : F α} {l : List α} (d : α) (ha : Val a l) :
    (∃ c, copy d a = some c ∧ Val c l) ∧ Val (move a).1 l ∧ (move a).2.mx = l.length := by
  refine ⟨?_, ha, ha.1⟩
  obtain ⟨t, h1, h2⟩ := copyInto_val (dst := some fun _ => d) (src := a.tab) (l := l) ⟨rfl, ha.2⟩ (by simp)
  exact ⟨_, by unfold copy; rw [ha.1, h1]; rfl, h2⟩

/-- C69, the part that holds: assignment to a live array, or to any array of another size. -/
theorem farray_assign_partial {a t : F α} {l : List α} (d : α) (ht : Val t l) (ha : (∃ la, Val a la) ∨ a.mx ≠ l.length) :
    ∃ c, assign d a t = some c ∧ Val c l := by
  have hd : l.length ≠ 0 → (if a.mx ≠ t.mx then some (fun _ => d) else a.tab) ≠ none := by
    intro h0
    split
    · simp
    · rename_i he
      rcases ha with ⟨la, hla⟩ | hne
      · have : a.mx = t.mx := Classical.not_not.1 he
        rw [hla.1, ht.1] at this
        obtain ⟨s, h1, _⟩ := hla.2 0 (by omega)
        rw [h1]; simp
      · exact absurd (ht.1 ▸ hne) he
  obtain ⟨s, h1, h2⟩ := copyInto_val (src := t.tab) (l := l) ⟨rfl, ht.2⟩ hd
  refine ⟨_, ?_, h2⟩
  unfold assign
  dsimp only
  rw [ht.1] at h1 ⊢
  rw [h1]; rfl

/-- C69 is false: an array that was moved from cannot take a value of its old size. -/
theorem farray_assign_false : ¬ ∀ (d : Nat) (a t : F Nat) (l : List Nat), (∃ la, Val a la) → Val t l →
    ∃ c, assign d (move a).2 t = some c ∧ Val c l := by
  intro h
  obtain ⟨c, h1, _⟩ := h 0 (fill 1 2) (fill 5 2) _ ⟨_, val_fill 1 2⟩ (val_fill 5 2)
  simp [assign, move, fill, copyInto] at h1

/-- Moving an array onto itself loses its elements but not its size. -/
theorem farray_moveSelf (v : α) : ∃ a : F α, (∃ l, Val a l) ∧ (moveSelf a).mx = 1 ∧ get (moveSelf a) 0 = none :=
  ⟨fill v 1, ⟨_, val_fill v 1⟩, rfl, rfl⟩

/-- Element writes act on one element. -/
theorem farray_set {a : F α} {l : List α} (ha : Val a l) (i : Nat) (v : α) (hi : i < l.length) :
    ∃ c, set a i v = some c ∧ Val c (l.set i v) := by
  obtain ⟨t, h1, _⟩ := ha.2 i hi
  refine ⟨⟨some (upd t i v), a.mx⟩, by unfold FArr.set; rw [ha.1, if_pos hi, h1, ← ha.1]; rfl, by simpa using ha.1, fun j hj => ⟨_, rfl, ?_⟩⟩
  simp only [List.length_set] at hj
  obtain ⟨t', h2, h3⟩ := ha.2 j hj
  rw [h1] at h2
  simp only [Option.some.injEq] at h2
  subst h2
  rw [upd_apply, List.getElem_set]
  by_cases hij : j = i
  · rw [if_pos hij, if_pos hij.symm]
  · rw [if_neg hij, if_neg (fun h => hij h.symm), h3]

example : ∃ c, assign 0 (fill 1 3) (fill 7 3) = some c ∧ eqA (fun x y => decide (x = y)) c (fill 7 3) = some true := by
  obtain ⟨c, h1, h2⟩ := farray_assign_partial (a := fill 1 3) 0 (val_fill 7 3) (.inl ⟨_, val_fill 1 3⟩)
  exact ⟨c, h1, by rw [farray_eq_list h2 (val_fill 7 3) (by simp)]; simp⟩

/-! ### C44 -/

theorem le_mul_l {a b : Int} (hb : 0 ≤ b) (ha : 1 ≤ a) : b ≤ a * b := by
  have := Int.mul_le_mul_of_nonneg_right ha hb
  rwa [Int.one_mul] at this
theorem le_mul_r {a b : Int} (ha : 0 ≤ a) (hb : 1 ≤ b) : a ≤ a * b := by
  rw [Int.mul_comm]; exact le_mul_l ha hb

/-- Product of the dimensions. -/
def prod : List Int → Int
  | [] => 1
  | d :: ds => d * prod ds

/-- An in-range index tuple. -/
def InR : List Int → List Int → Prop
  | [], [] => True
  | d :: ds, i :: is => 0 ≤ i ∧ i < d ∧ InR ds is
  | _, _ => False

theorem InR.pos : ∀ {ds is : List Int}, InR ds is → 1 ≤ prod ds := by
  intro ds
  induction ds with
  | nil => intro is _; exact Int.le_refl _
  | cons d ds ih =>
    intro is h
    cases is with
    | nil => exact h.elim
    | cons i is =>
      have h1 := ih h.2.2
      have h2 : 1 ≤ d := by have := h.1; have := h.2.1; omega
      exact Int.le_trans h1 (le_mul_l (by omega) h2)

/-- Storage needed behind an accumulated index. -/
theorem proxy_spec : ∀ (ds is : List Int) (acc : Int), InR ds is → 0 ≤ acc → (acc + 1) * prod ds < 2 ^ 31 →
    ∃ o, proxy acc ds is = some o ∧ acc * prod ds ≤ o ∧ o < (acc + 1) * prod ds := by
  intro ds
  induction ds with
  | nil =>
    intro is acc h h0 _
    cases is with
    | nil => exact ⟨acc, rfl, by simp [prod], by simp [prod]; omega⟩
    | cons i is => exact h.elim
  | cons d ds ih =>
    intro is acc h h0 hb
    cases is with
    | nil => exact h.elim
    | cons i is =>
      obtain ⟨hi0, hid, hr⟩ := h
      have hp := hr.pos
      simp only [prod] at hb ⊢
      have hd : 1 ≤ d := by omega
      have ha : 0 ≤ acc * d := Int.mul_nonneg h0 (by omega)
      -- everything stays below the product
      have e1 : (acc * d + i + 1) * prod ds ≤ (acc + 1) * (d * prod ds) := by
        have : acc * d + i + 1 ≤ (acc + 1) * d := by rw [Int.add_mul, Int.one_mul]; omega
        have := Int.mul_le_mul_of_nonneg_right this (show 0 ≤ prod ds by omega)
        rw [Int.mul_assoc (acc + 1)] at this
        exact this
      have e2 : acc * d + i + 1 ≤ (acc * d + i + 1) * prod ds := le_mul_r (by omega) hp
      have e3 : acc * (d * prod ds) ≤ (acc * d + i) * prod ds := by
        rw [← Int.mul_assoc]
        exact Int.mul_le_mul_of_nonneg_right (by omega) (by omega)
      obtain ⟨o, h1, h2, h3⟩ := ih is (acc * d + i) hr (by omega) (by omega)
      refine ⟨o, ?_, by omega, by omega⟩
      unfold proxy int?
      rw [if_pos (by omega)]
      simp only [Option.bind_some]
      rw [if_pos (by omega)]
      exact h1

theorem proxy_inj : ∀ (ds is js : List Int) (acc acc' o : Int), InR ds is → InR ds js → 0 ≤ acc → 0 ≤ acc' →
    (acc + 1) * prod ds < 2 ^ 31 → (acc' + 1) * prod ds < 2 ^ 31 →
    proxy acc ds is = some o → proxy acc' ds js = some o → acc = acc' ∧ is = js := by
  intro ds
  induction ds with
  | nil =>
    intro is js acc acc' o h h' _ _ _ _ h1 h2
    cases is with
    | nil =>
      cases js with
      | nil => simp only [proxy, Option.some.injEq] at h1 h2; exact ⟨by omega, rfl⟩
      | cons j js => exact h'.elim
    | cons i is => exact h.elim
  | cons d ds ih =>
    intro is js acc acc' o h h' h0 h0' hb hb' h1 h2
    cases is with
    | nil => exact h.elim
    | cons i is =>
      cases js with
      | nil => exact h'.elim
      | cons j js =>
        obtain ⟨hi0, hid, hr⟩ := h
        obtain ⟨hj0, hjd, hr'⟩ := h'
        have hp := hr.pos
        have key : ∀ a k : Int, 0 ≤ a → 0 ≤ k → k < d → (a + 1) * prod (d :: ds) < 2 ^ 31 →
            0 ≤ a * d + k ∧ (a * d + k + 1) * prod ds < 2 ^ 31 := by
          intro a k ha hk0 hk hb
          have hm : 0 ≤ a * d := Int.mul_nonneg ha (by omega)
          have : a * d + k + 1 ≤ (a + 1) * d := by rw [Int.add_mul, Int.one_mul]; omega
          have := Int.mul_le_mul_of_nonneg_right this (show 0 ≤ prod ds by omega)
          rw [Int.mul_assoc (a + 1)] at this
          simp only [prod] at hb
          exact ⟨by omega, by omega⟩
        obtain ⟨k1, k2⟩ := key acc i h0 hi0 hid hb
        obtain ⟨k3, k4⟩ := key acc' j h0' hj0 hjd hb'
        simp only [proxy, int?, Option.bind_eq_some_iff] at h1 h2
        obtain ⟨x, hx, y, hy, h1⟩ := h1
        obtain ⟨x', hx', y', hy', h2⟩ := h2
        split at hx <;> simp only [Option.some.injEq, reduceCtorEq] at hx
        split at hy <;> simp only [Option.some.injEq, reduceCtorEq] at hy
        split at hx' <;> simp only [Option.some.injEq, reduceCtorEq] at hx'
        split at hy' <;> simp only [Option.some.injEq, reduceCtorEq] at hy'
        subst hx; subst hy; subst hx'; subst hy'
        obtain ⟨e1, e2⟩ := ih is js _ _ o hr hr' k1 k3 k2 k4 h1 h2
        have hij : acc = acc' := by
          have hd : 0 < d := by omega
          have q1 : (acc * d + i) / d = acc := by
            rw [Int.add_comm, Int.add_mul_ediv_right _ _ (by omega), Int.ediv_eq_zero_of_lt hi0 hid, Int.zero_add]
          have q2 : (acc' * d + j) / d = acc' := by
            rw [Int.add_comm, Int.add_mul_ediv_right _ _ (by omega), Int.ediv_eq_zero_of_lt hj0 hjd, Int.zero_add]
          rw [← q1, ← q2, e1]
        subst hij
        exact ⟨rfl, by rw [e2]; congr 1; omega⟩

theorem prodOf_eq : ∀ (ds : List Int) (acc : Nat), (∀ d ∈ ds, 1 ≤ d) → 1 ≤ acc → acc * prod ds < 2 ^ 64 → (prodOf ds acc : Int) = acc * prod ds := by
  intro ds
  induction ds with
  | nil => intro acc _ _ _; simp [prodOf, prod]
  | cons d ds ih =>
    intro acc hd ha hb
    have hd1 := hd d List.mem_cons_self
    have hp : 1 ≤ prod ds := by
      clear ih hb
      induction ds with
      | nil => simp [prod]
      | cons x xs ih2 =>
        have h1 := ih2 (fun y hy => hd y (by simp only [List.mem_cons] at hy ⊢; rcases hy with rfl | hy; exact .inl rfl; exact .inr (.inr hy)))
        have h2 := hd x (by simp)
        exact Int.le_trans h1 (le_mul_l (by omega) h2)
    simp only [prod] at hb ⊢
    rw [← Int.mul_assoc] at hb ⊢
    have h1 : 1 ≤ (acc : Int) * d := Int.le_trans (by omega) (le_mul_r (by omega) hd1)
    have h2 : (acc : Int) * d ≤ (acc * d) * prod ds := le_mul_r (by omega) hp
    have hm : ((acc : Int) * d % 2 ^ 64).toNat = ((acc : Int) * d).toNat := by rw [Int.emod_eq_of_lt (by omega) (by omega)]
    rw [prodOf, hm]
    have hc : ((((acc : Int) * d).toNat : Nat) : Int) = acc * d := Int.toNat_of_nonneg (by omega)
    rw [ih _ (fun y hy => hd y (List.mem_cons_of_mem _ hy)) (by omega) (by rw [hc]; exact hb), hc]

theorem InR.dims : ∀ {ds is : List Int}, InR ds is → ∀ d ∈ ds, 1 ≤ d := by
  intro ds
  induction ds with
  | nil => intro is _ d hd; simp at hd
  | cons x ds ih =>
    intro is h d hd
    cases is with
    | nil => exact h.elim
    | cons i is =>
      rcases List.mem_cons.1 hd with rfl | hd
      · have := h.1; have := h.2.1; omega
      · exact ih h.2.2 d hd

/-- C44.  Matrices of any arity with fewer than 2^31 cells: an in-range tuple denotes a cell of the
storage (the array `prodOf dims` long that the constructor allocates), distinct tuples distinct cells. -/
theorem matrix_cells_partial {ds is : List Int} (hb : prod ds < 2 ^ 31) (ha : ds ≠ []) (h : InR ds is) :
    ∃ o, offset ds is = some o ∧ 0 ≤ o ∧ o < (prodOf ds 1 : Int) ∧ ∀ js, InR ds js → offset ds js = some o → js = is := by
  have hpo : (prodOf ds 1 : Int) = prod ds := by
    rw [prodOf_eq ds 1 h.dims (by omega) (by omega)]; simp
  cases ds with
  | nil => exact absurd rfl ha
  | cons d ds =>
    cases is with
    | nil => exact h.elim
    | cons i is =>
      obtain ⟨hi0, hid, hr⟩ := h
      have hp := hr.pos
      simp only [prod] at hb
      have bnd : ∀ k : Int, 0 ≤ k → k < d → (k + 1) * prod ds ≤ d * prod ds := fun k _ hk =>
        Int.mul_le_mul_of_nonneg_right (by omega) (by omega)
      obtain ⟨o, h1, h2, h3⟩ := proxy_spec ds is i hr hi0 (by have := bnd i hi0 hid; omega)
      refine ⟨o, h1, ?_, ?_, ?_⟩
      · exact Int.le_trans (Int.mul_nonneg hi0 (by omega)) h2
      · rw [hpo]; have := bnd i hi0 hid; simp only [prod]; omega
      · intro js hj hjo
        cases js with
        | nil => exact hj.elim
        | cons j js =>
          obtain ⟨hj0, hjd, hjr⟩ := hj
          obtain ⟨e1, e2⟩ := proxy_inj ds js is j i o hjr hr hj0 hi0 (by have := bnd j hj0 hjd; omega) (by have := bnd i hi0 hid; omega) hjo h1
          rw [e1, e2]

/-- C44 is false from 2^31 cells on: the index computation overflows. -/
theorem matrix_cells_false : ¬ ∀ (ds is : List Int), ds ≠ [] → InR ds is → ∃ o, offset ds is = some o := by
  intro h
  obtain ⟨o, ho⟩ := h [65536, 65536] [65535, 65535] (by simp) (by simp [InR])
  simp [offset, proxy, int?] at ho

example : offset [3, 4, 5] [2, 1, 3] = some 48 ∧ prodOf [3, 4, 5] 1 = 60 := by decide
example : ∃ o, offset [3, 4, 5] [2, 1, 3] = some o ∧ ∀ js, InR [3, 4, 5] js → offset [3, 4, 5] js = some o → js = [2, 1, 3] := by
  obtain ⟨o, h1, _, _, h2⟩ := matrix_cells_partial (ds := [3, 4, 5]) (is := [2, 1, 3]) (by decide) (by simp) (by simp [InR])
  exact ⟨o, h1, h2⟩

/-! ### Printing -/

def prodN : List Nat → Nat
  | [] => 1
  | d :: ds => d * prodN ds

theorem flatMap_range' (n m : Nat) : ∀ s, (List.range n).flatMap (fun k => List.range' ((s + k) * m) m) = List.range' (s * m) (n * m) := by
  induction n with
  | zero => intro s; simp
  | succ n ih =>
    intro s
    rw [List.range_succ, List.flatMap_append, ih]
    simp only [List.flatMap_cons, List.flatMap_nil, List.append_nil]
    rw [show (s + n) * m = s * m + n * m by rw [Nat.add_mul], Nat.succ_mul, ← List.range'_append_1]

theorem printRest_eq : ∀ (ds : List Nat) (o : Nat), printRest ds o = List.range' (o * prodN ds) (prodN ds) := by
  intro ds
  induction ds with
  | nil => intro o; simp [printRest, prodN]
  | cons d ds ih =>
    intro o
    have : (fun k => printRest ds (o * d + k)) = fun k => List.range' ((o * d + k) * prodN ds) (prodN ds) := funext fun k => ih _
    rw [printRest, this, flatMap_range', prodN, Nat.mul_assoc]

/-- C44, printing: every cell of the storage once, in order. -/
theorem matrix_print (ds : List Nat) : print ds = List.range (prodN ds) := by
  rw [List.range_eq_range']
  cases ds with
  | nil => rfl
  | cons d ds =>
    have : (fun k => printRest ds (0 * 0 + k)) = fun k => List.range' ((0 + k) * prodN ds) (prodN ds) := funext fun k => by
      rw [printRest_eq, Nat.zero_mul]
    rw [print, this, flatMap_range', prodN, Nat.zero_mul]

end Verif.FArr
