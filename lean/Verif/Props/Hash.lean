import Verif.Hash
/-!
# C37-C39: the hash tables against association lists

The specification is a list of pairs, newest first, searched with the user's equality.
-/
namespace Verif.Hash
variable {K T : Type}

/-! ### C39: sizing -/

theorem primes_sorted : primes.Pairwise (· < ·) := by decide +kernel
theorem primes_len : primes.length = 189 := by decide +kernel

theorem primes_lt {i j a b : Nat} (hij : i < j) (ha : primes[i]? = some a) (hb : primes[j]? = some b) : a < b := by
  rw [List.getElem?_eq_some_iff] at ha hb
  obtain ⟨h1, rfl⟩ := ha
  obtain ⟨h2, rfl⟩ := hb
  exact List.pairwise_iff_getElem.1 primes_sorted i j h1 h2 hij

theorem mid_eq {low up : Nat} (h1 : low ≤ up) (h2 : up < 189) : mid low up = (((low + up) / 2 : Nat) : Int) := by
  unfold mid
  have : ((low + up) % 2 ^ 64) / 2 % 2 ^ 32 = (low + up) / 2 := by omega
  simp only [this]
  rw [if_pos (by omega)]

theorem bsearch_spec {sz : Nat} (hs : 2 ≤ sz) : ∀ (f low up : Nat), low ≤ up + 1 → up < 189 → up + 1 - low < f →
    (∀ i q, i < low → primes[i]? = some q → q < sz) → (∀ i q, up < i → primes[i]? = some q → sz < q) →
    ∃ r, bsearch sz f low up = some r ∧ r ≤ 189 ∧ (∀ i q, i < r → primes[i]? = some q → q < sz) ∧
      (∀ i q, r ≤ i → primes[i]? = some q → sz ≤ q) := by
  intro f
  induction f with
  | zero => intro low up _ _ h; omega
  | succ f ih =>
    intro low up h1 h2 h3 hlo hup
    rw [bsearch]
    split
    · rename_i hle
      rw [mid_eq hle h2]
      dsimp only
      rw [if_neg (by omega), Int.toNat_natCast]
      generalize hm : (low + up) / 2 = m
      have hm1 : low ≤ m := by omega
      have hm2 : m ≤ up := by omega
      have hlt : m < primes.length := by rw [primes_len]; omega
      have hq := List.getElem?_eq_getElem hlt
      generalize primes[m] = q at hq
      rw [hq]
      dsimp only
      split
      · rename_i hsq
        have hm0 : m ≠ 0 := by
          intro hc
          rw [hc] at hq
          have : primes[0]? = some 2 := rfl
          rw [this, Option.some.injEq] at hq
          omega
        rw [if_neg hm0]
        refine ih low (m - 1) (by omega) (by omega) (by omega) hlo ?_
        intro i p hi hp
        by_cases him : i = m
        · subst him; rw [hq, Option.some.injEq] at hp; omega
        · have := primes_lt (by omega : m < i) hq hp; omega
      · split
        · rename_i hsq
          refine ih (m + 1) up (by omega) h2 (by omega) ?_ hup
          intro i p hi hp
          by_cases him : i = m
          · subst him; rw [hq, Option.some.injEq] at hp; omega
          · have := primes_lt (by omega : i < m) hp hq; omega
        · have : sz = q := by omega
          subst this
          refine ⟨m, rfl, by omega, fun i p hi hp => primes_lt hi hp hq, fun i p hi hp => ?_⟩
          by_cases him : i = m
          · subst him; rw [hq, Option.some.injEq] at hp; omega
          · exact Nat.le_of_lt (primes_lt (by omega : m < i) hq hp)
    · rename_i hle
      exact ⟨low, rfl, by omega, hlo, fun i q hi hq => Nat.le_of_lt (hup i q (by omega) hq)⟩

/-- C39, for a requested size of at least 2: the table gets the smallest listed size that is large
enough, or the largest listed one. -/
theorem tabSize_partial {sz : Nat} (hs : 2 ≤ sz) : ∃ n, tabSize sz = some n ∧ n ∈ primes ∧
    ((sz ≤ n ∧ ∀ q ∈ primes, sz ≤ q → n ≤ q) ∨ ((∀ q ∈ primes, q ≤ n) ∧ ∀ q ∈ primes, q < sz)) := by
  obtain ⟨r, h1, h2, h3, h4⟩ := bsearch_spec hs 1000 0 (primes.length - 1) (by omega) (by rw [primes_len]; omega)
    (by rw [primes_len]; omega) (by intro i q hi; omega) (by
      intro i q hi hq
      rw [List.getElem?_eq_some_iff] at hq
      have := hq.1
      omega)
  have hlast : primes.length - 1 < primes.length := by rw [primes_len]; omega
  unfold tabSize
  rw [h1, Option.bind_some]
  split
  · rename_i hr
    rw [List.getElem?_eq_getElem hlast]
    refine ⟨_, rfl, List.getElem_mem _, Or.inr ⟨?_, ?_⟩⟩
    · intro q hq
      obtain ⟨i, hi, rfl⟩ := List.getElem_of_mem hq
      generalize hL : primes.length - 1 = L at hlast ⊢
      by_cases hil : i = L
      · subst hil; exact Nat.le_refl _
      · rw [← hL] at hil
        subst hL
        exact Nat.le_of_lt (primes_lt (by omega : i < primes.length - 1) (List.getElem?_eq_getElem hi) (List.getElem?_eq_getElem hlast))
    · intro q hq
      obtain ⟨i, hi, rfl⟩ := List.getElem_of_mem hq
      exact h3 i _ (by omega) (List.getElem?_eq_getElem hi)
  · rename_i hr
    have hr : r < primes.length := by omega
    rw [List.getElem?_eq_getElem hr]
    refine ⟨_, rfl, List.getElem_mem _, Or.inl ⟨h4 r _ (Nat.le_refl _) (List.getElem?_eq_getElem hr), ?_⟩⟩
    intro q hq hsq
    obtain ⟨i, hi, rfl⟩ := List.getElem_of_mem hq
    by_cases hir : i < r
    · have := h3 i _ hir (List.getElem?_eq_getElem hi); omega
    · by_cases hir2 : i = r
      · subst hir2; exact Nat.le_refl _
      · exact Nat.le_of_lt (primes_lt (by omega : r < i) (List.getElem?_eq_getElem hr) (List.getElem?_eq_getElem hi))

/-- The size the library asks for (src/dd.hpp:351, 560), an exact hit, and one beyond the list. -/
example : tabSize 200000 = some 200191 ∧ tabSize 547 = some 547 ∧ tabSize 1000000 = some 209939 := by decide +kernel

/-- Bucket indices are in range. -/
theorem bucket_lt {sz n : Nat} (h : tabSize sz = some n) (hs : 2 ≤ sz) (x : Nat) : x % n < n := by
  obtain ⟨k, h1, h2, _⟩ := tabSize_partial hs
  rw [h] at h1
  cases h1
  have : ∀ q ∈ primes, 0 < q := by decide +kernel
  exact Nat.mod_lt _ (this n h2)

/-- C39 is false for the sizes 0 and 1: the search steps below the first entry. -/
theorem tabSize_false : tabSize 0 = none ∧ tabSize 1 = none := by decide +kernel

/-! ### C37: finite maps -/

section
variable (eq : K → K → Bool)

/-- Look a key up in an association list. -/
def look (l : List (K × T)) (k : K) : Option T := (l.find? (fun e => eq e.1 k)).map (·.2)

/-- Bind a key, replacing a previous binding. -/
def bindL (l : List (K × T)) (k : K) (v : T) : List (K × T) :=
  if l.any (fun e => eq e.1 k) then over eq k v l else (k, v) :: l

/-- What the calls mean on association lists. -/
def stepL (l : List (K × T)) : Op K T → List (K × T) × Out T
  | .insert k v => (bindL eq l k v, .unit)
  | .get k => (l, .found (look eq l k))
  | .safeInsert k v => ((k, v) :: l, .unit)
  | .probe k v =>
    match look eq l k with
    | some x => (l, .found (some x))
    | none => ((k, v) :: l, .found none)
  | .size => (l, .nat (l.length % 2 ^ 32))
  | .clear => ([], .unit)

def runL : List (K × T) → List (Op K T) → List (K × T) × List (Out T)
  | l, [] => (l, [])
  | l, o :: os =>
    let p := stepL eq l o
    let q := runL p.1 os
    (q.1, p.2 :: q.2)

end

/-- The user's functions: an equivalence, and equal keys hash equally. -/
structure HashOK (hash : K → Nat) (eq : K → K → Bool) : Prop where
  refl : ∀ a, eq a a = true
  symm : ∀ a b, eq a b = true → eq b a = true
  trans : ∀ a b c, eq a b = true → eq b c = true → eq a c = true
  hash : ∀ a b, eq a b = true → hash a = hash b

/-- The association list is a finite map: a new binding is found under every equal key, the others
are unchanged. -/
theorem look_bind {hash : K → Nat} {eq : K → K → Bool} (H : HashOK hash eq) (l : List (K × T)) (k k' : K) (v : T) :
    look eq (bindL eq l k v) k' = if eq k k' then some v else look eq l k' := by
  unfold bindL
  split
  · rename_i ha
    unfold look
    induction l with
    | nil => simp at ha
    | cons e l ih =>
      simp only [over]
      by_cases he : eq e.1 k = true
      · rw [if_pos he]
        simp only [List.find?_cons]
        by_cases hk : eq k k' = true
        · have : eq e.1 k' = true := H.trans _ _ _ he hk
          simp [this, hk]
        · have : eq e.1 k' = false := by
            rw [Bool.eq_false_iff]; intro hc; exact hk (H.trans _ _ _ (H.symm _ _ he) hc)
          simp [this, hk]
      · rw [if_neg he]
        simp only [List.any_cons, he, Bool.false_or] at ha
        simp only [List.find?_cons]
        by_cases hk : eq e.1 k' = true
        · have : eq k k' = false := by
            rw [Bool.eq_false_iff]; intro hc; exact he (H.trans _ _ _ hk (H.symm _ _ hc))
          simp [hk, this]
        · simp only [hk]
          exact ih (by simpa using ha)
  · unfold look
    by_cases hk : eq k k' = true <;> simp [hk]

theorem over_length (eq : K → K → Bool) (k : K) (v : T) (l : List (K × T)) : (over eq k v l).length = l.length := by
  induction l with
  | nil => rfl
  | cons e l ih => simp only [over]; split <;> simp [ih]

/-- The size counts the keys. -/
theorem bind_length (eq : K → K → Bool) (l : List (K × T)) (k : K) (v : T) :
    (bindL eq l k v).length = if (look eq l k).isSome then l.length else l.length + 1 := by
  unfold bindL look
  by_cases h : l.any (fun e => eq e.1 k) = true
  · rw [if_pos h, over_length]
    have : (l.find? (fun e => eq e.1 k)).isSome = true := by rw [List.find?_isSome]; simpa using h
    simp [this]
  · rw [if_neg h]
    have : l.find? (fun e => eq e.1 k) = none := by rw [List.find?_eq_none]; simpa using h
    simp [this]

/-- The table holds the association list. -/
structure Rep (hash : K → Nat) (h : HT K T) (l : List (K × T)) : Prop where
  pos : 0 < h.mxs
  chains : ∀ i, i < h.mxs → chain h i = l.filter (fun e => hash e.1 % h.mxs == i)
  stamp : ∀ i, h.mgc i ≤ h.magic
  nbp : h.nbp = l.length % 2 ^ 32

variable {hash : K → Nat} {eq : K → K → Bool}

theorem find_filter (H : HashOK hash eq) (l : List (K × T)) (n : Nat) (k : K) :
    (l.filter (fun e => hash e.1 % n == hash k % n)).find? (fun e => eq e.1 k) = l.find? (fun e => eq e.1 k) := by
  induction l with
  | nil => rfl
  | cons e l ih =>
    rw [List.filter_cons]
    split
    · simp only [List.find?_cons, ih]
    · rename_i hb
      rw [ih, List.find?_cons]
      have : eq e.1 k = false := by
        rw [Bool.eq_false_iff]; intro hc; rw [H.hash _ _ hc] at hb; simp at hb
      rw [this]

theorem over_filter_same (H : HashOK hash eq) (l : List (K × T)) (n : Nat) (k : K) (v : T) :
    (over eq k v l).filter (fun e => hash e.1 % n == hash k % n) =
      over eq k v (l.filter (fun e => hash e.1 % n == hash k % n)) := by
  induction l with
  | nil => rfl
  | cons e l ih =>
    simp only [over]
    by_cases he : eq e.1 k = true
    · rw [if_pos he]
      have hh : (hash e.1 % n == hash k % n) = true := by rw [H.hash _ _ he]; simp
      rw [List.filter_cons_of_pos (by simpa using hh), List.filter_cons_of_pos (by simpa using hh)]
      simp only [over, if_pos he]
    · rw [if_neg he, List.filter_cons, List.filter_cons]
      split
      · simp only [over]; rw [if_neg he, ih]
      · exact ih

theorem over_filter_other (H : HashOK hash eq) (l : List (K × T)) (n i : Nat) (k : K) (v : T) (hi : i ≠ hash k % n) :
    (over eq k v l).filter (fun e => hash e.1 % n == i) = l.filter (fun e => hash e.1 % n == i) := by
  induction l with
  | nil => rfl
  | cons e l ih =>
    simp only [over]
    by_cases he : eq e.1 k = true
    · rw [if_pos he]
      have hh : (hash e.1 % n == i) = false := by rw [H.hash _ _ he]; simp; omega
      rw [List.filter_cons, List.filter_cons]
      simp [hh]
    · rw [if_neg he, List.filter_cons, List.filter_cons, ih]

theorem get_look (H : HashOK hash eq) {h : HT K T} {l : List (K × T)} (R : Rep hash h l) (k : K) :
    get hash eq h k = look eq l k := by
  unfold get look
  rw [R.chains _ (Nat.mod_lt _ R.pos), find_filter H]

theorem Rep.link {h : HT K T} {l : List (K × T)} (R : Rep hash h l) (k : K) (v : T) :
    Rep hash (link h (hash k % h.mxs) k v) ((k, v) :: l) where
  pos := R.pos
  chains := fun i hi => by
    show (if upd h.mgc _ h.magic i = h.magic then upd h.tab _ ((k, v) :: chain h (hash k % h.mxs)) i else []) =
      List.filter (fun e => hash e.1 % h.mxs == i) ((k, v) :: l)
    rw [List.filter_cons]
    by_cases hb : i = hash k % h.mxs
    · subst hb
      simp [R.chains _ hi]
    · rw [upd_ne _ _ hb, upd_ne _ _ hb]
      have : (hash k % h.mxs == i) = false := by simp; omega
      simp only [this]
      exact R.chains i hi
  stamp := fun i => by
    show upd h.mgc _ h.magic i ≤ h.magic
    rw [upd_apply]; split
    · exact Nat.le_refl _
    · exact R.stamp i
  nbp := by
    show (h.nbp + 1) % 2 ^ 32 = _
    rw [R.nbp, List.length_cons]; omega

theorem Rep.insert (H : HashOK hash eq) {h : HT K T} {l : List (K × T)} (R : Rep hash h l) (k : K) (v : T) :
    Rep hash (insert hash eq h k v) (bindL eq l k v) := by
  unfold Hash.insert bindL
  dsimp only
  have hb := Nat.mod_lt (hash k) R.pos
  have hany : (chain h (hash k % h.mxs)).any (fun e => eq e.1 k) = l.any (fun e => eq e.1 k) := by
    have hf : ∀ l : List (K × T), l.any (fun e => eq e.1 k) = (l.find? (fun e => eq e.1 k)).isSome := by
      intro l
      rw [Bool.eq_iff_iff, List.find?_isSome]
      simp
    rw [hf, hf, R.chains _ hb, find_filter H]
  rw [hany]
  split
  · rename_i ha
    have hst : h.mgc (hash k % h.mxs) = h.magic := by
      rw [← hany] at ha
      unfold chain at ha
      split at ha
      · assumption
      · simp at ha
    have htab : h.tab (hash k % h.mxs) = l.filter (fun e => hash e.1 % h.mxs == hash k % h.mxs) := by
      have := R.chains _ hb
      unfold chain at this
      rwa [if_pos hst] at this
    refine ⟨R.pos, ?_, R.stamp, by rw [over_length]; exact R.nbp⟩
    intro i hi
    show (if h.mgc i = h.magic then upd h.tab _ (over eq k v (h.tab (hash k % h.mxs))) i else []) =
      (over eq k v l).filter (fun e => hash e.1 % h.mxs == i)
    by_cases hi2 : i = hash k % h.mxs
    · subst hi2
      rw [if_pos hst, upd_same, htab, over_filter_same H]
    · rw [upd_ne _ _ hi2, over_filter_other H _ _ _ _ _ hi2]
      exact R.chains i hi
  · exact R.link k v

/-- One call. -/
theorem step_refines (H : HashOK hash eq) {h : HT K T} {l : List (K × T)} (R : Rep hash h l) (o : Op K T)
    (hc : o = .clear → h.magic + 1 < 2 ^ 32) :
    (step hash eq h o).2 = (stepL eq l o).2 ∧ Rep hash (step hash eq h o).1 (stepL eq l o).1 := by
  cases o with
  | insert k v => exact ⟨rfl, R.insert H k v⟩
  | get k => exact ⟨by simp [step, stepL, get_look H R], R⟩
  | safeInsert k v => exact ⟨rfl, R.link k v⟩
  | probe k v =>
    simp only [step, stepL, probe]
    rw [get_look H R]
    cases look eq l k with
    | some x => exact ⟨rfl, R⟩
    | none => exact ⟨rfl, R.link k v⟩
  | size => exact ⟨by simp [step, stepL, R.nbp], R⟩
  | clear =>
    have := hc rfl
    refine ⟨rfl, R.pos, ?_, ?_, rfl⟩
    · intro i _
      show (if h.mgc i = (h.magic + 1) % 2 ^ 32 then h.tab i else []) = _
      have := R.stamp i
      rw [if_neg (by omega)]; rfl
    · intro i
      show h.mgc i ≤ (h.magic + 1) % 2 ^ 32
      have := R.stamp i
      omega

def Op.isClear : Op K T → Bool
  | .clear => true
  | _ => false

theorem step_magic {h : HT K T} {o : Op K T} (hm : h.magic + 1 < 2 ^ 32) :
    (step hash eq h o).1.magic = h.magic + (if o.isClear then 1 else 0) := by
  cases o with
  | insert k v => simp only [step, Hash.insert]; split <;> rfl
  | probe k v => simp only [step, Hash.probe]; split <;> rfl
  | clear => simp only [step, clear, Op.isClear, if_true]; omega
  | _ => rfl

theorem step_magic' {h : HT K T} {o : Op K T} (hc : o.isClear = false) : (step hash eq h o).1.magic = h.magic := by
  cases o with
  | insert k v => simp only [step, Hash.insert]; split <;> rfl
  | probe k v => simp only [step, Hash.probe]; split <;> rfl
  | clear => simp [Op.isClear] at hc
  | _ => rfl

/-- C37.  Any sequence of calls on a table that holds an association list, with fewer clears than the
stamp has values left: every call returns what the association list returns, and the table holds the
resulting list. -/
theorem run_refines (H : HashOK hash eq) : ∀ (os : List (Op K T)) {h : HT K T} {l : List (K × T)}, Rep hash h l →
    h.magic + os.countP Op.isClear < 2 ^ 32 →
    (run hash eq h os).2 = (runL eq l os).2 ∧ Rep hash (run hash eq h os).1 (runL eq l os).1 := by
  intro os
  induction os with
  | nil => intro h l R _; exact ⟨rfl, R⟩
  | cons o os ih =>
    intro h l R hm
    rw [List.countP_cons] at hm
    obtain ⟨s1, s2⟩ := step_refines H R o (by rintro rfl; simp only [Op.isClear, if_true] at hm; omega)
    have hmag : (step hash eq h o).1.magic + os.countP Op.isClear < 2 ^ 32 := by
      cases hc : o.isClear with
      | true => rw [hc, if_pos rfl] at hm; rw [step_magic (by omega), hc, if_pos rfl]; omega
      | false => rw [step_magic' hc]; omega
    obtain ⟨t1, t2⟩ := ih s2 hmag
    exact ⟨by simp only [run, runL]; rw [s1, t1], t2⟩

/-- From a fresh table of any requested size. -/
theorem hash_map (H : HashOK hash eq) {sz : Nat} (hs : 2 ≤ sz) {h : HT K T} (hh : mk' sz = some h) (os : List (Op K T))
    (hc : os.countP Op.isClear + 1 < 2 ^ 32) : (run hash eq h os).2 = (runL eq [] os).2 := by
  unfold mk' at hh
  simp only [Option.map_eq_some_iff] at hh
  obtain ⟨n, h1, rfl⟩ := hh
  refine (run_refines H os ⟨?_, ?_, ?_, rfl⟩ (by show 1 + _ < _; omega)).1
  · have := bucket_lt h1 hs 0
    exact Nat.lt_of_le_of_lt (Nat.zero_le _) this
  · intro i _
    show (if 0 = 1 then _ else _) = _
    rfl
  · intro i; exact Nat.zero_le _

theorem flatMap_congr' {α β : Type} {l : List α} {f g : α → List β} (h : ∀ x, x ∈ l → f x = g x) : l.flatMap f = l.flatMap g := by
  induction l with
  | nil => rfl
  | cons a l ih => rw [List.flatMap_cons, List.flatMap_cons, h a (by simp), ih (fun x hx => h x (by simp [hx]))]

/-- `doOnAll` visits exactly the bindings. -/
theorem doOnAll_perm {h : HT K T} {l : List (K × T)} (R : Rep hash h l) : (doOnAll h).Perm l := by
  have key : ∀ (n : Nat) (g : K × T → Nat) (l : List (K × T)), (∀ e ∈ l, g e < n) →
      ((List.range n).flatMap (fun i => l.filter (fun e => g e == i))).Perm l := by
    intro n
    induction n with
    | zero =>
      intro g l hg
      cases l with
      | nil => exact List.Perm.refl _
      | cons e l => exact absurd (hg e (by simp)) (by omega)
    | succ n ih =>
      intro g l hg
      rw [List.range_succ, List.flatMap_append]
      simp only [List.flatMap_singleton]
      have h1 := ih g (l.filter (fun e => g e != n)) (by
        intro e he
        rw [List.mem_filter] at he
        have := hg e he.1
        have h2 : g e ≠ n := by simpa using he.2
        omega)
      have e1 : (List.range n).flatMap (fun i => (l.filter (fun e => g e != n)).filter (fun e => g e == i)) =
          (List.range n).flatMap (fun i => l.filter (fun e => g e == i)) := by
        apply flatMap_congr'
        intro i hi
        rw [List.filter_filter]
        apply List.filter_congr
        intro e _
        have : i < n := List.mem_range.1 hi
        by_cases hgi : g e = i
        · simp [hgi]; omega
        · simp [hgi]
      rw [e1] at h1
      refine (h1.append_right _).trans ?_
      have := List.filter_append_perm (fun e => g e != n) l
      have e2 : l.filter (fun e => !(g e != n)) = l.filter (fun e => g e == n) := by
        apply List.filter_congr; intro e _; simp [bne]
      rw [e2] at this
      exact this
  unfold doOnAll
  have : (List.range h.mxs).flatMap (chain h) = (List.range h.mxs).flatMap (fun i => l.filter (fun e => hash e.1 % h.mxs == i)) := by
    apply flatMap_congr'
    intro i hi
    exact R.chains i (List.mem_range.1 hi)
  rw [this]
  exact key h.mxs (fun e => hash e.1 % h.mxs) l (fun e _ => Nat.mod_lt _ R.pos)

/-- Colliding keys (all of them hash to 7), an overwrite, a clear. -/
example : ∀ h, mk' 100 = some h → (run (fun _ => 7) (fun a b : Int => a == b) h
    [.insert 1 10, .insert 2 20, .insert 1 11, .get 1, .size, .probe 3 30, .probe 2 99, .clear, .get 1, .size]).2 =
    [.unit, .unit, .unit, .found (some 11), .nat 2, .found none, .found (some (20 : Int)), .unit, .found none, .nat 0] := by
  intro h hh
  exact hash_map ⟨by simp, by intro a b; simp; exact fun h => h.symm, by intro a b c; simp; exact fun h1 h2 => h1.trans h2, by simp⟩
    (by decide) hh _ (by decide)

/-! ### C38: clear -/

/-- What survives of C38: fewer than `2^32 - 1` clears after construction, nothing is found right
after a clear.  Missing: more clears, where it is false. -/
theorem clear_partial {h : HT K T} {l : List (K × T)} (R : Rep hash h l) (hm : h.magic + 1 < 2 ^ 32) (k : K) :
    get hash eq (clear h) k = none ∧ (clear h).nbp = 0 ∧ doOnAll (clear h) = [] := by
  have hch : ∀ i, chain (clear h) i = [] := by
    intro i
    show (if h.mgc i = (h.magic + 1) % 2 ^ 32 then h.tab i else []) = _
    have := R.stamp i
    rw [if_neg (by omega)]
  refine ⟨?_, rfl, ?_⟩
  · unfold get; rw [hch]; rfl
  · unfold doOnAll
    rw [List.flatMap_eq_nil_iff]
    intro i _
    exact hch i

def clears : Nat → HT K T → HT K T
  | 0, h => h
  | n + 1, h => clears n (clear h)

theorem clears_eq : ∀ (n : Nat) (h : HT K T), (clears n h).tab = h.tab ∧ (clears n h).mgc = h.mgc ∧
    (clears n h).mxs = h.mxs ∧ (h.magic < 2 ^ 32 → (clears n h).magic = (h.magic + n) % 2 ^ 32) := by
  intro n
  induction n with
  | zero => intro h; exact ⟨rfl, rfl, rfl, fun hm => by simp only [clears]; omega⟩
  | succ n ih =>
    intro h
    obtain ⟨a, b, c, d⟩ := ih (clear h)
    refine ⟨a, b, c, fun _ => ?_⟩
    have : (clear h).magic = (h.magic + 1) % 2 ^ 32 := rfl
    simp only [clears]
    rw [d (by omega)]
    omega

/-- C38 is false: after `2^32` clears every binding is back. -/
theorem clear_false {h : HT K T} (hm : h.magic < 2 ^ 32) (k : K) : get hash eq (clears (2 ^ 32) h) k = get hash eq h k := by
  obtain ⟨a, b, c, d⟩ := clears_eq (2 ^ 32) h
  have hmag : (clears (2 ^ 32) h).magic = h.magic := by rw [d hm]; omega
  unfold get chain
  rw [a, b, c, hmag]

example : ∃ h : HT Int Int, Rep (fun k => k.toNat) h [] ∧
    get (fun k => k.toNat) (fun a b => a == b) (clears (2 ^ 32) (insert (fun k => k.toNat) (fun a b => a == b) h 5 50)) 5 = some 50 := by
  refine ⟨⟨fun _ => [], fun _ => 0, 547, 1, 0⟩, ⟨by decide, fun i _ => rfl, fun i => Nat.zero_le _, rfl⟩, ?_⟩
  rw [clear_false (by decide)]
  decide

end Verif.Hash
