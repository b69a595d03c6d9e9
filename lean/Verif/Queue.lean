import Verif.Basic
/-!
# Model of `CQueue` (src/queue.hpp)

`Location` objects are identified by naturals; `val` and `pos` are their two fields, `data`
is the array of location pointers.  `nloc` counts the locations allocated so far.  The
bookkeeping of segments (`_mxSeg`, `_nbs`, `_vlocs`), only used to free memory, is left out.
`int` overflow of the capacity is not modelled.
-/
namespace Verif.Queue
variable {α : Type}

/-- Data members (src/queue.hpp:34-43) and the `Location` fields (25-26). -/
structure Q (α : Type) where
  mxs : Nat
  enter : Nat
  exit : Nat
  mask : Nat
  cnt : Nat
  data : Nat → Nat
  val : Nat → α
  pos : Nat → Nat
  nloc : Nat

/-- `while (_mxs <= sz) _mxs <<= 1;` (src/queue.hpp:78), `n` is fuel. -/
def growTo (sz : Nat) : Nat → Nat → Nat
  | 0, m => m
  | n + 1, m => if m ≤ sz then growTo sz n (m <<< 1) else m

/-- Constructor `CQueue(sz)` (src/queue.hpp:76-88); `dflt` is `T()`. -/
def mk' (dflt : α) (sz : Nat) : Q α :=
  let m := growTo sz (sz + 1) 1
  { mxs := m, enter := 0, exit := 0, mask := m - 1, cnt := 0,
    data := fun i => i, val := fun _ => dflt, pos := fun _ => 0, nloc := m }

/-- The `do … while (cur != _enter)` loop of `resize` (src/queue.hpp:48-54); returns
`(at, cur, nd, pos)`. -/
def copyLoop (data : Nat → Nat) (mask enter : Nat) :
    Nat → Nat → Nat → (Nat → Nat) → (Nat → Nat) → Nat × Nat × (Nat → Nat) × (Nat → Nat)
  | 0, at_, cur, nd, pos => (at_, cur, nd, pos)
  | n + 1, at_, cur, nd, pos =>
    let nd' := upd nd at_ (data cur)
    let pos' := upd pos (data cur) at_
    let cur' := (cur + 1) &&& mask
    if cur' ≠ enter then copyLoop data mask enter n (at_ + 1) cur' nd' pos'
    else (at_ + 1, cur', nd', pos')

/-- `while (at < newSize) { nd[at] = nl + at - _mxs; ++at; }` (src/queue.hpp:56-59); the
fresh locations are `base, base+1, …`. -/
def fillLoop (base mxs : Nat) : Nat → Nat → (Nat → Nat) → (Nat → Nat)
  | 0, _, nd => nd
  | n + 1, at_, nd => fillLoop base mxs n (at_ + 1) (upd nd at_ (base + at_ - mxs))

/-- `resize` (src/queue.hpp:44-74). -/
def resize (q : Q α) : Q α :=
  let newSize := q.mxs <<< 1
  let r := copyLoop q.data q.mask q.enter (q.mxs + 1) 0 q.exit (fun _ => 0) q.pos
  let nd1 := upd r.2.2.1 r.1 (q.data r.2.1)
  let nd2 := fillLoop q.nloc q.mxs (newSize - (r.1 + 1)) (r.1 + 1) nd1
  { q with data := nd2, pos := r.2.2.2, exit := 0, enter := q.mxs - 1, mxs := newSize,
           mask := newSize - 1, nloc := q.nloc + q.mxs }

/-- `clear` (src/queue.hpp:95-98). -/
def clear (q : Q α) : Q α := { q with enter := 0, exit := 0, cnt := 0 }
/-- `size` (src/queue.hpp:99). -/
def size (q : Q α) : Nat := q.cnt
/-- `empty` (src/queue.hpp:100). -/
def empty (q : Q α) : Bool := q.enter == q.exit

/-- `enQueue` (src/queue.hpp:101-109): new queue and the returned location. -/
def enQueue (q0 : Q α) (v : α) : Q α × Nat :=
  let q := if q0.cnt = q0.mxs - 1 then resize q0 else q0
  let at_ := q.data q.enter
  ({ q with val := upd q.val at_ v, pos := upd q.pos at_ q.enter,
            enter := (q.enter + 1) &&& q.mask, cnt := q.cnt + 1 }, at_)

/-- `deQueue` (src/queue.hpp:110-121); `T()` on an empty queue. -/
def deQueue (dflt : α) (q : Q α) : Q α × α :=
  if q.enter ≠ q.exit then
    ({ q with exit := (q.exit + 1) &&& q.mask, cnt := q.cnt - 1 }, q.val (q.data q.exit))
  else (q, dflt)

/-- `peek` (src/queue.hpp:122-126). -/
def peek (dflt : α) (q : Q α) : α :=
  if q.enter ≠ q.exit then q.val (q.data q.exit) else dflt

/-- `retract(Location*)` (src/queue.hpp:139-155) for a non-null location. -/
def retract (dflt : α) (q : Q α) (loc : Nat) : Q α :=
  let at_ := q.pos loc
  let q1 :=
    if at_ = q.exit then { q with exit := (q.exit + 1) &&& q.mask }
    else if at_ = q.enter then { q with enter := if q.enter > 0 then q.enter - 1 else q.mask }
    else
      let d := upd (upd q.data at_ (q.data q.exit)) q.exit (q.data at_)
      { q with data := d, pos := upd q.pos (d at_) at_, exit := (q.exit + 1) &&& q.mask }
  { q1 with val := upd q1.val loc dflt, cnt := q1.cnt - 1 }

/-- The search loop of `retract(const T&)` (src/queue.hpp:127-138): the location found. -/
def findLoop [BEq α] (q : Q α) (v : α) : Nat → Nat → Option Nat
  | 0, _ => none
  | n + 1, cur =>
    if q.val (q.data cur) == v then some (q.data cur)
    else
      let cur' := (cur + 1) &&& q.mask
      if cur' ≠ q.enter then findLoop q v n cur' else none

/-- `retract(const T&)` (src/queue.hpp:127-138). -/
def retractVal [BEq α] (dflt : α) (q : Q α) (v : α) : Q α × Bool :=
  match findLoop q v (q.mxs + 1) q.exit with
  | some loc => (retract dflt q loc, true)
  | none => (q, false)

/-- `doOnAll` (src/queue.hpp:157-165): the locations handed to `f`, in call order. -/
def visitLoop (q : Q α) : Nat → Nat → List Nat
  | 0, _ => []
  | n + 1, k => q.data k :: visitLoop q n ((k + 1) &&& q.mask)
def doOnAll (q : Q α) : List Nat := visitLoop q q.cnt q.exit

/-- `foldl` (src/queue.hpp:166-177); `isSet` is the truth value of a `T`. -/
def foldLoop (q : Q α) (isSet : α → Bool) (f : α → α → α) : Nat → Nat → α → α
  | 0, _, acc => acc
  | n + 1, k, acc =>
    if isSet acc then acc
    else foldLoop q isSet f n ((k + 1) &&& q.mask) (f acc (q.val (q.data k)))
def foldl (q : Q α) (isSet : α → Bool) (f : α → α → α) (base : α) : α :=
  foldLoop q isSet f q.cnt q.exit base

/-! ### Invariant and abstraction -/

/-- Ring index: `x` reduced once by `m`. -/
def wrap (m x : Nat) : Nat := if x < m then x else x - m

/-- Live locations, oldest first. -/
def locs (q : Q α) : List Nat := (List.range q.cnt).map (fun i => q.data (wrap q.mxs (q.exit + i)))

/-- Abstract value: the queued values, oldest first. -/
def abs (q : Q α) : List α := (locs q).map q.val

/-- Representation invariant of every queue built with an initial size `≥ 1`. -/
structure WF (q : Q α) : Prop where
  pow : ∃ k, q.mxs = 2 ^ (k + 1)
  mask : q.mask = q.mxs - 1
  exit_lt : q.exit < q.mxs
  cnt_lt : q.cnt < q.mxs
  enter_eq : q.enter = wrap q.mxs (q.exit + q.cnt)
  inj : ∀ i j, i < q.mxs → j < q.mxs → q.data i = q.data j → i = j
  alloc : ∀ i, i < q.mxs → q.data i < q.nloc
  pos_eq : ∀ i, i < q.cnt → q.pos (q.data (wrap q.mxs (q.exit + i))) = wrap q.mxs (q.exit + i)

theorem WF.two_le {q : Q α} (h : WF q) : 2 ≤ q.mxs := by
  obtain ⟨k, hk⟩ := h.pow
  rw [hk, Nat.pow_succ]
  have : 0 < 2 ^ k := Nat.two_pow_pos k
  omega

theorem WF.enter_lt {q : Q α} (h : WF q) : q.enter < q.mxs := by
  have := h.enter_eq; have := h.exit_lt; have := h.cnt_lt
  simp only [wrap] at *; split at * <;> omega

/-- `(a + 1) & _mask` is one ring step. -/
theorem step_eq {m a : Nat} (hp : ∃ k, m = 2 ^ (k + 1)) (ha : a < m) :
    (a + 1) &&& (m - 1) = wrap m (a + 1) := by
  obtain ⟨k, rfl⟩ := hp
  rw [Nat.and_two_pow_sub_one_eq_mod]
  simp only [wrap]
  split
  · exact Nat.mod_eq_of_lt ‹_›
  · have : a + 1 = 2 ^ (k + 1) := by omega
    rw [this]; simp

theorem wrap_lt {m x : Nat} (h : x < 2 * m) : wrap m x < m := by
  simp only [wrap]; split <;> omega

theorem wrap_wrap {m e i : Nat} (he : e < m) : wrap m (wrap m (e + 1) + i) = wrap m (e + (i + 1)) ∨ m ≤ i := by
  simp only [wrap]; split <;> split <;> split <;> omega

/-- Result of the copy loop of `resize`. -/
theorem copyLoop_spec {data : Nat → Nat} {m enter : Nat} (hp : ∃ k, m = 2 ^ (k + 1))
    (hinj : ∀ i j, i < m → j < m → data i = data j → i = j) :
    ∀ (n fuel at_ cur : Nat) (nd pos : Nat → Nat), n < m → n + 1 ≤ fuel → cur < m →
      enter = wrap m (cur + (n + 1)) → (n + 1 < m) →
      ∃ nd' pos', copyLoop data (m - 1) enter fuel at_ cur nd pos = (at_ + (n + 1), enter, nd', pos') ∧
        (∀ i, i < n + 1 → nd' (at_ + i) = data (wrap m (cur + i))) ∧
        (∀ i, i < at_ → nd' i = nd i) ∧
        (∀ i, i < n + 1 → pos' (data (wrap m (cur + i))) = at_ + i) ∧
        (∀ l, (∀ i, i < n + 1 → l ≠ data (wrap m (cur + i))) → pos' l = pos l) := by
  intro n
  induction n with
  | zero =>
    intro fuel at_ cur nd pos _ hf hc he hm
    obtain ⟨f, rfl⟩ : ∃ f, fuel = f + 1 := ⟨fuel - 1, by omega⟩
    have hs := step_eq hp hc
    have hw : wrap m (cur + 0) = cur := by simp [wrap, hc]
    refine ⟨upd nd at_ (data cur), upd pos (data cur) at_, ?_, ?_, ?_, ?_, ?_⟩
    · simp only [copyLoop, hs]
      rw [if_neg (by simp [he]), he]
    · intro i hi
      have : i = 0 := by omega
      subst this; rw [hw]; simp
    · intro i hi; exact upd_ne _ _ (by omega)
    · intro i hi
      have : i = 0 := by omega
      subst this; rw [hw]; simp
    · intro l hl
      have := hl 0 (by omega)
      rw [hw] at this
      exact upd_ne _ _ this
  | succ n ih =>
    intro fuel at_ cur nd pos hnm hf hc he hm
    obtain ⟨f, rfl⟩ : ∃ f, fuel = f + 1 := ⟨fuel - 1, by omega⟩
    have hs := step_eq hp hc
    have hw : wrap m (cur + 0) = cur := by simp [wrap, hc]
    have hc' : wrap m (cur + 1) < m := wrap_lt (by omega)
    have hww : ∀ i, i < n + 1 → wrap m (wrap m (cur + 1) + i) = wrap m (cur + (i + 1)) := fun i hi =>
      (wrap_wrap hc).resolve_right (by omega)
    have he' : enter = wrap m (wrap m (cur + 1) + (n + 1)) := by
      rw [(wrap_wrap hc).resolve_right (by omega)]; exact he
    have hne : wrap m (cur + 1) ≠ enter := by
      rw [he]; simp only [wrap]; split <;> split <;> omega
    obtain ⟨nd', pos', h1, h2, h3, h4, h5⟩ := ih f (at_ + 1) (wrap m (cur + 1))
      (upd nd at_ (data cur)) (upd pos (data cur) at_) (by omega) (by omega) hc' he' (by omega)
    refine ⟨nd', pos', ?_, ?_, ?_, ?_, ?_⟩
    · simp only [copyLoop, hs, if_pos hne, h1]
      simp only [Prod.mk.injEq, and_true]; omega
    · intro i hi
      rcases i with _ | i
      · rw [hw, Nat.add_zero, h3 at_ (by omega)]; simp
      · have := h2 i (by omega)
        rw [hww i (by omega)] at this
        rw [← this]; congr 1; omega
    · intro i hi
      rw [h3 i (by omega)]; exact upd_ne _ _ (by omega)
    · intro i hi
      rcases i with _ | i
      · rw [hw, h5 (data cur)]
        · simp
        · intro i hi h
          have := hinj _ _ hc (wrap_lt (by omega)) h
          rw [hww i hi] at this
          simp only [wrap] at this; split at this <;> omega
      · have := h4 i (by omega)
        rw [hww i (by omega)] at this
        rw [this]; omega
    · intro l hl
      rw [h5 l (fun i hi => by rw [hww i hi]; exact hl (i + 1) (by omega))]
      have := hl 0 (by omega)
      rw [hw] at this
      exact upd_ne _ _ this

theorem fillLoop_spec (base mxs : Nat) : ∀ (n at_ : Nat) (nd : Nat → Nat),
    (∀ i, i < n → fillLoop base mxs n at_ nd (at_ + i) = base + (at_ + i) - mxs) ∧
    (∀ i, i < at_ → fillLoop base mxs n at_ nd i = nd i) := by
  intro n
  induction n with
  | zero => intro at_ nd; simp [fillLoop]
  | succ n ih =>
    intro at_ nd
    obtain ⟨h1, h2⟩ := ih (at_ + 1) (upd nd at_ (base + at_ - mxs))
    constructor
    · intro i hi
      simp only [fillLoop]
      rcases i with _ | i
      · simp only [Nat.add_zero]
        rw [h2 at_ (by omega)]; simp
      · have := h1 i (by omega)
        have e : at_ + (i + 1) = at_ + 1 + i := by omega
        rw [e, this]
    · intro i hi
      simp only [fillLoop]
      rw [h2 i (by omega)]; exact upd_ne _ _ (by omega)

/-- `resize` keeps the queue's contents and makes room. -/
theorem resize_spec {q : Q α} (h : WF q) (hfull : q.cnt = q.mxs - 1) :
    WF (resize q) ∧ locs (resize q) = locs q ∧ (resize q).val = q.val ∧
    (resize q).cnt + 1 < (resize q).mxs := by
  have h2 := h.two_le
  have hex := h.exit_lt
  have hcnt : q.cnt = (q.mxs - 2) + 1 := by omega
  obtain ⟨nd', pos', e1, e2, e3, e4, e5⟩ :=
    copyLoop_spec h.pow h.inj (q.mxs - 2) (q.mxs + 1) 0 q.exit (fun _ => 0) q.pos (enter := q.enter)
      (by omega) (by omega) h.exit_lt (by rw [← hcnt]; exact h.enter_eq) (by omega)
  have hm2 : q.mxs - 2 + 1 = q.mxs - 1 := by omega
  simp only [Nat.zero_add, hm2] at e1 e2 e4 e5
  have hm1 : q.mxs - 1 + 1 = q.mxs := by omega
  have hsh : q.mxs <<< 1 = 2 * q.mxs := by rw [Nat.shiftLeft_eq]; omega
  have hF := fillLoop_spec q.nloc q.mxs (2 * q.mxs - q.mxs) q.mxs (upd nd' (q.mxs - 1) (q.data q.enter))
  -- contents of the new array
  have hq : resize q =
      { q with
        data := fillLoop q.nloc q.mxs (2 * q.mxs - q.mxs) q.mxs (upd nd' (q.mxs - 1) (q.data q.enter)),
        pos := pos', exit := 0, enter := q.mxs - 1, mxs := 2 * q.mxs, mask := 2 * q.mxs - 1,
        nloc := q.nloc + q.mxs } := by
    simp only [resize, h.mask, e1, hm1, hsh]
  have hdlo : ∀ i, i < q.mxs - 1 → (resize q).data i = q.data (wrap q.mxs (q.exit + i)) := by
    intro i hi
    rw [hq]; simp only
    rw [hF.2 i (by omega), upd_ne _ _ (by omega), e2 i hi]
  have henter : q.enter = wrap q.mxs (q.exit + (q.mxs - 1)) := by
    rw [← hfull]; exact h.enter_eq
  have hdlo' : ∀ i, i < q.mxs → (resize q).data i = q.data (wrap q.mxs (q.exit + i)) := by
    intro i hi
    by_cases hi' : i < q.mxs - 1
    · exact hdlo i hi'
    · have : i = q.mxs - 1 := by omega
      subst this
      rw [hq]; simp only
      rw [hF.2 _ (by omega), ← henter]; simp
  have hdhi : ∀ i, q.mxs ≤ i → i < 2 * q.mxs → (resize q).data i = q.nloc + (i - q.mxs) := by
    intro i h1 h2
    rw [hq]; simp only
    have := hF.1 (i - q.mxs) (by omega)
    have e : q.mxs + (i - q.mxs) = i := by omega
    rw [e] at this; rw [this]; omega
  have hmxs : (resize q).mxs = 2 * q.mxs := by rw [hq]
  have hexit : (resize q).exit = 0 := by rw [hq]
  have hcnt' : (resize q).cnt = q.cnt := by rw [hq]
  have hwlt : ∀ i, i < q.mxs → wrap q.mxs (q.exit + i) < q.mxs := fun i hi => wrap_lt (by omega)
  refine ⟨⟨?_, ?_, ?_, ?_, ?_, ?_, ?_, ?_⟩, ?_, ?_, ?_⟩
  · obtain ⟨k, hk⟩ := h.pow
    exact ⟨k + 1, by rw [hmxs, hk, Nat.pow_succ 2 (k+1)]; omega⟩
  · rw [hq]
  · rw [hexit, hmxs]; omega
  · rw [hcnt', hmxs]; omega
  · rw [hexit, hmxs, hcnt']
    have : (resize q).enter = q.mxs - 1 := by rw [hq]
    rw [this]; simp only [wrap]; split <;> omega
  · intro i j hi hj hij
    rw [hmxs] at hi hj
    by_cases h1 : i < q.mxs <;> by_cases h2 : j < q.mxs
    · rw [hdlo' i h1, hdlo' j h2] at hij
      have := h.inj _ _ (hwlt i h1) (hwlt j h2) hij
      simp only [wrap] at this; split at this <;> split at this <;> omega
    · rw [hdlo' i h1, hdhi j (by omega) hj] at hij
      have := h.alloc _ (hwlt i h1); omega
    · rw [hdlo' j h2, hdhi i (by omega) hi] at hij
      have := h.alloc _ (hwlt j h2); omega
    · rw [hdhi i (by omega) hi, hdhi j (by omega) hj] at hij; omega
  · intro i hi
    rw [hmxs] at hi
    have : (resize q).nloc = q.nloc + q.mxs := by rw [hq]
    rw [this]
    by_cases h1 : i < q.mxs
    · rw [hdlo' i h1]; have := h.alloc _ (hwlt i h1); omega
    · rw [hdhi i (by omega) hi]; omega
  · intro i hi
    rw [hcnt'] at hi
    have hw : wrap (resize q).mxs ((resize q).exit + i) = i := by
      rw [hexit, hmxs]; simp only [wrap]; split <;> omega
    rw [hw, hdlo i (by omega)]
    have : (resize q).pos = pos' := by rw [hq]
    rw [this, e4 i (by omega)]
  · simp only [locs, hcnt']
    apply List.map_congr_left
    intro i hi
    rw [List.mem_range] at hi
    have hw : wrap (resize q).mxs ((resize q).exit + i) = i := by
      rw [hexit, hmxs]; simp only [wrap]; split <;> omega
    rw [hw, hdlo i (by omega)]
  · rw [hq]
  · rw [hcnt', hmxs]; omega

theorem growTo_pow (sz : Nat) : ∀ (n k : Nat), ∃ k', k ≤ k' ∧ growTo sz n (2 ^ k) = 2 ^ k' := by
  intro n
  induction n with
  | zero => intro k; exact ⟨k, Nat.le_refl _, rfl⟩
  | succ n ih =>
    intro k
    simp only [growTo]
    split
    · have : (2 ^ k) <<< 1 = 2 ^ (k + 1) := by rw [Nat.shiftLeft_eq]; rfl
      rw [this]
      obtain ⟨k', h1, h2⟩ := ih (k + 1)
      exact ⟨k', by omega, h2⟩
    · exact ⟨k, Nat.le_refl _, rfl⟩

theorem WF_mk (dflt : α) (sz : Nat) (hsz : 1 ≤ sz) : WF (mk' dflt sz) ∧ locs (mk' dflt sz) = [] := by
  have hp : ∃ k, growTo sz (sz + 1) 1 = 2 ^ (k + 1) := by
    have h1 : growTo sz (sz + 1) 1 = growTo sz sz (2 ^ 1) := by
      simp only [growTo, if_pos hsz]; rfl
    obtain ⟨k', h2, h3⟩ := growTo_pow sz sz 1
    exact ⟨k' - 1, by rw [h1, h3]; congr 1; omega⟩
  have hpos : 0 < growTo sz (sz + 1) 1 := by
    obtain ⟨k, hk⟩ := hp; rw [hk]; exact Nat.two_pow_pos _
  refine ⟨⟨hp, rfl, hpos, hpos, ?_, ?_, ?_, ?_⟩, ?_⟩
  · show 0 = wrap (growTo sz (sz + 1) 1) (0 + 0)
    simp [wrap]
  · intro i j _ _ h; exact h
  · intro i hi; exact hi
  · intro i hi; exact absurd hi (Nat.not_lt_zero _)
  · simp [locs, mk']

theorem length_locs (q : Q α) : (locs q).length = q.cnt := by simp [locs]

theorem WF.nodup_locs {q : Q α} (h : WF q) : (locs q).Nodup := by
  rw [List.Nodup, List.pairwise_iff_getElem]
  intro i j hi hj hij
  simp only [length_locs] at hi hj
  simp only [locs, List.getElem_map, List.getElem_range, ne_eq]
  intro he
  have hc := h.cnt_lt
  have hx := h.exit_lt
  have := h.inj _ _ (wrap_lt (by omega)) (wrap_lt (by omega)) he
  simp only [wrap] at this; split at this <;> split at this <;> omega

theorem mem_locs {q : Q α} {l : Nat} : l ∈ locs q ↔ ∃ i, i < q.cnt ∧ q.data (wrap q.mxs (q.exit + i)) = l := by
  simp [locs]

/-- Effect of `enQueue` when there is room. -/
theorem enQueue_room {q : Q α} (h : WF q) (hroom : q.cnt + 1 < q.mxs) (v : α) :
    let at_ := q.data q.enter
    let q' : Q α := { q with val := upd q.val at_ v, pos := upd q.pos at_ q.enter,
                             enter := (q.enter + 1) &&& q.mask, cnt := q.cnt + 1 }
    WF q' ∧ locs q' = locs q ++ [at_] ∧ at_ ∉ locs q := by
  intro at_ q'
  have hx := h.exit_lt
  have he := h.enter_lt
  have hne : ∀ i, i < q.cnt → q.data (wrap q.mxs (q.exit + i)) ≠ at_ := by
    intro i hi heq
    have := h.inj _ _ (wrap_lt (by omega)) he heq
    rw [h.enter_eq] at this
    simp only [wrap] at this; split at this <;> split at this <;> omega
  have hnot : at_ ∉ locs q := by
    rw [mem_locs]; rintro ⟨i, hi, h2⟩; exact hne i hi h2
  refine ⟨⟨h.pow, h.mask, h.exit_lt, hroom, ?_, h.inj, h.alloc, ?_⟩, ?_, hnot⟩
  · show (q.enter + 1) &&& q.mask = wrap q.mxs (q.exit + (q.cnt + 1))
    rw [h.mask, step_eq h.pow he, h.enter_eq]
    simp only [wrap]; split <;> split <;> split <;> omega
  · intro i hi
    show upd q.pos at_ q.enter (q.data (wrap q.mxs (q.exit + i))) = wrap q.mxs (q.exit + i)
    have hi : i < q.cnt + 1 := hi
    by_cases hic : i < q.cnt
    · rw [upd_ne _ _ (hne i hic)]; exact h.pos_eq i hic
    · have : i = q.cnt := by omega
      subst this
      rw [← h.enter_eq]; exact upd_same ..
  · show List.map (fun i => q.data (wrap q.mxs (q.exit + i))) (List.range (q.cnt + 1)) = _
    rw [List.range_succ, List.map_append]
    simp only [List.map_cons, List.map_nil, ← h.enter_eq]; rfl

theorem enQueue_spec {q : Q α} (h : WF q) (v : α) :
    WF (enQueue q v).1 ∧ locs (enQueue q v).1 = locs q ++ [(enQueue q v).2] ∧
    (enQueue q v).2 ∉ locs q ∧ (enQueue q v).1.val = upd q.val (enQueue q v).2 v := by
  by_cases hf : q.cnt = q.mxs - 1
  · obtain ⟨h1, h2, h3, h4⟩ := resize_spec h hf
    obtain ⟨a, b, c⟩ := enQueue_room h1 h4 v
    simp only [enQueue, if_pos hf]
    refine ⟨a, ?_, ?_, ?_⟩
    · rw [b, h2]
    · rw [← h2]; exact c
    · rw [h3]
  · obtain ⟨a, b, c⟩ := enQueue_room h (by have := h.cnt_lt; omega) v
    simp only [enQueue, if_neg hf]
    exact ⟨a, b, c, trivial⟩

theorem WF.empty_iff {q : Q α} (h : WF q) : q.enter = q.exit ↔ q.cnt = 0 := by
  have := h.enter_eq; have := h.exit_lt; have := h.cnt_lt
  simp only [wrap] at *; split at * <;> omega

/-- Removing the oldest slot. -/
theorem pop_spec {q : Q α} (h : WF q) (hc : 0 < q.cnt) :
    let q' : Q α := { q with exit := (q.exit + 1) &&& q.mask, cnt := q.cnt - 1 }
    WF q' ∧ locs q = q.data q.exit :: locs q' := by
  intro q'
  have hx := h.exit_lt
  have hcl := h.cnt_lt
  have hs : (q.exit + 1) &&& q.mask = wrap q.mxs (q.exit + 1) := by rw [h.mask, step_eq h.pow hx]
  have hw : ∀ i, i < q.cnt → wrap q.mxs (wrap q.mxs (q.exit + 1) + i) = wrap q.mxs (q.exit + (i + 1)) :=
    fun i hi => (wrap_wrap hx).resolve_right (by omega)
  refine ⟨⟨h.pow, h.mask, ?_, ?_, ?_, h.inj, h.alloc, ?_⟩, ?_⟩
  · show (q.exit + 1) &&& q.mask < q.mxs
    rw [hs]; exact wrap_lt (by omega)
  · show q.cnt - 1 < q.mxs
    omega
  · show q.enter = wrap q.mxs (((q.exit + 1) &&& q.mask) + (q.cnt - 1))
    rw [hs, hw _ (by omega), h.enter_eq]; congr 1; omega
  · intro i hi
    have hi : i < q.cnt - 1 := hi
    show q.pos (q.data (wrap q.mxs (((q.exit + 1) &&& q.mask) + i))) = wrap q.mxs (((q.exit + 1) &&& q.mask) + i)
    rw [hs, hw _ (by omega)]; exact h.pos_eq _ (by omega)
  · show List.map _ (List.range q.cnt) = _
    obtain ⟨c, hc'⟩ : ∃ c, q.cnt = c + 1 := ⟨q.cnt - 1, by omega⟩
    have e : locs q' = List.map (fun i => q.data (wrap q.mxs (((q.exit + 1) &&& q.mask) + i))) (List.range (q.cnt - 1)) := rfl
    rw [e, hc', List.range_succ_eq_map]
    simp only [List.map_cons, List.map_map, Nat.add_sub_cancel]
    congr 1
    · simp [wrap, hx]
    · apply List.map_congr_left
      intro i hi
      rw [List.mem_range] at hi
      simp only [Function.comp]
      rw [hs, hw _ (by omega)]

theorem visitLoop_spec {q : Q α} (h : WF q) : ∀ (n k : Nat), k < q.mxs → n ≤ q.mxs →
    visitLoop q n k = (List.range n).map (fun i => q.data (wrap q.mxs (k + i))) := by
  intro n
  induction n with
  | zero => intro k _ _; simp [visitLoop]
  | succ n ih =>
    intro k hk hn
    have hs : (k + 1) &&& q.mask = wrap q.mxs (k + 1) := by rw [h.mask, step_eq h.pow hk]
    simp only [visitLoop, hs]
    rw [ih _ (wrap_lt (by omega)) (by omega), List.range_succ_eq_map]
    simp only [List.map_cons, List.map_map]
    congr 1
    · simp [wrap, hk]
    · apply List.map_congr_left
      intro i hi
      rw [List.mem_range] at hi
      simp only [Function.comp]
      rw [(wrap_wrap hk).resolve_right (by omega)]

theorem foldLoop_visit (q : Q α) (isSet : α → Bool) (f : α → α → α) : ∀ (n k : Nat) (acc : α),
    foldLoop q isSet f n k acc =
      ((visitLoop q n k).map q.val).foldl (fun a v => if isSet a then a else f a v) acc := by
  intro n
  induction n with
  | zero => intro k acc; simp [foldLoop, visitLoop]
  | succ n ih =>
    intro k acc
    simp only [foldLoop, visitLoop, List.map_cons, List.foldl_cons]
    split
    · rename_i hset
      have : ∀ l : List α, l.foldl (fun a v => if isSet a then a else f a v) acc = acc := by
        intro l; induction l with
        | nil => rfl
        | cons x xs ihl => simp only [List.foldl_cons, if_pos hset, ihl]
      rw [this]
    · rw [ih]

theorem upd_upd_same {β : Type} (f : Nat → β) (k : Nat) (x y : β) : upd (upd f k x) k y = upd f k y := by
  funext i; simp only [upd]; split <;> rfl

/-- Effect of `retract` on the list of live locations: the hole is filled by the oldest
location. -/
theorem retract_spec (dflt : α) {q : Q α} (h : WF q) (j : Nat) (hj : j < q.cnt) :
    let loc := q.data (wrap q.mxs (q.exit + j))
    WF (retract dflt q loc) ∧
    locs (retract dflt q loc) =
      (if j = 0 then (locs q).tail else (locs q).tail.set (j - 1) (q.data q.exit)) ∧
    (retract dflt q loc).val = upd q.val loc dflt := by
  intro loc
  have hx := h.exit_lt
  have hcl := h.cnt_lt
  have hpos : q.pos loc = wrap q.mxs (q.exit + j) := h.pos_eq j hj
  have hw0 : wrap q.mxs (q.exit + 0) = q.exit := by simp [wrap, hx]
  by_cases hj0 : j = 0
  · subst hj0
    rw [hw0] at hpos
    have hr : retract dflt q loc = { q with
        exit := (q.exit + 1) &&& q.mask, cnt := q.cnt - 1, val := upd q.val loc dflt } := by
      simp only [retract, hpos, if_true]
    obtain ⟨a, b⟩ := pop_spec h hj
    rw [hr]
    refine ⟨⟨a.pow, a.mask, a.exit_lt, a.cnt_lt, a.enter_eq, a.inj, a.alloc, a.pos_eq⟩, ?_, rfl⟩
    simp only [if_true]
    rw [b]; rfl
  · have hne1 : wrap q.mxs (q.exit + j) ≠ q.exit := by simp only [wrap]; split <;> omega
    have hne2 : wrap q.mxs (q.exit + j) ≠ q.enter := by
      rw [h.enter_eq]; simp only [wrap]; split <;> split <;> omega
    -- the queue after the exchange of the two slots
    let p := wrap q.mxs (q.exit + j)
    have hp : p < q.mxs := wrap_lt (by omega)
    let d : Nat → Nat := upd (upd q.data p (q.data q.exit)) q.exit (q.data p)
    have hdp : d p = q.data q.exit := by
      simp only [d]; rw [upd_ne _ _ hne1]; exact upd_same ..
    have hde : d q.exit = q.data p := by simp [d]
    have hdo : ∀ i, i ≠ p → i ≠ q.exit → d i = q.data i := by
      intro i h1 h2; simp only [d]; rw [upd_ne _ _ h2, upd_ne _ _ h1]
    let q1 : Q α := { q with data := d, pos := upd (upd q.pos (d p) p) (d q.exit) q.exit }
    have hq1 : WF q1 := by
      refine ⟨h.pow, h.mask, h.exit_lt, h.cnt_lt, h.enter_eq, ?_, ?_, ?_⟩
      · intro a b ha hb hab
        have hab : d a = d b := hab
        have key : ∀ a, a < q.mxs → ∃ a', a' < q.mxs ∧ d a = q.data a' ∧
            a' = (if a = p then q.exit else if a = q.exit then p else a) := by
          intro a ha
          refine ⟨_, ?_, ?_, rfl⟩
          · split
            · exact hx
            · split
              · exact hp
              · exact ha
          · split
            · subst a; exact hdp
            · split
              · subst a; exact hde
              · exact hdo a ‹_› ‹_›
        obtain ⟨a', ha1, ha2, ha3⟩ := key a ha
        obtain ⟨b', hb1, hb2, hb3⟩ := key b hb
        rw [ha2, hb2] at hab
        have := h.inj _ _ ha1 hb1 hab
        have hne1' : p ≠ q.exit := hne1
        split at ha3 <;> split at hb3 <;> (try split at ha3) <;> (try split at hb3) <;> omega
      · intro i hi
        show d i < q.nloc
        by_cases h1 : i = p
        · subst h1; rw [hdp]; exact h.alloc _ hx
        · by_cases h2 : i = q.exit
          · subst h2; rw [hde]; exact h.alloc _ hp
          · rw [hdo i h1 h2]; exact h.alloc _ hi
      · intro i hi
        show upd (upd q.pos (d p) p) (d q.exit) q.exit (d (wrap q.mxs (q.exit + i))) = _
        have hwi : wrap q.mxs (q.exit + i) < q.mxs := wrap_lt (by have : i < q.cnt := hi; omega)
        have hne1' : p ≠ q.exit := hne1
        by_cases h1 : wrap q.mxs (q.exit + i) = q.exit
        · rw [h1]; exact upd_same ..
        · have hdne : d (wrap q.mxs (q.exit + i)) ≠ d q.exit := by
            rw [hde]
            intro he
            by_cases h2 : wrap q.mxs (q.exit + i) = p
            · rw [h2, hdp] at he
              exact hne1' (h.inj _ _ hp hx he.symm)
            · rw [hdo _ h2 h1] at he
              exact h2 (h.inj _ _ hwi hp he)
          rw [upd_ne _ _ hdne]
          by_cases h2 : wrap q.mxs (q.exit + i) = p
          · rw [h2]; exact upd_same ..
          · have : d (wrap q.mxs (q.exit + i)) ≠ d p := by
              rw [hdp, hdo _ h2 h1]
              intro he; exact h1 (h.inj _ _ hwi hx he)
            rw [upd_ne _ _ this, hdo _ h2 h1]
            exact h.pos_eq i hi
    have hr : retract dflt q loc = { q with
        data := d, pos := upd q.pos (d p) p, exit := (q.exit + 1) &&& q.mask, cnt := q.cnt - 1, val := upd q.val loc dflt } := by
      simp only [retract, hpos, if_neg hne1, if_neg hne2]; rfl
    obtain ⟨a, b⟩ := pop_spec hq1 (show 0 < q.cnt by omega)
    rw [hr]
    refine ⟨⟨a.pow, a.mask, a.exit_lt, a.cnt_lt, a.enter_eq, a.inj, a.alloc, ?_⟩, ?_, rfl⟩
    · intro i hi
      have hi : i < q.cnt - 1 := hi
      have ha := a.pos_eq i hi
      have ha : upd (upd q.pos (d p) p) (d q.exit) q.exit
          (d (wrap q.mxs (((q.exit + 1) &&& q.mask) + i))) = wrap q.mxs (((q.exit + 1) &&& q.mask) + i) := ha
      show upd q.pos (d p) p (d (wrap q.mxs (((q.exit + 1) &&& q.mask) + i))) = wrap q.mxs (((q.exit + 1) &&& q.mask) + i)
      have hs : (q.exit + 1) &&& q.mask = wrap q.mxs (q.exit + 1) := by rw [h.mask, step_eq h.pow hx]
      have hww : wrap q.mxs (((q.exit + 1) &&& q.mask) + i) = wrap q.mxs (q.exit + (i + 1)) := by
        rw [hs]; exact (wrap_wrap hx).resolve_right (by omega)
      have hne : d (wrap q.mxs (((q.exit + 1) &&& q.mask) + i)) ≠ d q.exit := by
        intro he
        have := hq1.inj _ _ (show _ < q.mxs by rw [hww]; exact wrap_lt (by omega)) hx he
        rw [hww] at this
        simp only [wrap] at this; split at this <;> omega
      rwa [upd_ne _ _ hne] at ha
    · rw [if_neg hj0]
      have b' : locs q1 = d q.exit :: locs { q with
          data := d, pos := upd q.pos (d p) p, exit := (q.exit + 1) &&& q.mask,
          cnt := q.cnt - 1, val := upd q.val loc dflt } := b
      have hset : locs q1 = ((locs q).set j (q.data q.exit)).set 0 (d q.exit) := by
        apply List.ext_getElem?
        intro i
        by_cases hi : i < q.cnt
        · have e1 : (locs q1)[i]? = some (d (wrap q.mxs (q.exit + i))) := by
            show (List.map _ (List.range q.cnt))[i]? = _
            rw [List.getElem?_map, List.getElem?_range hi]; rfl
          have e2 : (locs q)[i]? = some (q.data (wrap q.mxs (q.exit + i))) := by
            show (List.map _ (List.range q.cnt))[i]? = _
            rw [List.getElem?_map, List.getElem?_range hi]; rfl
          rw [e1, List.getElem?_set, List.getElem?_set, e2]
          simp only [List.length_set, length_locs]
          by_cases h0 : 0 = i
          · subst h0; rw [hw0]; simp [hi]
          · rw [if_neg h0]
            by_cases h1 : j = i
            · subst h1; simp only [if_true, if_pos hj]
              exact congrArg some hdp
            · rw [if_neg h1]
              congr 1
              apply hdo
              · show wrap q.mxs (q.exit + i) ≠ wrap q.mxs (q.exit + j)
                simp only [wrap]; split <;> split <;> omega
              · simp only [wrap]; split <;> omega
        · rw [List.getElem?_eq_none (by rw [length_locs]; show q.cnt ≤ i; omega),
            List.getElem?_eq_none (by simp [length_locs]; omega)]
      have htail : locs { q with
          data := d, pos := upd q.pos (d p) p, exit := (q.exit + 1) &&& q.mask,
          cnt := q.cnt - 1, val := upd q.val loc dflt } = (locs q1).tail := by
        rw [b']; rfl
      rw [htail, hset]
      cases hl : locs q with
      | nil => simp
      | cons x xs =>
        obtain ⟨j', rfl⟩ : ∃ j', j = j' + 1 := ⟨j - 1, by omega⟩
        simp

end Verif.Queue
