import Verif.Queue
/-!
# Properties of `CQueue` (C27, C28, C29)

Specification: an unbounded list, oldest element first.
-/
namespace Verif.Queue
variable {α : Type}

/-- Client operations without `retract`. -/
inductive Op (α : Type) where
  | enq (v : α)
  | deq
  | peek
  | size
  | empty
  | clear

/-- Observable results. -/
inductive Out (α : Type) where
  | unit
  | value (v : α)
  | num (n : Nat)
  | flag (b : Bool)

/-- One operation on the implementation. -/
def stepQ (dflt : α) (q : Q α) : Op α → Q α × Out α
  | .enq v => ((enQueue q v).1, .unit)
  | .deq => ((deQueue dflt q).1, .value (deQueue dflt q).2)
  | .peek => (q, .value (peek dflt q))
  | .size => (q, .num (size q))
  | .empty => (q, .flag (empty q))
  | .clear => (clear q, .unit)

/-- One operation on the specification (a list). -/
def stepL (dflt : α) (l : List α) : Op α → List α × Out α
  | .enq v => (l ++ [v], .unit)
  | .deq => (l.tail, .value (l.headD dflt))
  | .peek => (l, .value (l.headD dflt))
  | .size => (l, .num l.length)
  | .empty => (l, .flag l.isEmpty)
  | .clear => ([], .unit)

/-- All results of an operation sequence. -/
def runQ (dflt : α) : Q α → List (Op α) → List (Out α)
  | _, [] => []
  | q, o :: os => (stepQ dflt q o).2 :: runQ dflt (stepQ dflt q o).1 os
def runL (dflt : α) : List α → List (Op α) → List (Out α)
  | _, [] => []
  | l, o :: os => (stepL dflt l o).2 :: runL dflt (stepL dflt l o).1 os

theorem abs_enQueue {q : Q α} (h : WF q) (v : α) : abs (enQueue q v).1 = abs q ++ [v] := by
  obtain ⟨_, h2, h3, h4⟩ := enQueue_spec h v
  simp only [abs, h2, h4, List.map_append, List.map_cons, List.map_nil, upd_same]
  congr 1
  apply List.map_congr_left
  intro l hl
  exact upd_ne _ _ (fun he => h3 (he ▸ hl))

theorem abs_head {q : Q α} (h : WF q) (hc : 0 < q.cnt) :
    ∃ t, abs q = q.val (q.data q.exit) :: t ∧
      abs ({ q with exit := (q.exit + 1) &&& q.mask, cnt := q.cnt - 1 } : Q α) = t := by
  obtain ⟨_, b⟩ := pop_spec h hc
  refine ⟨_, ?_, rfl⟩
  show (locs q).map q.val = _
  rw [b]; rfl

theorem step_sim (dflt : α) {q : Q α} (h : WF q) (o : Op α) :
    WF (stepQ dflt q o).1 ∧ (stepL dflt (abs q) o) = (abs (stepQ dflt q o).1, (stepQ dflt q o).2) := by
  have hlen : (abs q).length = q.cnt := by simp [abs, length_locs]
  cases o with
  | enq v => exact ⟨(enQueue_spec h v).1, by simp [stepL, stepQ, abs_enQueue h]⟩
  | deq =>
    by_cases hc : q.cnt = 0
    · have he := (h.empty_iff).2 hc
      have : abs q = [] := by rw [← List.length_eq_zero_iff, hlen, hc]
      simp [stepQ, stepL, deQueue, he, this, h]
    · have he : q.enter ≠ q.exit := fun h' => hc ((h.empty_iff).1 h')
      obtain ⟨t, h1, h2⟩ := abs_head h (by omega)
      refine ⟨by simp only [stepQ, deQueue, if_pos he]; exact (pop_spec h (by omega)).1, ?_⟩
      simp only [stepL, stepQ, deQueue, if_pos he, h1, List.tail_cons, List.headD_cons]
      rw [← h2]
  | peek =>
    refine ⟨h, ?_⟩
    by_cases hc : q.cnt = 0
    · have he := (h.empty_iff).2 hc
      have : abs q = [] := by rw [← List.length_eq_zero_iff, hlen, hc]
      simp [stepQ, stepL, peek, he, this]
    · have he : q.enter ≠ q.exit := fun h' => hc ((h.empty_iff).1 h')
      obtain ⟨t, h1, _⟩ := abs_head h (by omega)
      simp only [stepL, stepQ, peek, if_pos he, h1, List.headD_cons]
  | size => exact ⟨h, by simp [stepL, stepQ, size, hlen]⟩
  | empty =>
    refine ⟨h, ?_⟩
    simp only [stepL, stepQ, empty, Prod.mk.injEq, Out.flag.injEq, true_and]
    rw [Bool.eq_iff_iff, List.isEmpty_iff, beq_iff_eq, h.empty_iff, ← List.length_eq_zero_iff, hlen]
  | clear =>
    have hm := h.two_le
    refine ⟨⟨h.pow, h.mask, ?_, ?_, ?_, h.inj, h.alloc, ?_⟩, ?_⟩
    · show 0 < q.mxs; omega
    · show 0 < q.mxs; omega
    · show 0 = wrap q.mxs (0 + 0); simp [wrap]
    · intro i hi; exact absurd hi (Nat.not_lt_zero _)
    · simp [stepL, stepQ, clear, abs, locs]

theorem run_sim (dflt : α) (os : List (Op α)) : ∀ {q : Q α}, WF q → runQ dflt q os = runL dflt (abs q) os := by
  induction os with
  | nil => intro q _; rfl
  | cons o os ih =>
    intro q h
    obtain ⟨h1, h2⟩ := step_sim dflt h o
    simp only [runQ, runL, h2, ih h1]

/-- C27, the part that holds: for every initial size `≥ 1`, every sequence of operations gives
the same results as an unbounded FIFO list.  Missing: initial size 0, which is refuted by
`cqueue_size0_false`. -/
theorem cqueue_fifo_partial (dflt : α) (sz : Nat) (hsz : 1 ≤ sz) (os : List (Op α)) :
    runQ dflt (mk' dflt sz) os = runL dflt [] os := by
  obtain ⟨h1, h2⟩ := WF_mk dflt sz hsz
  rw [run_sim dflt os h1]; simp [abs, h2]

/-- A run that wraps around and grows twice. -/
example : runQ 0 (mk' 0 1) [.enq 1, .deq, .enq 2, .enq 3, .enq 4, .deq, .enq 5, .enq 6, .enq 7, .deq, .deq, .size]
    = [.unit, .value 1, .unit, .unit, .unit, .value 2, .unit, .unit, .unit, .value 3, .value 4, .num 3] := rfl

/-- C27 as stated is false for `CQueue(0)`: after enqueuing 1 then 2 the first dequeue
returns 2, because the two slots share one location. -/
theorem cqueue_size0_false :
    ¬ ∀ (sz : Nat) (os : List (Op Nat)), runQ 0 (mk' 0 sz) os = runL 0 [] os := by
  intro h
  have h0 := h 0 [.enq 1, .enq 2, .deq]
  have h1 : runQ 0 (mk' 0 0) [.enq 1, .enq 2, .deq] = [.unit, .unit, .value 2] := rfl
  have h2 : runL 0 [] [.enq 1, .enq 2, .deq] = [.unit, .unit, .value 1] := rfl
  rw [h1, h2] at h0
  simp at h0

/-! ### Reachable queues, including `retract` -/

/-- Queues a client can build from `CQueue(sz)`, `sz ≥ 1`, retracting only queued locations. -/
inductive Reach (dflt : α) : Q α → Prop where
  | init (sz : Nat) : 1 ≤ sz → Reach dflt (mk' dflt sz)
  | step {q : Q α} (o : Op α) : Reach dflt q → Reach dflt (stepQ dflt q o).1
  | retract {q : Q α} (loc : Nat) : Reach dflt q → loc ∈ locs q → Reach dflt (retract dflt q loc)

theorem Reach.wf {dflt : α} {q : Q α} (h : Reach dflt q) : WF q := by
  induction h with
  | init sz hsz => exact (WF_mk dflt sz hsz).1
  | step o _ ih => exact (step_sim dflt ih o).1
  | retract loc _ hl ih =>
    obtain ⟨j, hj, rfl⟩ := mem_locs.1 hl
    exact (retract_spec dflt ih j hj).1

/-- C27 holds from every reachable queue, also after `retract`. -/
theorem cqueue_fifo_reach (dflt : α) {q : Q α} (h : Reach dflt q) (os : List (Op α)) :
    runQ dflt q os = runL dflt (abs q) os := run_sim dflt os h.wf

/-- C28: `doOnAll` visits exactly the queued locations, oldest first. -/
theorem doOnAll_visits (dflt : α) {q : Q α} (h : Reach dflt q) :
    doOnAll q = locs q ∧ (doOnAll q).map q.val = abs q := by
  have hw := h.wf
  have : doOnAll q = locs q := visitLoop_spec hw _ _ hw.exit_lt (Nat.le_of_lt hw.cnt_lt)
  exact ⟨this, by rw [this]; rfl⟩

/-- C28: `foldl` folds the queued values oldest first and stops at the first accumulator that
tests true. -/
theorem foldl_stops (dflt : α) {q : Q α} (h : Reach dflt q) (isSet : α → Bool) (f : α → α → α) (base : α) :
    foldl q isSet f base = (abs q).foldl (fun a v => if isSet a then a else f a v) base := by
  have hw := h.wf
  rw [foldl, foldLoop_visit, visitLoop_spec hw _ _ hw.exit_lt (Nat.le_of_lt hw.cnt_lt)]; rfl

theorem perm_set_tail {β : Type} : ∀ (t : List β) (x y : β) (j : Nat), t[j]? = some y →
    (y :: t.set j x).Perm (x :: t) := by
  intro t
  induction t with
  | nil => intro x y j h; simp at h
  | cons z zs ih =>
    intro x y j h
    cases j with
    | zero =>
      simp at h; subst h
      simpa using List.Perm.swap x z zs
    | succ j =>
      simp only [List.getElem?_cons_succ] at h
      simp only [List.set_cons_succ]
      have := ih x y j h
      exact ((List.Perm.swap z y _).trans (this.cons z)).trans (List.Perm.swap x z zs)

/-- C29, the part that holds: retracting a queued location removes exactly that location and
keeps every other one with its value.  Missing: the order of the survivors
(`retract_order_false`). -/
theorem retract_removes_partial (dflt : α) {q : Q α} (h : Reach dflt q) (loc : Nat) (hl : loc ∈ locs q) :
    (loc :: locs (retract dflt q loc)).Perm (locs q) ∧
    (∀ l ∈ locs (retract dflt q loc), (retract dflt q loc).val l = q.val l) ∧
    size (retract dflt q loc) + 1 = size q := by
  have hw := h.wf
  obtain ⟨j, hj, rfl⟩ := mem_locs.1 hl
  obtain ⟨a, b, c⟩ := retract_spec dflt hw j hj
  have hx := hw.exit_lt
  have hperm : (q.data (wrap q.mxs (q.exit + j)) :: locs (retract dflt q (q.data (wrap q.mxs (q.exit + j))))).Perm (locs q) := by
    rw [b]
    obtain ⟨_, hpop⟩ := pop_spec hw (show 0 < q.cnt by omega)
    by_cases hj0 : j = 0
    · subst hj0
      rw [if_pos rfl, hpop]
      simp [wrap, hx]
    · rw [if_neg hj0]
      have hget : (locs q)[j]? = some (q.data (wrap q.mxs (q.exit + j))) := by
        simp [locs, List.getElem?_range hj]
      rw [hpop] at hget ⊢
      obtain ⟨j', rfl⟩ : ∃ j', j = j' + 1 := ⟨j - 1, by omega⟩
      simp only [List.getElem?_cons_succ] at hget
      exact perm_set_tail _ _ _ _ hget
  refine ⟨hperm, fun l hl' => ?_, ?_⟩
  · rw [c]
    apply upd_ne
    intro he
    have hnd := hperm.nodup_iff.2 hw.nodup_locs
    rw [List.nodup_cons] at hnd
    exact hnd.1 (he ▸ hl')
  · have := hperm.length_eq
    simpa [length_locs, size] using this

/-- C29 as stated is false: retracting the last of three queued values makes the first one
jump behind the second. -/
theorem retract_order_false :
    ¬ ∀ (q : Q Nat) (loc : Nat), Reach 0 q → loc ∈ locs q →
      (locs (retract 0 q loc)).Sublist (locs q) := by
  intro h
  let q : Q Nat := (stepQ 0 (stepQ 0 (stepQ 0 (mk' 0 4) (.enq 10)).1 (.enq 20)).1 (.enq 30)).1
  have hr : Reach 0 q := .step _ (.step _ (.step _ (.init 4 (by omega))))
  have := h q 2 hr (by decide)
  revert this
  decide

/-- `retract(value)` on a non-empty queue reports whether the value is queued. -/
theorem findLoop_spec [BEq α] [LawfulBEq α] {q : Q α} (h : WF q) (v : α) :
    ∀ (n i fuel : Nat), i + n + 1 = q.cnt → n + 1 ≤ fuel →
      findLoop q v fuel (wrap q.mxs (q.exit + i)) =
        ((locs q).drop i).find? (fun l => q.val l == v) := by
  intro n
  have hx := h.exit_lt
  have hc := h.cnt_lt
  induction n with
  | zero =>
    intro i fuel hi hf
    obtain ⟨f, rfl⟩ : ∃ f, fuel = f + 1 := ⟨fuel - 1, by omega⟩
    have hd : (locs q).drop i = [q.data (wrap q.mxs (q.exit + i))] := by
      have hl : i < (locs q).length := by rw [length_locs]; omega
      rw [List.drop_eq_getElem_cons hl, List.drop_of_length_le (by rw [length_locs]; omega)]
      simp [locs]
    have hs : (wrap q.mxs (q.exit + i) + 1) &&& q.mask = q.enter := by
      rw [h.mask, step_eq h.pow (wrap_lt (by omega)), h.enter_eq]
      simp only [wrap]; split <;> split <;> split <;> omega
    simp only [findLoop, hs, hd, List.find?_cons, List.find?_nil]
    cases q.val (q.data (wrap q.mxs (q.exit + i))) == v <;> simp
  | succ n ih =>
    intro i fuel hi hf
    obtain ⟨f, rfl⟩ : ∃ f, fuel = f + 1 := ⟨fuel - 1, by omega⟩
    have hd : (locs q).drop i = q.data (wrap q.mxs (q.exit + i)) :: (locs q).drop (i + 1) := by
      have hl : i < (locs q).length := by rw [length_locs]; omega
      rw [List.drop_eq_getElem_cons hl]
      simp [locs]
    have hs : (wrap q.mxs (q.exit + i) + 1) &&& q.mask = wrap q.mxs (q.exit + (i + 1)) := by
      rw [h.mask, step_eq h.pow (wrap_lt (by omega))]
      simp only [wrap]; split <;> split <;> split <;> omega
    have hne : wrap q.mxs (q.exit + (i + 1)) ≠ q.enter := by
      rw [h.enter_eq]; simp only [wrap]; split <;> split <;> omega
    simp only [findLoop, hs, if_pos hne]
    rw [ih (i + 1) f (by omega) (by omega), hd, List.find?_cons]
    cases q.val (q.data (wrap q.mxs (q.exit + i))) == v <;> simp

/-- C29, by value: on a non-empty queue `retract(v)` removes the oldest location holding `v`
if there is one, and otherwise changes nothing and returns false. -/
theorem retractVal_spec [BEq α] [LawfulBEq α] (dflt : α) {q : Q α} (h : Reach dflt q)
    (hne : 0 < size q) (v : α) :
    retractVal dflt q v =
      match (locs q).find? (fun l => q.val l == v) with
      | some l => (retract dflt q l, true)
      | none => (q, false) := by
  have hw := h.wf
  have hne : 0 < q.cnt := hne
  have := findLoop_spec hw v (q.cnt - 1) 0 (q.mxs + 1) (by omega) (by have := hw.cnt_lt; omega)
  have hw0 : wrap q.mxs (q.exit + 0) = q.exit := by simp [wrap, hw.exit_lt]
  rw [hw0, List.drop_zero] at this
  simp only [retractVal, this]
  rfl

end Verif.Queue
