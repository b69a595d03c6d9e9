import Verif.Pool
/-!
# Properties of `Pool` (C34, C35, C36)

A client history is a stack of entries, newest first: blocks that are still live and marks
that may still be used.  `clear(mark)` drops every entry newer than the mark.
-/
namespace Verif.Pool

/-- A block handed to the client: segment, offset, requested size. -/
structure Block where
  seg : Nat
  off : Nat
  len : Nat
deriving DecidableEq

inductive Entry where
  | blk (b : Block)
  | mk (m : Mark)

/-- Client operations; `clearTo k` uses the `k`-th newest live mark. -/
inductive Op where
  | alloc (n : Nat)
  | mark
  | clearTo (k : Nat)
  | clear

/-- The stack from the `k`-th mark (newest = 0) downwards, with that mark. -/
def fromMark : Nat → List Entry → Option (Mark × List Entry)
  | _, [] => none
  | k, .blk _ :: es => fromMark k es
  | 0, .mk m :: es => some (m, .mk m :: es)
  | k + 1, .mk _ :: es => fromMark k es

/-- One client step; `none` only if `allocate` fails (proved impossible). -/
def step (p : Pool) (st : List Entry) : Op → Option (Pool × List Entry)
  | .alloc n => (allocate p n).map (fun r => (r.1, .blk ⟨r.2.1, r.2.2, n⟩ :: st))
  | .mark => some (p, .mk (mark p) :: st)
  | .clearTo k =>
    match fromMark k st with
    | some (m, st') => some (clearTo p m, st')
    | none => some (p, st)
  | .clear => some (clear p, [])

def run : Pool → List Entry → List Op → Option (Pool × List Entry)
  | p, st, [] => some (p, st)
  | p, st, o :: os => (step p st o).bind (fun r => run r.1 r.2 os)

/-- Live blocks of a history. -/
def live : List Entry → List Block
  | [] => []
  | .blk b :: es => b :: live es
  | .mk _ :: es => live es

/-- Two byte ranges do not overlap. -/
def Disjoint (a b : Block) : Prop :=
  a.seg ≠ b.seg ∨ a.off + a.len ≤ b.off ∨ b.off + b.len ≤ a.off

/-- The block lies inside an existing segment and starts on a 16-byte boundary of it. -/
def InBounds (p : Pool) (b : Block) : Prop :=
  b.seg < p.segs.length ∧ b.off + b.len ≤ p.segs.getD b.seg 0 ∧ b.off % 16 = 0

/-- Positions decrease along the history. -/
def Chain (p : Pool) : Nat → Nat → List Entry → Prop
  | _, _, [] => True
  | s, t, .blk b :: es =>
    ValidPos p b.seg b.off ∧ b.off + b.len ≤ p.segs.getD b.seg 0 ∧
    (b.seg < s ∨ (b.seg = s ∧ b.off + b.len ≤ t)) ∧ Chain p b.seg b.off es
  | s, t, .mk m :: es =>
    ValidPos p m.seg m.top ∧ (m.seg < s ∨ (m.seg = s ∧ m.top ≤ t)) ∧ Chain p m.seg m.top es

theorem Chain.mono {p : Pool} : ∀ {es : List Entry} {s t s' t' : Nat}, Chain p s t es →
    (s < s' ∨ (s = s' ∧ t ≤ t')) → Chain p s' t' es := by
  intro es
  cases es with
  | nil => intros; trivial
  | cons e es =>
    intro s t s' t' h hp
    cases e with
    | blk b => obtain ⟨h1, h2, h3, h4⟩ := h; exact ⟨h1, h2, by omega, h4⟩
    | mk m => obtain ⟨h1, h2, h3⟩ := h; exact ⟨h1, by omega, h3⟩

theorem Chain.ext {p q : Pool} (he : Extends q p) : ∀ {es : List Entry} {s t : Nat},
    Chain p s t es → Chain q s t es := by
  intro es
  induction es with
  | nil => intros; trivial
  | cons e es ih =>
    intro s t h
    cases e with
    | blk b =>
      obtain ⟨h1, h2, h3, h4⟩ := h
      refine ⟨h1.mono he, ?_, h3, ih h4⟩
      obtain ⟨⟨m, e⟩, _⟩ := he
      rw [e, getD_append_lt _ _ _ h1.1]; exact h2
    | mk m => obtain ⟨h1, h2, h3⟩ := h; exact ⟨h1.mono he, h2, ih h3⟩

theorem Chain.fromMark {p : Pool} : ∀ {es : List Entry} {k s t : Nat} {m : Mark} {es' : List Entry},
    Chain p s t es → fromMark k es = some (m, es') →
    ValidPos p m.seg m.top ∧ Chain p m.seg m.top es' ∧ ∃ pre, es = pre ++ es' := by
  intro es
  induction es with
  | nil => intro k s t m es' _ h; simp [Pool.fromMark] at h
  | cons e es ih =>
    intro k s t m es' hc h
    cases e with
    | blk b =>
      obtain ⟨a, b', c, e⟩ := ih hc.2.2.2 (by simpa [Pool.fromMark] using h)
      exact ⟨a, b', .blk b :: c, by simp [e]⟩
    | mk m0 =>
      cases k with
      | zero =>
        simp only [Pool.fromMark, Option.some.injEq, Prod.mk.injEq] at h
        obtain ⟨rfl, rfl⟩ := h
        exact ⟨hc.1, ⟨hc.1, Or.inr ⟨rfl, Nat.le_refl _⟩, hc.2.2⟩, [], rfl⟩
      | succ k =>
        obtain ⟨a, b', c, e⟩ := ih hc.2.2 (by simpa [Pool.fromMark] using h)
        exact ⟨a, b', .mk m0 :: c, by simp [e]⟩

theorem Chain.bound {p : Pool} : ∀ {es : List Entry} {s t : Nat}, Chain p s t es →
    ∀ b ∈ live es, InBounds p b ∧ (b.seg < s ∨ (b.seg = s ∧ b.off + b.len ≤ t)) := by
  intro es
  induction es with
  | nil => intro s t _ b hb; simp [live] at hb
  | cons e es ih =>
    intro s t h b hb
    cases e with
    | blk b0 =>
      obtain ⟨h1, h2, h3, h4⟩ := h
      rcases List.mem_cons.1 hb with rfl | hb
      · exact ⟨⟨h1.1, h2, h1.2.2⟩, h3⟩
      · obtain ⟨i, j⟩ := ih h4 b hb
        exact ⟨i, by omega⟩
    | mk m =>
      obtain ⟨i, j⟩ := ih h.2.2 b hb
      exact ⟨i, by have := h.2.1; omega⟩

theorem Chain.disjoint {p : Pool} : ∀ {es : List Entry} {s t : Nat}, Chain p s t es →
    (live es).Pairwise Disjoint := by
  intro es
  induction es with
  | nil => intros; exact List.Pairwise.nil
  | cons e es ih =>
    intro s t h
    cases e with
    | blk b =>
      refine List.pairwise_cons.2 ⟨fun c hc => ?_, ih h.2.2.2⟩
      have := (h.2.2.2.bound c hc).2
      simp only [Disjoint]; omega
    | mk m => exact ih h.2.2

/-- The pool is at a valid position and above every live entry. -/
def Inv (p : Pool) (st : List Entry) : Prop := ValidPos p p.seg p.top ∧ Chain p p.seg p.top st

theorem inv_step {p : Pool} {st : List Entry} (h : Inv p st) (o : Op) :
    ∃ p' st', step p st o = some (p', st') ∧ Inv p' st' ∧ Extends p' p := by
  obtain ⟨hv, hc⟩ := h
  cases o with
  | alloc n =>
    obtain ⟨q, h1, h2, h3, h4, h5⟩ := seek_spec (round16 n) _ p hv (Nat.le_succ _)
    obtain ⟨r1, r2, r3⟩ := round16_spec n
    refine ⟨{ q with top := q.top + round16 n }, .blk ⟨q.seg, q.top, n⟩ :: st,
      by simp [step, allocate, h1], ⟨⟨h3.1, h4, ?_⟩, ?_, ?_, ?_, ?_⟩, h2⟩
    · have := h3.2.2; simp only; omega
    · exact h3
    · simp only; omega
    · right; exact ⟨rfl, by simp only; omega⟩
    · have h6 : Chain q q.seg q.top st := (hc.ext h2).mono (by omega)
      exact Chain.ext (p := q) (q := { q with top := q.top + round16 n }) ⟨⟨[], by simp⟩, rfl⟩ h6
  | mark => exact ⟨_, _, rfl, ⟨hv, hv, Or.inr ⟨rfl, Nat.le_refl _⟩, hc⟩, Extends.refl p⟩
  | clearTo k =>
    cases hf : fromMark k st with
    | none => exact ⟨p, st, by simp [step, hf], ⟨hv, hc⟩, Extends.refl p⟩
    | some r =>
      obtain ⟨m, st'⟩ := r
      obtain ⟨a, b, _⟩ := hc.fromMark hf
      have hx : Extends (clearTo p m) p := ⟨⟨[], by simp [clearTo]⟩, rfl⟩
      exact ⟨clearTo p m, st', by simp [step, hf], ⟨a.mono hx, b.ext hx⟩, hx⟩
  | clear =>
    exact ⟨_, _, rfl, ⟨⟨Nat.lt_of_le_of_lt (Nat.zero_le _) hv.1, by simp [clear], by simp [clear]⟩, trivial⟩,
      ⟨⟨[], by simp [clear]⟩, rfl⟩⟩

theorem inv_run (os : List Op) : ∀ {p : Pool} {st : List Entry}, Inv p st →
    ∃ p' st', run p st os = some (p', st') ∧ Inv p' st' := by
  induction os with
  | nil => intro p st h; exact ⟨p, st, rfl, h⟩
  | cons o os ih =>
    intro p st h
    obtain ⟨p1, st1, h1, h2, _⟩ := inv_step h o
    obtain ⟨p2, st2, h3, h4⟩ := ih h2
    exact ⟨p2, st2, by simp [run, h1, h3], h4⟩

theorem inv_init (n : Nat) : Inv (mk' n) [] := by
  refine ⟨⟨?_, ?_, ?_⟩, trivial⟩ <;> simp [mk']

/-- C34: for every segment size and every sequence of operations, allocation always succeeds,
every live block lies inside its segment on a 16-byte boundary, and live blocks never
overlap. -/
theorem pool_blocks_disjoint (segSize : Nat) (os : List Op) :
    ∃ p st, run (mk' segSize) [] os = some (p, st) ∧
      (∀ b ∈ live st, InBounds p b) ∧ (live st).Pairwise Disjoint := by
  obtain ⟨p, st, h1, h2⟩ := inv_run os (inv_init segSize)
  exact ⟨p, st, h1, fun b hb => (h2.2.bound b hb).1, h2.2.disjoint⟩

/-- C34: a fresh block is disjoint from every block live at that time and has the requested
size inside its segment. -/
theorem alloc_fresh (segSize : Nat) (os : List Op) (n : Nat) (p : Pool) (st : List Entry)
    (h : run (mk' segSize) [] os = some (p, st)) :
    ∃ p' s o, allocate p n = some (p', (s, o)) ∧ InBounds p' ⟨s, o, n⟩ ∧
      ∀ b ∈ live st, Disjoint ⟨s, o, n⟩ b := by
  obtain ⟨p1, st1, h1, h2⟩ := inv_run os (inv_init segSize)
  rw [h] at h1; simp only [Option.some.injEq, Prod.mk.injEq] at h1
  obtain ⟨rfl, rfl⟩ := h1
  obtain ⟨p2, st2, h3, h4, _⟩ := inv_step h2 (.alloc n)
  simp only [step, Option.map_eq_some_iff] at h3
  obtain ⟨⟨q, s, o⟩, h5, h6⟩ := h3
  simp only [Prod.mk.injEq] at h6
  obtain ⟨rfl, rfl⟩ := h6
  refine ⟨_, s, o, h5, (h4.2.bound ⟨s, o, n⟩ (by simp [live])).1, ?_⟩
  exact (List.pairwise_cons.1 h4.2.disjoint).1

/-- Operations that never go below the mark sitting above `base`: every `clearTo` has to
find its mark among the entries pushed later. -/
def Above : Pool → List Entry → List Entry → List Op → Prop
  | _, _, _, [] => True
  | p, pre, base, .clearTo k :: os =>
    ∃ m pre', fromMark k pre = some (m, pre') ∧ Above (clearTo p m) pre' base os
  | _, _, _, .clear :: _ => False
  | p, pre, base, .alloc n :: os =>
    ∃ p' s o, allocate p n = some (p', (s, o)) ∧ Above p' (.blk ⟨s, o, n⟩ :: pre) base os
  | p, pre, base, .mark :: os => Above p (.mk (mark p) :: pre) base os

theorem fromMark_append {k : Nat} {pre base : List Entry} {m : Mark} {pre' : List Entry}
    (h : fromMark k pre = some (m, pre')) : fromMark k (pre ++ base) = some (m, pre' ++ base) := by
  induction pre generalizing k with
  | nil => simp [fromMark] at h
  | cons e es ih =>
    cases e with
    | blk b => simpa [fromMark] using ih (by simpa [fromMark] using h)
    | mk m0 =>
      cases k with
      | zero =>
        simp only [fromMark, Option.some.injEq, Prod.mk.injEq] at h
        obtain ⟨rfl, rfl⟩ := h
        simp [fromMark]
      | succ k => simpa [fromMark] using ih (by simpa [fromMark] using h)

theorem run_above : ∀ (os : List Op) (p : Pool) (pre base : List Entry), Above p pre base os →
    ∃ p' pre', run p (pre ++ base) os = some (p', pre' ++ base) := by
  intro os
  induction os with
  | nil => intro p pre base _; exact ⟨p, pre, rfl⟩
  | cons o os ih =>
    intro p pre base h
    cases o with
    | alloc n =>
      obtain ⟨p', s, o, h1, h2⟩ := h
      obtain ⟨p2, pre2, h3⟩ := ih _ _ _ h2
      exact ⟨p2, pre2, by simpa [run, step, h1] using h3⟩
    | mark =>
      obtain ⟨p2, pre2, h3⟩ := ih _ _ _ h
      exact ⟨p2, pre2, by simpa [run, step] using h3⟩
    | clearTo k =>
      obtain ⟨m, pre', h1, h2⟩ := h
      obtain ⟨p2, pre2, h3⟩ := ih _ _ _ h2
      exact ⟨p2, pre2, by simpa [run, step, fromMark_append h1] using h3⟩
    | clear => exact h.elim

/-- C35: take a mark, work above it in any way, and go back to it; the blocks that were live
when the mark was taken are still live, untouched by everything allocated afterwards, and a
later allocation does not overlap them either. -/
theorem clear_to_mark_protects (segSize : Nat) (os above : List Op) (p p' : Pool)
    (st st' : List Entry) (n : Nat)
    (h1 : run (mk' segSize) [] os = some (p, st))
    (h2 : Above p [.mk (mark p)] st above)
    (h3 : run p (.mk (mark p) :: st) above = some (p', st')) :
    (∀ b ∈ live st, b ∈ live st') ∧ (live st').Pairwise Disjoint ∧
    ∃ p'' s o, allocate (clearTo p' (mark p)) n = some (p'', (s, o)) ∧
      ∀ b ∈ live st, Disjoint ⟨s, o, n⟩ b := by
  obtain ⟨p1, st1, e1, i1⟩ := inv_run os (inv_init segSize)
  rw [h1] at e1; simp only [Option.some.injEq, Prod.mk.injEq] at e1
  obtain ⟨rfl, rfl⟩ := e1
  have i2 : Inv p (.mk (mark p) :: st) := ⟨i1.1, i1.1, Or.inr ⟨rfl, Nat.le_refl _⟩, i1.2⟩
  obtain ⟨p2, pre, e2⟩ := run_above above p [.mk (mark p)] st h2
  obtain ⟨p3, st3, e3, i3⟩ := inv_run above i2
  rw [h3] at e3; simp only [Option.some.injEq, Prod.mk.injEq] at e3
  obtain ⟨rfl, rfl⟩ := e3
  simp only [List.singleton_append] at e2
  rw [h3] at e2; simp only [Option.some.injEq, Prod.mk.injEq] at e2
  obtain ⟨rfl, rfl⟩ := e2
  have live_app : ∀ a b : List Entry, live (a ++ b) = live a ++ live b := by
    intro a b
    induction a with
    | nil => rfl
    | cons e es ih => cases e <;> simp [live, ih]
  refine ⟨fun b hb => by rw [live_app]; exact List.mem_append_right _ hb, i3.2.disjoint, ?_⟩
  -- the mark position is still valid in the larger table
  have hext : Extends p' p := by
    have : ∀ (os : List Op) (p : Pool) (st : List Entry), Inv p st → ∀ p' st', run p st os = some (p', st') →
        Extends p' p := by
      intro os
      induction os with
      | nil => intro p st _ p' st' h; simp [run] at h; rw [← h.1]; exact Extends.refl _
      | cons o os ih =>
        intro p st hi p' st' h
        obtain ⟨pa, sa, ha, hb, hc⟩ := inv_step hi o
        simp only [run, ha, Option.bind_some] at h
        exact hc.trans (ih _ _ hb _ _ h)
    exact this above p _ i2 _ _ h3
  have i4 : Inv (clearTo p' (mark p)) st :=
    ⟨i1.1.mono (q := clearTo p' (mark p)) hext, (i1.2.ext (q := clearTo p' (mark p)) hext)⟩
  obtain ⟨p5, st5, h5, h6, _⟩ := inv_step i4 (.alloc n)
  simp only [step, Option.map_eq_some_iff] at h5
  obtain ⟨⟨q, s, o⟩, h7, h8⟩ := h5
  simp only [Prod.mk.injEq] at h8
  obtain ⟨rfl, rfl⟩ := h8
  exact ⟨_, s, o, h7, (List.pairwise_cons.1 h6.2.disjoint).1⟩

/-- A history with two segments, a mark and a reuse after `clear(mark)`. -/
example : (run (mk' 32) [] [.alloc 5, .mark, .alloc 40, .alloc 3, .clearTo 0, .alloc 16]).map
    (fun r => live r.2) = some [⟨0, 16, 16⟩, ⟨0, 0, 5⟩] := by decide

example : Above (mk' 32) [.mk (mark (mk' 32))] [] [.alloc 40, .clearTo 0, .alloc 3] := by
  refine ⟨_, _, _, rfl, _, _, rfl, _, _, _, rfl, trivial⟩

/-- C36 as stated is false: usage is not restored by `clear(mark)` once a segment was added. -/
theorem usage_restored_false :
    ¬ ∀ (p : Pool) (ns : List Nat) (p' : Pool) (st : List Entry),
      run p [] (ns.map Op.alloc) = some (p', st) → usage (clearTo p' (mark p)) = usage p := by
  intro h
  have := h (mk' 32) [32, 32] _ _ rfl
  revert this; decide

/-- C36, the part that holds: usage is restored exactly when no segment was added in between
(or segments have size 0). -/
theorem usage_restored_partial (p p' : Pool) (hne : p.segs ≠ []) (hx : Extends p' p) :
    usage (clearTo p' (mark p)) = usage p ↔ (p'.segs.length = p.segs.length ∨ p.segSize = 0) := by
  obtain ⟨⟨m, e⟩, hs⟩ := hx
  have hl : 1 ≤ p.segs.length := by
    rcases hp : p.segs with _ | _
    · exact absurd hp hne
    · simp
  simp only [usage, clearTo, mark, hs, e, List.length_append]
  constructor
  · intro h
    by_cases h0 : p.segSize = 0
    · exact Or.inr h0
    · left
      have : (p.segs.length + m.length - 1) * p.segSize = (p.segs.length - 1) * p.segSize := by omega
      have := Nat.eq_of_mul_eq_mul_right (by omega) this
      omega
  · rintro (h | h)
    · have : m.length = 0 := by omega
      simp [this]
    · simp [h]

/-- Rounding: the least multiple of 16 not below the request. -/
theorem round16_least (n k : Nat) (h : n ≤ 16 * k) : round16 n ≤ 16 * k := by
  obtain ⟨h1, h2, h3⟩ := round16_spec n
  omega

end Verif.Pool
