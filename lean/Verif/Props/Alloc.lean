import Verif.Alloc
/-!
# C57, C58, C68: node allocator and stack allocator
-/
namespace Verif.Alloc

/-! ### C57 -/

/-- The ids handed out, in order. -/
def ids : List Out → List Nat
  | [] => []
  | .id n :: r => n :: ids r
  | _ :: r => ids r

theorem ids_run : ∀ (os : List Op) (p : LP), p.id + (ids (run p os).2).length ≤ 2 ^ 32 →
    ids (run p os).2 = List.range' p.id (ids (run p os).2).length := by
  intro os
  induction os with
  | nil => intro p _; rfl
  | cons o os ih =>
    intro p h
    cases o with
    | grab =>
      simp only [run, step, ids, grabId, List.length_cons, List.range'_succ] at h ⊢
      have hid : (p.id + 1) % 2 ^ 32 = p.id + 1 ∨ p.id + 1 = 2 ^ 32 := by omega
      rcases hid with hid | hid
      · rw [hid] at h ⊢
        have := ih { p with id := p.id + 1 } (by dsimp only; omega)
        dsimp only at this
        rw [← this]
      · have hz : (ids (run { p with id := (p.id + 1) % 2 ^ 32 } os).2).length = 0 := by omega
        rw [hz, List.length_eq_zero_iff.1 hz]; rfl
    | claim =>
      simp only [run, step, ids] at h ⊢
      have hp : (claim p).1.id = p.id := by unfold claim; split <;> rfl
      have := ih (claim p).1 (by rw [hp]; exact h)
      rw [hp] at this; exact this
    | release n =>
      simp only [run, step, ids] at h ⊢
      exact ih (release p n) h

/-- C57, ids: a fresh allocator hands out 0, 1, 2, ... -/
theorem lpool_ids (os : List Op) (h : (ids (run .mk' os).2).length ≤ 2 ^ 32) :
    ids (run .mk' os).2 = List.range (ids (run .mk' os).2).length ∧ (ids (run .mk' os).2).Nodup := by
  have := ids_run os .mk' (by simpa [LP.mk'] using h)
  rw [List.range_eq_range']
  refine ⟨this, ?_⟩
  rw [this]
  exact List.nodup_range'

theorem grabs_id : ∀ (k : Nat) (p : LP), p.id + k < 2 ^ 32 → (run p (List.replicate k .grab)).1 = { p with id := p.id + k } := by
  intro k
  induction k with
  | zero => intro p _; rfl
  | succ k ih =>
    intro p h
    rw [List.replicate_succ]
    simp only [run, step, grabId]
    rw [Nat.mod_eq_of_lt (by omega), ih _ (by dsimp only; omega)]
    dsimp only
    rw [show p.id + 1 + k = p.id + (k + 1) by omega]

theorem run_append : ∀ (os os' : List Op) (p : LP), (run p (os ++ os')).2 = (run p os).2 ++ (run (run p os).1 os').2 := by
  intro os
  induction os with
  | nil => intro os' p; rfl
  | cons o os ih => intro os' p; simp only [List.cons_append, run, ih]

/-- The bound is needed: the 2^32 + 1st id is 0 again. -/
theorem ids_wrap : (grabId (grabId (run .mk' (List.replicate (2 ^ 32 - 1) .grab)).1).1).2 = 0 := by
  rw [grabs_id _ _ (by simp [LP.mk'])]
  simp [grabId, LP.mk']

/-- Which nodes are available after a call, from the call and its result alone. -/
def after (A : Nat → Bool) : Op × Out → (Nat → Bool)
  | (.release n, _) => upd A n true
  | (.claim, .node (some x)) => upd A x false
  | _ => A

/-- What one call may answer when the nodes `A` are available. -/
def Fine (A : Nat → Bool) : Op × Out → Prop
  | (.grab, .id _) => True
  | (.claim, .node none) => ∀ x, A x = false
  | (.claim, .node (some x)) => A x = true
  | (.release _, .unit) => True
  | _ => False

/-- Every answer of the history is fine. -/
def Hist : (Nat → Bool) → List (Op × Out) → Prop
  | _, [] => True
  | A, e :: r => Fine A e ∧ Hist (after A e) r

/-- The client releases no node that is already available. -/
def Obeys : (Nat → Bool) → List (Op × Out) → Prop
  | _, [] => True
  | A, e :: r => (∀ n, e.1 = .release n → A n = false) ∧ Obeys (after A e) r

theorem hist_run : ∀ (os : List Op) (p : LP) (A : Nat → Bool), p.free.Nodup → (∀ x, A x = true ↔ x ∈ p.free) →
    Obeys A (os.zip (run p os).2) → Hist A (os.zip (run p os).2) := by
  intro os
  induction os with
  | nil => intro p A _ _ _; trivial
  | cons o os ih =>
    intro p A hn hA ho
    simp only [run, List.zip_cons_cons, Obeys, Hist] at ho ⊢
    obtain ⟨ho1, ho2⟩ := ho
    cases o with
    | grab => exact ⟨trivial, ih (grabId p).1 A hn hA ho2⟩
    | claim =>
      cases hf : p.free with
      | nil =>
        have e1 : claim p = (p, none) := by unfold claim; rw [hf]
        simp only [step, e1] at ho2 ⊢
        refine ⟨fun x => ?_, ih p A hn hA ho2⟩
        cases hx : A x with
        | false => rfl
        | true => have := (hA x).1 hx; rw [hf] at this; simp at this
      | cons y r =>
        have e1 : claim p = ({ p with free := r }, some y) := by unfold claim; rw [hf]
        simp only [step, e1] at ho2 ⊢
        rw [hf] at hn
        obtain ⟨hy, hr⟩ := List.nodup_cons.1 hn
        refine ⟨(hA y).2 (by rw [hf]; simp), ih { p with free := r } _ hr (fun x => ?_) ho2⟩
        show upd A y false x = true ↔ x ∈ r
        rw [upd_apply]
        split
        · rename_i hxy; subst hxy; simp [hy]
        · rename_i hxy; rw [hA, hf, List.mem_cons]; simp [hxy]
    | release n =>
      simp only [step] at ho2 ⊢
      refine ⟨trivial, ih (release p n) _ ?_ (fun x => ?_) ho2⟩
      · refine List.nodup_cons.2 ⟨fun hc => ?_, hn⟩
        have h1 := ho1 n rfl
        rw [(hA n).2 hc] at h1
        exact absurd h1 (by simp)
      · show upd A n true x = true ↔ x ∈ n :: p.free
        rw [upd_apply, List.mem_cons]
        split
        · rename_i hxy; simp [hxy]
        · rename_i hxy; rw [hA]; simp [hxy]

/-- C57, nodes: `claimNode` answers null exactly when no released node is available, and otherwise
a node that was released and not claimed since. -/
theorem lpool_nodes (os : List Op) (h : Obeys (fun _ => false) (os.zip (run .mk' os).2)) :
    Hist (fun _ => false) (os.zip (run .mk' os).2) :=
  hist_run os .mk' _ List.nodup_nil (fun x => by simp [LP.mk']) h

example : (run .mk' [.grab, .claim, .release 4, .release 9, .claim, .grab, .claim, .claim, .release 4]).2 =
    [.id 0, .node none, .unit, .unit, .node (some 9), .id 1, .node (some 4), .node none, .unit] := by decide
example : Hist (fun _ => false) (List.zip [Op.grab, .claim, .release 4, .release 9, .claim, .grab, .claim, .claim, .release 4]
    (run .mk' [.grab, .claim, .release 4, .release 9, .claim, .grab, .claim, .claim, .release 4]).2) :=
  lpool_nodes _ (by simp [Obeys, run, step, claim, release, grabId, after, LP.mk', upd])

/-! ### C58 -/

/-- The blocks `(offset, length)` granted. -/
def blocks : List Nat → List (Option Nat) → List (Nat × Nat)
  | n :: ns, some o :: os => (o, n) :: blocks ns os
  | _ :: ns, none :: os => blocks ns os
  | _, _ => []

theorem blocks_spec : ∀ (ns : List Nat) (c : CA), c.sp ≤ c.cap →
    (∀ b ∈ blocks ns (allocs c ns).2, c.sp ≤ b.1 ∧ b.1 + b.2 ≤ c.cap) ∧
    (blocks ns (allocs c ns).2).Pairwise (fun a b => a.1 + a.2 ≤ b.1) := by
  intro ns
  induction ns with
  | nil => intro c _; exact ⟨fun b hb => by simp [blocks] at hb, by simp [blocks]⟩
  | cons n ns ih =>
    intro c hc
    simp only [allocs]
    by_cases hn : n ≤ c.cap - c.sp
    · have e : allocate c n = ({ c with sp := c.sp + n }, some c.sp) := by unfold allocate; rw [if_pos hn]
      rw [e]
      obtain ⟨h1, h2⟩ := ih { c with sp := c.sp + n } (by dsimp only; omega)
      simp only [blocks, List.mem_cons, List.pairwise_cons]
      refine ⟨?_, ⟨fun b hb => (h1 b hb).1, h2⟩⟩
      rintro b (rfl | hb)
      · dsimp only; omega
      · have := h1 b hb; dsimp only at this; omega
    · have e : allocate c n = (c, none) := by unfold allocate; rw [if_neg hn]
      rw [e]
      exact ih c hc

/-- What the granted blocks before a request occupy. -/
def used : List Nat → List (Option Nat) → Nat
  | n :: ns, some _ :: os => n + used ns os
  | _ :: ns, none :: os => used ns os
  | _, _ => 0

theorem allocs_sp : ∀ (ns : List Nat) (c : CA), (allocs c ns).1.cap = c.cap ∧ (allocs c ns).1.sp = c.sp + used ns (allocs c ns).2 := by
  intro ns
  induction ns with
  | nil => intro c; exact ⟨rfl, rfl⟩
  | cons n ns ih =>
    intro c
    simp only [allocs]
    by_cases hn : n ≤ c.cap - c.sp
    · have e : allocate c n = ({ c with sp := c.sp + n }, some c.sp) := by unfold allocate; rw [if_pos hn]
      rw [e]
      obtain ⟨h1, h2⟩ := ih { c with sp := c.sp + n }
      simp only [used]
      exact ⟨h1, by rw [h2]; dsimp only; omega⟩
    · have e : allocate c n = (c, none) := by unfold allocate; rw [if_neg hn]
      rw [e]
      exact ih c

/-- C58.  Blocks are inside the buffer and pairwise disjoint, whatever the requests; a request is
refused exactly when what is granted already leaves less room. -/
theorem core_alloc (cap : Nat) (ns : List Nat) :
    (∀ b ∈ blocks ns (allocs ⟨cap, 0⟩ ns).2, b.1 + b.2 ≤ cap) ∧
    (blocks ns (allocs ⟨cap, 0⟩ ns).2).Pairwise (fun a b => ∀ k, ¬ ((a.1 ≤ k ∧ k < a.1 + a.2) ∧ (b.1 ≤ k ∧ k < b.1 + b.2))) ∧
    ∀ n, (allocate (allocs ⟨cap, 0⟩ ns).1 n).2 = none ↔ cap < used ns (allocs ⟨cap, 0⟩ ns).2 + n := by
  obtain ⟨h1, h2⟩ := blocks_spec ns ⟨cap, 0⟩ (Nat.zero_le _)
  refine ⟨fun b hb => (h1 b hb).2, h2.imp (fun {a b} h k hk => by omega), fun n => ?_⟩
  obtain ⟨e1, e2⟩ := allocs_sp ns ⟨cap, 0⟩
  dsimp only at e1 e2
  unfold allocate
  rw [e1, e2]
  have hle : used ns (allocs ⟨cap, 0⟩ ns).2 ≤ cap := by
    have : ∀ (ns : List Nat) (c : CA), c.sp ≤ c.cap → (allocs c ns).1.sp ≤ c.cap := by
      intro ns
      induction ns with
      | nil => intro c h; exact h
      | cons m ms ih =>
        intro c h
        simp only [allocs]
        by_cases hn : m ≤ c.cap - c.sp
        · have e : allocate c m = ({ c with sp := c.sp + m }, some c.sp) := by unfold allocate; rw [if_pos hn]
          rw [e]
          exact ih { c with sp := c.sp + m } (by dsimp only; omega)
        · have e : allocate c m = (c, none) := by unfold allocate; rw [if_neg hn]
          rw [e]; exact ih c h
    have := this ns ⟨cap, 0⟩ (Nat.zero_le _)
    rw [e2] at this
    dsimp only at this; omega
  split
  · simp; omega
  · simp; omega

example : (allocs ⟨16, 0⟩ [5, 8, 4, 3, 1]).2 = [some 0, some 5, none, some 13, none] := by decide

/-! ### C68: `StackAdapter` -/

/-- C68 is false: 2^61 objects of 8 bytes are "allocated" in no space at all. -/
theorem adapt_room_false : ¬ ∀ (c : CA) (size n o : Nat), c.sp ≤ c.cap → (adapt c size n).2 = some o → o + n * size ≤ c.cap := by
  intro h
  have := h ⟨100, 40⟩ 8 (2 ^ 61) 40 (by decide) (by decide)
  dsimp only at this
  omega

/-- C68 is false: after 3 bytes, an 8-byte object is placed at offset 3. -/
theorem adapt_align_false : ¬ ∀ (cap n1 s1 n2 s2 o : Nat), (adapt (adapt ⟨cap, 0⟩ s1 n1).1 s2 n2).2 = some o → s2 ∣ o := by
  intro h
  have := h 100 3 1 1 8 3 (by decide)
  omega

/-- What holds: requests of less than 2^64 bytes get the room, and one object type alone stays aligned. -/
theorem adapt_partial {c : CA} {size n o : Nat} (hs : c.sp ≤ c.cap) (hb : n * size < 2 ^ 64) (h : (adapt c size n).2 = some o) :
    o = c.sp ∧ o + n * size ≤ c.cap ∧ (size ∣ c.sp → size ∣ o ∧ size ∣ (adapt c size n).1.sp) := by
  unfold adapt at h ⊢
  rw [Nat.mod_eq_of_lt hb] at h ⊢
  unfold allocate at h ⊢
  split at h
  · rename_i hc
    rw [if_pos hc]
    simp only [Option.some.injEq] at h
    subst h
    refine ⟨rfl, by omega, fun hd => ⟨hd, Nat.dvd_add hd (Nat.dvd_mul_left _ _)⟩⟩
  · simp at h

end Verif.Alloc
