import Verif.UF
/-!
# C40, C41: union-find against connectivity

The specification is the graph whose edges are the merges performed so far.
-/
namespace Verif.UF

/-- Connected by merges. -/
inductive Conn (E : List (Nat × Nat)) : Nat → Nat → Prop where
  | refl (a) : Conn E a a
  | edge {a b} : (a, b) ∈ E → Conn E a b
  | symm {a b} : Conn E a b → Conn E b a
  | trans {a b c} : Conn E a b → Conn E b c → Conn E a c

/-- The merges of a call sequence. -/
def edges : List Op → List (Nat × Nat)
  | [] => []
  | .merge a b :: os => (a, b) :: edges os
  | _ :: os => edges os

/-- Calls whose arguments have been made, starting with `n` nodes. -/
def Legal : Nat → List Op → Prop
  | _, [] => True
  | n, .makeSet :: os => Legal (n + 1) os
  | n, .setFor a :: os => a < n ∧ Legal n os
  | n, .merge a b :: os => (a < n ∧ b < n) ∧ Legal n os

/-- Number of nodes made. -/
def made : List Op → Nat
  | [] => 0
  | .makeSet :: os => made os + 1
  | _ :: os => made os

/-! ### The invariant -/

/-- `rt` is the representative function. -/
structure Inv (u : U) (E : List (Nat × Nat)) (rt : Nat → Nat) : Prop where
  root : ∀ a, a < u.n → u.par a = none → rt a = a
  link : ∀ a b, a < u.n → u.par a = some b → b < u.n ∧ rt b = rt a ∧ 2 * u.sz a ≤ u.sz b
  top : ∀ a, a < u.n → rt a < u.n ∧ u.par (rt a) = none ∧ u.sz a ≤ u.sz (rt a)
  pos : ∀ a, a < u.n → 1 ≤ u.sz a
  cnt : ∀ r, r < u.n → u.par r = none → u.sz r = (List.range u.n).countP (fun a => rt a == r)
  conn : ∀ a b, a < u.n → b < u.n → (rt a = rt b ↔ Conn E a b)
  ran : ∀ e, e ∈ E → e.1 < u.n ∧ e.2 < u.n

theorem Inv.szn {u : U} {E : List (Nat × Nat)} {rt : Nat → Nat} (I : Inv u E rt) {a : Nat} (ha : a < u.n) : u.sz a ≤ u.n := by
  obtain ⟨h1, h2, h3⟩ := I.top a ha
  rw [I.cnt _ h1 h2] at h3
  have := List.countP_le_length (p := fun x => rt x == rt a) (l := List.range u.n)
  rw [List.length_range] at this
  omega

theorem Inv.rt_rt {u : U} {E : List (Nat × Nat)} {rt : Nat → Nat} (I : Inv u E rt) {a : Nat} (ha : a < u.n) : rt (rt a) = rt a :=
  I.root _ (I.top a ha).1 (I.top a ha).2.1

/-- `setFor` returns the representative and changes neither the partition nor the sizes. -/
theorem setFor_spec {E : List (Nat × Nat)} {rt : Nat → Nat} : ∀ (f : Nat) (u : U) (a : Nat), Inv u E rt → a < u.n →
    u.n < 2 ^ f * u.sz a → ∃ u', setFor f u a = some (u', rt a) ∧ Inv u' E rt ∧ u'.n = u.n ∧ u'.sz = u.sz ∧
      (∀ r, rt r = r → u'.par r = u.par r) := by
  intro f
  induction f with
  | zero =>
    intro u a I ha hf
    have := I.szn ha
    omega
  | succ f ih =>
    intro u a I ha hf
    rw [setFor]
    cases hp : u.par a with
    | none => exact ⟨u, by rw [I.root a ha hp], I, rfl, rfl, fun _ _ => rfl⟩
    | some b =>
      obtain ⟨hb, hrb, hsz⟩ := I.link a b ha hp
      have hle : 2 ^ (f + 1) * u.sz a ≤ 2 ^ f * u.sz b := by
        rw [Nat.pow_succ, Nat.mul_assoc]
        exact Nat.mul_le_mul_left _ hsz
      obtain ⟨u', h1, I', hn, hs, hpr⟩ := ih u b I hb (by omega)
      dsimp only
      rw [h1, hrb]
      have ha' : a < u'.n := by rw [hn]; exact ha
      have htop := I'.top a ha'
      have hane : rt a ≠ a := by
        intro hc
        have := (I.top a ha).2.1
        rw [hc, hp] at this
        simp at this
      have hdbl : 2 * u.sz a ≤ u.sz (rt a) := by
        have := (I.top b hb).2.2
        rw [hrb] at this
        omega
      refine ⟨_, rfl, ?_, hn, hs, ?_⟩
      · refine ⟨?_, ?_, ?_, I'.pos, ?_, I'.conn, I'.ran⟩
        · intro x hx hpx
          replace hpx : upd u'.par a (some (rt a)) x = none := hpx
          by_cases hxa : x = a
          · subst hxa; simp at hpx
          · rw [upd_ne _ _ hxa] at hpx; exact I'.root x hx hpx
        · intro x y hx hpx
          replace hpx : upd u'.par a (some (rt a)) x = some y := hpx
          by_cases hxa : x = a
          · subst hxa
            simp at hpx
            subst hpx
            exact ⟨htop.1, I'.rt_rt ha', by show 2 * u'.sz x ≤ u'.sz (rt x); rw [hs]; exact hdbl⟩
          · rw [upd_ne _ _ hxa] at hpx; exact I'.link x y hx hpx
        · intro x hx
          have ht := I'.top x hx
          refine ⟨ht.1, ?_, ht.2.2⟩
          show upd u'.par a (some (rt a)) (rt x) = none
          rw [upd_ne]
          · exact ht.2.1
          · intro hc
            have := I'.rt_rt (a := x) hx
            rw [hc] at this
            exact hane this
        · intro r hr hpr'
          replace hpr' : upd u'.par a (some (rt a)) r = none := hpr'
          by_cases hra : r = a
          · subst hra; simp at hpr'
          · rw [upd_ne _ _ hra] at hpr'; exact I'.cnt r hr hpr'
      · intro r hr
        show upd u'.par a (some (rt a)) r = u.par r
        rw [upd_ne _ _ (by rintro rfl; exact hane hr)]
        exact hpr r hr

theorem Conn.mono {E E' : List (Nat × Nat)} (h : ∀ e, e ∈ E → e ∈ E') {a b : Nat} (c : Conn E a b) : Conn E' a b := by
  induction c with
  | refl a => exact .refl a
  | edge he => exact .edge (h _ he)
  | symm _ ih => exact .symm ih
  | trans _ _ ih1 ih2 => exact .trans ih1 ih2

theorem Conn.inv {E : List (Nat × Nat)} {n : Nat} (hE : ∀ e, e ∈ E → e.1 < n ∧ e.2 < n) {a b : Nat} (c : Conn E a b) :
    a = b ∨ (a < n ∧ b < n) := by
  induction c with
  | refl a => exact Or.inl rfl
  | edge he => exact Or.inr (hE _ he)
  | symm _ ih =>
    rcases ih with x | x
    · exact Or.inl x.symm
    · exact Or.inr ⟨x.2, x.1⟩
  | trans _ _ ih1 ih2 =>
    rcases ih1 with rfl | x
    · exact ih2
    · rcases ih2 with rfl | y
      · exact Or.inr x
      · exact Or.inr ⟨x.1, y.2⟩

/-- Anything that is constant along edges is constant on classes. -/
theorem Conn.const {E : List (Nat × Nat)} {β : Type} (f : Nat → β) (h : ∀ e, e ∈ E → f e.1 = f e.2) {a b : Nat} (c : Conn E a b) :
    f a = f b := by
  induction c with
  | refl a => rfl
  | edge he => exact h _ he
  | symm _ ih => exact ih.symm
  | trans _ _ ih1 ih2 => exact ih1.trans ih2

/-- Attaching the class of `p` below the root `q`. -/
theorem Inv.attach {u : U} {E : List (Nat × Nat)} {rt : Nat → Nat} (I : Inv u E rt) {p q a b : Nat} (ha : a < u.n) (hb : b < u.n)
    (hp : p < u.n) (hq : q < u.n) (hpp : u.par p = none) (hqq : u.par q = none) (hpq : p ≠ q) (hsz : u.sz p ≤ u.sz q)
    (hab : (rt a = p ∧ rt b = q) ∨ (rt a = q ∧ rt b = p)) :
    Inv { u with par := upd u.par p (some q), sz := upd u.sz q (u.sz q + u.sz p) } (E ++ [(a, b)])
      (fun x => if rt x = p then q else rt x) := by
  have hrp : rt p = p := I.root p hp hpp
  have hrq : rt q = q := I.root q hq hqq
  have hszup : ∀ x, u.sz x ≤ upd u.sz q (u.sz q + u.sz p) x := by
    intro x; rw [upd_apply]; split
    · rename_i hx; rw [hx]; omega
    · exact Nat.le_refl _
  have hE : ∀ e, e ∈ E → rt e.1 = rt e.2 := fun e he => (I.conn _ _ (I.ran e he).1 (I.ran e he).2).2 (.edge he)
  have hmono : ∀ {x y}, Conn E x y → Conn (E ++ [(a, b)]) x y := fun c => c.mono (fun e he => by simp [he])
  have hbr : Conn (E ++ [(a, b)]) p q := by
    have e1 : Conn (E ++ [(a, b)]) a b := .edge (by simp)
    have c1 : ∀ x, x < u.n → Conn (E ++ [(a, b)]) x (rt x) := fun x hx =>
      hmono ((I.conn x (rt x) hx (I.top x hx).1).1 (I.rt_rt hx).symm)
    rcases hab with ⟨x, y⟩ | ⟨x, y⟩
    · rw [← x, ← y]; exact (c1 a ha).symm.trans (e1.trans (c1 b hb))
    · rw [← x, ← y]; exact (c1 b hb).symm.trans (e1.symm.trans (c1 a ha))
  refine ⟨?_, ?_, ?_, ?_, ?_, ?_, ?_⟩
  · intro x hx hpx
    replace hpx : upd u.par p (some q) x = none := hpx
    by_cases hxp : x = p
    · subst hxp; simp at hpx
    · rw [upd_ne _ _ hxp] at hpx
      have := I.root x hx hpx
      skip
      rw [this, if_neg hxp]
  · intro x y hx hpx
    replace hpx : upd u.par p (some q) x = some y := hpx
    by_cases hxp : x = p
    · subst hxp
      simp at hpx
      subst hpx
      refine ⟨hq, ?_, ?_⟩
      · rw [hrp, hrq]; simp
      · show 2 * upd u.sz q (u.sz q + u.sz x) x ≤ upd u.sz q (u.sz q + u.sz x) q
        rw [upd_same, upd_ne _ _ hpq]; omega
    · rw [upd_ne _ _ hxp] at hpx
      obtain ⟨h1, h2, h3⟩ := I.link x y hx hpx
      refine ⟨h1, by rw [h2], ?_⟩
      show 2 * upd u.sz q (u.sz q + u.sz p) x ≤ upd u.sz q (u.sz q + u.sz p) y
      have hxq : x ≠ q := by rintro rfl; rw [hqq] at hpx; simp at hpx
      rw [upd_ne _ _ hxq]
      exact Nat.le_trans h3 (hszup y)
  · intro x hx
    obtain ⟨h1, h2, h3⟩ := I.top x hx
    dsimp only
    by_cases hxp : rt x = p
    · rw [if_pos hxp]
      refine ⟨hq, by rw [upd_ne _ _ (Ne.symm hpq)]; exact hqq, ?_⟩
      rw [upd_same, upd_apply]
      split
      · omega
      · rw [hxp] at h3; omega
    · rw [if_neg hxp]
      refine ⟨h1, by rw [upd_ne _ _ hxp]; exact h2, ?_⟩
      by_cases hxq : x = q
      · subst hxq; rw [hrq]; exact Nat.le_refl _
      · rw [upd_ne _ _ hxq]; exact Nat.le_trans h3 (hszup _)
  · intro x hx
    exact Nat.le_trans (I.pos x hx) (hszup x)
  · intro r hr hpr
    replace hpr : upd u.par p (some q) r = none := hpr
    have hrp' : r ≠ p := by rintro rfl; simp at hpr
    rw [upd_ne _ _ hrp'] at hpr
    show upd u.sz q (u.sz q + u.sz p) r = _
    by_cases hrq' : r = q
    · subst hrq'
      rw [upd_same, I.cnt r hr hpr, I.cnt p hp hpp]
      generalize List.range u.n = l
      induction l with
      | nil => rfl
      | cons x l ih =>
        simp only [List.countP_cons]
        by_cases hx : rt x = p
        · have : rt x ≠ r := by rw [hx]; exact hpq
          simp only [hx, if_true, beq_self_eq_true]
          have : (p == r) = false := by simp [hpq]
          simp only [this, Bool.false_eq_true, if_false]
          omega
        · have h2 : (rt x == p) = false := by simp [hx]
          simp only [h2, if_neg hx, Bool.false_eq_true, if_false]
          omega
    · rw [upd_ne _ _ hrq', I.cnt r hr hpr]
      apply List.countP_congr
      intro x _
      skip
      by_cases hx : rt x = p
      · simp only [hx, if_true]
        have h1 : (p == r) = false := by simp; exact fun h => hrp' h.symm
        have h2 : (q == r) = false := by simp; exact fun h => hrq' h.symm
        rw [h1, h2]
      · rw [if_neg hx]
  · intro x y hx hy
    skip
    constructor
    · intro h
      have hxx : rt x = rt y → Conn (E ++ [(a, b)]) x y := fun h => hmono ((I.conn x y hx hy).1 h)
      have cx : ∀ z, z < u.n → Conn (E ++ [(a, b)]) z (rt z) := fun z hz =>
        hmono ((I.conn z (rt z) hz (I.top z hz).1).1 (I.rt_rt hz).symm)
      by_cases h1 : rt x = p
      · by_cases h2 : rt y = p
        · exact hxx (by rw [h1, h2])
        · rw [if_pos h1, if_neg h2] at h
          have c1 := cx x hx
          have c2 := cx y hy
          rw [h1] at c1
          rw [← h] at c2
          exact c1.trans (hbr.trans c2.symm)
      · by_cases h2 : rt y = p
        · rw [if_neg h1, if_pos h2] at h
          have c1 := cx x hx
          have c2 := cx y hy
          rw [h] at c1
          rw [h2] at c2
          exact c1.trans (hbr.symm.trans c2.symm)
        · rw [if_neg h1, if_neg h2] at h
          exact hxx h
    · intro c
      refine Conn.const (fun x => if rt x = p then q else rt x) ?_ c
      intro e he
      rw [List.mem_append, List.mem_singleton] at he
      rcases he with he | rfl
      · skip; rw [hE e he]
      · dsimp only
        rcases hab with ⟨e1, e2⟩ | ⟨e1, e2⟩
        · rw [e1, e2, if_pos rfl, if_neg (Ne.symm hpq)]
        · rw [e1, e2, if_pos rfl, if_neg (Ne.symm hpq)]
  · intro e he
    rw [List.mem_append, List.mem_singleton] at he
    rcases he with he | rfl
    · exact I.ran e he
    · exact ⟨ha, hb⟩

theorem Inv.makeSet {u : U} {E : List (Nat × Nat)} {rt : Nat → Nat} (I : Inv u E rt) : Inv (makeSet u).1 E (upd rt u.n u.n) := by
  have hlt : ∀ {x}, x < u.n → x ≠ u.n := fun h => by omega
  have hsplit : ∀ {x}, x < u.n + 1 → x < u.n ∨ x = u.n := fun h => by omega
  refine ⟨?_, ?_, ?_, ?_, ?_, ?_, ?_⟩
  · intro x hx hp
    replace hp : upd u.par u.n none x = none := hp
    rcases hsplit hx with h | rfl
    · rw [upd_ne _ _ (hlt h)] at hp ⊢; exact I.root x h hp
    · rw [upd_same]
  · intro x y hx hp
    replace hp : upd u.par u.n none x = some y := hp
    rcases hsplit hx with h | rfl
    · rw [upd_ne _ _ (hlt h)] at hp
      obtain ⟨h1, h2, h3⟩ := I.link x y h hp
      refine ⟨Nat.lt_succ_of_lt h1, by rw [upd_ne _ _ (hlt h), upd_ne _ _ (hlt h1)]; exact h2, ?_⟩
      show 2 * upd u.sz u.n 1 x ≤ upd u.sz u.n 1 y
      rw [upd_ne _ _ (hlt h), upd_ne _ _ (hlt h1)]; exact h3
    · simp at hp
  · intro x hx
    rcases hsplit hx with h | rfl
    · obtain ⟨h1, h2, h3⟩ := I.top x h
      rw [upd_ne _ _ (hlt h)]
      refine ⟨Nat.lt_succ_of_lt h1, ?_, ?_⟩
      · show upd u.par u.n none (rt x) = none
        rw [upd_ne _ _ (hlt h1)]; exact h2
      · show upd u.sz u.n 1 x ≤ upd u.sz u.n 1 (rt x)
        rw [upd_ne _ _ (hlt h), upd_ne _ _ (hlt h1)]; exact h3
    · rw [upd_same]
      exact ⟨Nat.lt_succ_self _, by show upd u.par u.n none u.n = none; simp, Nat.le_refl _⟩
  · intro x hx
    show 1 ≤ upd u.sz u.n 1 x
    rcases hsplit hx with h | rfl
    · rw [upd_ne _ _ (hlt h)]; exact I.pos x h
    · simp
  · intro r hr hp
    replace hp : upd u.par u.n none r = none := hp
    show upd u.sz u.n 1 r = (List.range (u.n + 1)).countP (fun a => upd rt u.n u.n a == r)
    rw [List.range_succ, List.countP_append]
    have hc : ∀ k, (List.range u.n).countP (fun a => upd rt u.n u.n a == k) = (List.range u.n).countP (fun a => rt a == k) := by
      intro k
      apply List.countP_congr
      intro x hx
      rw [upd_ne _ _ (hlt (List.mem_range.1 hx))]
    rw [hc]
    rcases hsplit hr with h | rfl
    · rw [upd_ne _ _ (hlt h)] at hp ⊢
      rw [I.cnt r h hp]
      have : (u.n == r) = false := by simp; omega
      simp [this]
    · rw [upd_same]
      have : (List.range u.n).countP (fun a => rt a == u.n) = 0 := by
        rw [List.countP_eq_zero]
        intro x hx
        have := (I.top x (List.mem_range.1 hx)).1
        simp; omega
      rw [this]
      simp
  · intro x y hx hy
    have key : ∀ z, z < u.n → (rt z = u.n ↔ Conn E z u.n) := by
      intro z hz
      have := (I.top z hz).1
      constructor
      · intro h; omega
      · intro c
        rcases c.inv I.ran with h | h <;> omega
    rcases hsplit hx with h | rfl
    · rcases hsplit hy with h' | rfl
      · rw [upd_ne _ _ (hlt h), upd_ne _ _ (hlt h')]; exact I.conn x y h h'
      · rw [upd_ne _ _ (hlt h), upd_same]; exact key x h
    · rcases hsplit hy with h' | rfl
      · rw [upd_ne _ _ (hlt h'), upd_same]
        exact ⟨fun e => ((key y h').1 e.symm).symm, fun c => ((key y h').2 c.symm).symm⟩
      · exact ⟨fun _ => .refl _, fun _ => rfl⟩
  · intro e he
    have := I.ran e he
    exact ⟨Nat.lt_succ_of_lt this.1, Nat.lt_succ_of_lt this.2⟩

/-- What `merge` does: it ends, unites the two classes, and returns the representative its first
argument had before. -/
theorem merge_spec {f : Nat} {u : U} {E : List (Nat × Nat)} {rt : Nat → Nat} (I : Inv u E rt) {a b : Nat} (ha : a < u.n) (hb : b < u.n)
    (hf : u.n < 2 ^ f) : ∃ u' rt', merge f u a b = some (u', rt a) ∧ Inv u' (E ++ [(a, b)]) rt' ∧ u'.n = u.n ∧
      (u.sz (rt b) < u.sz (rt a) → rt' a = rt a) ∧
      (rt a ≠ rt b → u.sz (rt a) ≤ u.sz (rt b) → rt' a = rt b) ∧ (rt a = rt b → rt' a = rt a) := by
  have hpos : ∀ x, x < u.n → u.n < 2 ^ f * u.sz x := fun x hx =>
    Nat.lt_of_lt_of_le hf (Nat.le_mul_of_pos_right _ (I.pos x hx))
  obtain ⟨u1, h1, I1, hn1, hs1, hp1⟩ := setFor_spec f u a I ha (hpos a ha)
  obtain ⟨u2, h2, I2, hn2, hs2, hp2⟩ := setFor_spec f u1 b I1 (by omega) (by rw [hn1, hs1]; exact hpos b hb)
  unfold merge
  rw [h1, Option.bind_some]
  dsimp only
  rw [h2, Option.map_some]
  dsimp only
  have hn : u2.n = u.n := by omega
  have hs : u2.sz = u.sz := by rw [hs2, hs1]
  have ha2 : a < u2.n := by omega
  have hb2 : b < u2.n := by omega
  have ta := I2.top a ha2
  have tb := I2.top b hb2
  split
  · rename_i he
    refine ⟨u2, rt, rfl, ?_, hn, fun _ => rfl, fun hc => absurd he hc, fun _ => rfl⟩
    refine { I2 with conn := fun x y hx hy => ?_, ran := fun e h => ?_ }
    · rw [I2.conn x y hx hy]
      refine ⟨fun c => c.mono (fun e h => by simp [h]), fun c => (I2.conn x y hx hy).1 ?_⟩
      refine Conn.const rt ?_ c
      intro e h
      rw [List.mem_append, List.mem_singleton] at h
      rcases h with h | rfl
      · exact (I2.conn _ _ (I2.ran e h).1 (I2.ran e h).2).2 (.edge h)
      · exact he
    · rw [List.mem_append, List.mem_singleton] at h
      rcases h with h | rfl
      · exact I2.ran e h
      · exact ⟨ha2, hb2⟩
  · rename_i hne
    split
    · rename_i hgt
      have hA := I2.attach (p := rt b) (q := rt a) (a := a) (b := b) ha2 hb2 tb.1 ta.1 tb.2.1 ta.2.1 (Ne.symm hne)
        (Nat.le_of_lt hgt) (Or.inr ⟨rfl, rfl⟩)
      refine ⟨_, _, rfl, hA, hn, ?_, ?_, fun h => absurd h hne⟩
      · intro _; rw [if_neg hne]
      · intro _ h; rw [hs] at hgt; omega
    · rename_i hgt
      have hA := I2.attach (p := rt a) (q := rt b) (a := a) (b := b) ha2 hb2 ta.1 tb.1 ta.2.1 tb.2.1 hne (by omega) (Or.inl ⟨rfl, rfl⟩)
      refine ⟨_, _, rfl, hA, hn, ?_, ?_, fun h => absurd h hne⟩
      · intro h; rw [hs] at hgt; omega
      · intro _ _; rw [if_pos rfl]

theorem run_inv {f : Nat} : ∀ (os : List Op) (u : U) (E : List (Nat × Nat)) (rt : Nat → Nat), Inv u E rt → Legal u.n os →
    u.n + made os < 2 ^ f → ∃ u' ys rt', run f u os = some (u', ys) ∧ Inv u' (E ++ edges os) rt' ∧ u'.n = u.n + made os := by
  intro os
  induction os with
  | nil => intro u E rt I _ _; exact ⟨u, [], rt, rfl, by simpa [edges] using I, rfl⟩
  | cons o os ih =>
    intro u E rt I hl hf
    cases o with
    | makeSet =>
      obtain ⟨u', ys, rt', h1, h2, h3⟩ := ih (makeSet u).1 E _ I.makeSet hl (by show u.n + 1 + made os < _; simp only [made] at hf; omega)
      refine ⟨u', u.n :: ys, rt', by simp [run, step, makeSet] at h1 ⊢; exact h1, h2, ?_⟩
      rw [h3]; show u.n + 1 + made os = u.n + (made os + 1); omega
    | setFor a =>
      simp only [made] at hf
      obtain ⟨u1, h1, I1, hn, _, _⟩ := setFor_spec f u a I hl.1 (Nat.lt_of_lt_of_le (by omega : u.n < 2 ^ f) (Nat.le_mul_of_pos_right _ (I.pos a hl.1)))
      obtain ⟨u', ys, rt', t1, t2, t3⟩ := ih u1 E rt I1 (by rw [hn]; exact hl.2) (by omega)
      refine ⟨u', rt a :: ys, rt', ?_, t2, by rw [t3, hn]; rfl⟩
      simp [run, step, hl.1, h1, t1]
    | merge a b =>
      simp only [made] at hf
      obtain ⟨u1, rt1, h1, I1, hn, _⟩ := merge_spec (f := f) I hl.1.1 hl.1.2 (by omega)
      obtain ⟨u', ys, rt', t1, t2, t3⟩ := ih u1 _ rt1 I1 (by rw [hn]; exact hl.2) (by omega)
      refine ⟨u', rt a :: ys, rt', ?_, by simpa [edges] using t2, by rw [t3, hn]; rfl⟩
      simp [run, step, hl.1, h1, t1]

theorem inv_empty : Inv empty [] id := by
  refine ⟨?_, ?_, ?_, ?_, ?_, ?_, ?_⟩ <;> intro x
  all_goals (try (intro h; exact absurd h (Nat.not_lt_zero _)))
  · intro y h; exact absurd h (Nat.not_lt_zero _)
  · intro y h; exact absurd h (Nat.not_lt_zero _)
  · intro h; simp at h

/-- C40.  After any sequence of calls on nodes made before: every call ended within a recursion depth of
`f` whenever `2^f` exceeds the number of nodes; asking again for two nodes returns the same
representative iff the merges connect them; and the size stored at a representative is the number of
nodes it represents. -/
theorem uf_partition {f : Nat} {os : List Op} (hl : Legal 0 os) (hf : made os < 2 ^ f) :
    ∃ (u : U) (ys : List Nat) (rep : Nat → Nat), run f empty os = some (u, ys) ∧ u.n = made os ∧
      (∀ a, a < made os → (setFor f u a).map (·.2) = some (rep a)) ∧
      (∀ a b, a < made os → b < made os → (rep a = rep b ↔ Conn (edges os) a b)) ∧
      (∀ a, a < made os → u.sz (rep a) = (List.range (made os)).countP (fun b => rep b == rep a)) := by
  obtain ⟨u, ys, rt, h1, I, h3⟩ := run_inv os empty [] id inv_empty hl (by simpa [empty] using hf)
  have hn : u.n = made os := by rw [h3]; simp [empty]
  simp only [List.nil_append] at I
  refine ⟨u, ys, rt, h1, hn, ?_, ?_, ?_⟩
  · intro a ha
    obtain ⟨u', s1, _⟩ := setFor_spec f u a I (by omega) (Nat.lt_of_lt_of_le (by omega : u.n < 2 ^ f) (Nat.le_mul_of_pos_right _ (I.pos a (by omega))))
    rw [s1]; rfl
  · intro a b ha hb; exact I.conn a b (by omega) (by omega)
  · intro a ha
    have := I.top a (by omega)
    rw [← hn]; exact I.cnt _ this.1 this.2.1

/-- Compressing paths changes no answer. -/
theorem uf_compress {f : Nat} {u : U} {E : List (Nat × Nat)} {rt : Nat → Nat} (I : Inv u E rt) {a b : Nat} (ha : a < u.n) (hb : b < u.n)
    (hf : u.n < 2 ^ f) : ∃ u', setFor f u a = some (u', rt a) ∧ (setFor f u' b).map (·.2) = (setFor f u b).map (·.2) := by
  have hpos : ∀ x, x < u.n → u.n < 2 ^ f * u.sz x := fun x hx =>
    Nat.lt_of_lt_of_le hf (Nat.le_mul_of_pos_right _ (I.pos x hx))
  obtain ⟨u1, h1, I1, hn1, hs1, _⟩ := setFor_spec f u a I ha (hpos a ha)
  obtain ⟨u2, h2, _⟩ := setFor_spec f u1 b I1 (by omega) (by rw [hn1, hs1]; exact hpos b hb)
  obtain ⟨u3, h3, _⟩ := setFor_spec f u b I hb (hpos b hb)
  exact ⟨u1, h1, by rw [h2, h3]; rfl⟩

/-- Five nodes, three merges: {0,1,2,3} and {4}, recursion depth at most 3. -/
example : (run 3 empty [.makeSet, .makeSet, .makeSet, .makeSet, .makeSet, .merge 0 1, .merge 2 3, .merge 1 2, .setFor 0, .setFor 3, .setFor 4]).map (·.2) =
    some [0, 1, 2, 3, 4, 0, 2, 1, 3, 3, 4] := by decide

/-! ### C41 -/

/-- C41 is false: `merge(0,1)` on two fresh nodes returns 0, and the representative of the merged set
is 1. -/
theorem merge_false : ∃ u u' : U, run 3 empty [.makeSet, .makeSet] = some (u, [0, 1]) ∧ merge 3 u 0 1 = some (u', 0) ∧
    (setFor 3 u' 0).map (·.2) = some 1 ∧ (setFor 3 u' 1).map (·.2) = some 1 := by
  refine ⟨_, _, rfl, rfl, by decide, by decide⟩

/-- What survives: the node returned is in the merged set, and it is its representative when the first
set was strictly larger or the sets were the same.  Missing: the other case, where the representative
is the other one. -/
theorem merge_partial {f : Nat} {u : U} {E : List (Nat × Nat)} {rt : Nat → Nat} (I : Inv u E rt) {a b : Nat} (ha : a < u.n) (hb : b < u.n)
    (hf : u.n < 2 ^ f) : ∃ u' r rt', merge f u a b = some (u', r) ∧ Inv u' (E ++ [(a, b)]) rt' ∧ Conn (E ++ [(a, b)]) r a ∧
      (rt' a = r ↔ (rt a = rt b ∨ u.sz (rt b) < u.sz (rt a))) := by
  obtain ⟨u', rt', h1, I', hn, c1, c2, c3⟩ := merge_spec I ha hb hf
  refine ⟨u', rt a, rt', h1, I', ?_, ?_⟩
  · exact ((I.conn (rt a) a (I.top a ha).1 ha).1 (I.rt_rt ha)).mono (fun e h => by simp [h])
  · constructor
    · intro h
      by_cases he : rt a = rt b
      · exact Or.inl he
      · by_cases hz : u.sz (rt b) < u.sz (rt a)
        · exact Or.inr hz
        · rw [c2 he (by omega)] at h; exact absurd h.symm he
    · rintro (h | h)
      · exact c3 h
      · exact c1 h

end Verif.UF
