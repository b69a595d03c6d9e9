import Verif.BBState
import Verif.Props.Wide
/-!
# C89: local bounds that keep state
-/
namespace Verif.DD
variable {σ : Type} {m : Mdl σ} {rank : σ → Nat}

/-- The same problem with another local bound. -/
abbrev Mdl.withLoc (m : Mdl σ) (f : σ → Ctx → Int) : Mdl σ := { m with loc := some f }

theorem Path.of_loc {l : Option (σ → Ctx → Int)} {s t : σ} {ls : List Int} {c : Int} (h : Path { m with loc := l } s ls c t) : Path m s ls c t := by
  induction h with
  | nil s => exact Path.nil s
  | cons hs _ ih => exact Path.cons hs ih

theorem Path.to_loc {l : Option (σ → Ctx → Int)} {s t : σ} {ls : List Int} {c : Int} (h : Path m s ls c t) : Path { m with loc := l } s ls c t := by
  induction h with
  | nil s => exact Path.nil s
  | cons hs _ ih => exact Path.cons (m := { m with loc := l }) hs ih

theorem Val.of_loc {l : Option (σ → Ctx → Int)} {s : σ} {c : Int} (h : Val { m with loc := l } s c) : Val m s c := by
  obtain ⟨ls, h⟩ := h; exact ⟨ls, h.of_loc⟩

theorem Val.to_loc {l : Option (σ → Ctx → Int)} {s : σ} {c : Int} (h : Val m s c) : Val { m with loc := l } s c := by
  obtain ⟨ls, h⟩ := h; exact ⟨ls, h.to_loc⟩

variable [DecidableEq σ]

theorem Relx.of_loc {l : Option (σ → Ctx → Int)} {s t : σ} {v w : Int} (h : Relx { m with loc := l } rank s v t w) : Relx m rank s v t w := by
  induction h with
  | swap _ _ hsw _ ihsw => obtain rfl := (same_iff _ _).1 hsw; exact ihsw
  | root => exact Relx.root
  | step _ hs ih => exact ih.step hs
  | mergeL _ _ a b c d ih1 ih2 => exact ih1.mergeL ih2 a b c d
  | mergeR _ _ a b c d ih1 ih2 => exact ih1.mergeR ih2 a b c d

theorem Relx.to_loc {l : Option (σ → Ctx → Int)} {s t : σ} {v w : Int} (h : Relx m rank s v t w) : Relx { m with loc := l } rank s v t w := by
  induction h with
  | swap _ _ hsw _ ihsw => obtain rfl := (same_iff _ _).1 hsw; exact ihsw
  | root => exact Relx.root
  | step _ hs ih => exact Relx.step (m := { m with loc := l }) ih hs
  | mergeL _ _ a b c d ih1 ih2 => exact Relx.mergeL (m := { m with loc := l }) ih1 ih2 a b c d
  | mergeR _ _ a b c d ih1 ih2 => exact Relx.mergeR (m := { m with loc := l }) ih1 ih2 a b c d

omit [DecidableEq σ] in
theorem Cover.to_loc {l : Option (σ → Ctx → Int)} {a b : σ} (h : Cover m a b) : Cover { m with loc := l } a b := by
  intro c hv
  obtain ⟨c', h1, h2⟩ := h c hv.of_loc
  exact ⟨c', h1.to_loc, h2⟩

/-- Replacing the local bound of a valid model by another valid one. -/
theorem Layered.withLoc {s0 : σ} {v0 : Int} (H : Layered m rank s0 v0) {f : σ → Ctx → Int}
    (hf : ∀ s v x c, Relx m rank s0 v0 s v → Val m s c → m.sense.betterEQ (f s x) c = true) : Layered (m.withLoc f) rank s0 v0 where
  sink := H.sink
  src := H.src
  range := fun s v h => H.range s v h.of_loc
  step := fun s v l s' h hs => H.step s v l s' h.of_loc hs
  merge := fun a b c va vb h1 h2 h3 h4 h5 h6 => by
    obtain ⟨a1, a2, a3, a4⟩ := H.merge a b c va vb h1.of_loc h2.of_loc h3 h4 h5 h6
    exact ⟨a1, a2, Cover.to_loc a3, Cover.to_loc a4⟩
  local_ := fun f' hf' s v x c h hv => by
    have : f' = f := by simpa using hf'.symm
    subst this
    exact hf s v x c h.of_loc hv.of_loc
  dom := fun f' hf' a b va vb h1 h2 h3 h4 h5 => by
    obtain ⟨a1, a2⟩ := H.dom f' hf' a b va vb h1.of_loc h2.of_loc h3
      (h4.imp id fun ⟨p, vp, l, q1, q2⟩ => ⟨p, vp, l, q1.of_loc, q2⟩) h5
    exact ⟨Cover.to_loc a1, a2⟩

end Verif.DD

namespace Verif.BB
open Verif.DD
set_option linter.unusedSectionVars false
variable {σ υ : Type} {m : Mdl σ} {rank : σ → Nat} {L : LocS σ υ} [DecidableEq σ]

/-- A bound assembled from calls made in states satisfying `I`. -/
def From (L : LocS σ υ) (I : υ → Prop) (f : σ → Ctx → Int) : Prop :=
  (∀ x, ∃ u, I u ∧ f x .dd = L.rd u x) ∧ ∀ x, ∃ u, I u ∧ f x .bb = (L.call u x).1

/-- `okFold` along the loop over the cut set, with the state. -/
def okFoldS (m : Mdl σ) (L : LocS σ υ) (g : G σ) (cur : Nat) : BS σ × υ → List Nat → Bool
  | _, [] => true
  | a, n :: cs => okCut m g a.1 n && okFoldS m L g cur (cutStepS m L g cur a n) cs

theorem domStep_pool (m : Mdl σ) (s : BS σ) (x : σ) (b : Int) (y : σ) : findPool (domStep m s x b).2 y = findPool s y := by
  unfold domStep
  split <;> rfl

/-- The state of a node is in the pool after its step unless it was in no pool and was not cloned. -/
theorem findPool_clone {s : BS σ} {x y : σ} {lb : List Int} {bd bb : Int} (h : findPool (clone s x lb bd bb) y = none) :
    findPool s y = none ∧ y ≠ x := by
  unfold findPool clone at h
  dsimp only at h
  rw [List.range_succ, List.find?_append, Option.or_eq_none_iff] at h
  obtain ⟨h1, h2⟩ := h
  constructor
  · unfold findPool
    rw [List.find?_eq_none] at h1 ⊢
    intro i hi
    have := h1 i hi
    have hlt := List.mem_range.1 hi
    have e : upd s.pst s.pn x i = s.pst i := by unfold upd; rw [if_neg (by omega)]
    simpa [e] using this
  · rintro rfl
    simp [upd] at h2

/-- Body of the cut-set loop after the local bound has answered `r`. -/
theorem cutStep_eq (m : Mdl σ) (f : σ → Ctx → Int) (L : LocS σ υ) (g : G σ) (cur : Nat) (s : BS σ) (u : υ) (n : Nat)
    (h : findPool s (g.st n) = none → f (g.st n) .bb = (L.call u (g.st n)).1) :
    cutStep m (some f) g cur s n = (cutStepS m L g cur (s, u) n).1 := by
  unfold cutStep cutStepS
  have hp : findPool (if n = g.root then { s with wrel := s.wrel + 1 } else s) (g.st n) = findPool s (g.st n) := by split <;> rfl
  dsimp only
  generalize hs' : (if n = g.root then { s with wrel := s.wrel + 1 } else s) = s' at hp ⊢
  split
  · have hd := domStep_pool m s' (g.st n) (g.bound n) (g.st n)
    generalize domStep m s' (g.st n) (g.bound n) = d at hd ⊢
    obtain ⟨d1, d2⟩ := d
    cases d1 with
    | true => rfl
    | false =>
      dsimp only at hd ⊢
      cases hq : findPool d2 (g.st n) with
      | some o => rfl
      | none =>
        have e : insKey (some f) g n = g.bound n + (L.call u (g.st n)).1 := by
          unfold insKey
          dsimp only
          rw [h (by rw [← hp, ← hd]; exact hq)]
        dsimp only
        rw [e]
        split <;> rfl
  · rfl

/-- Pool states stay pool states. -/
theorem cutStepS_pool (m : Mdl σ) (L : LocS σ υ) (g : G σ) (cur : Nat) (a : BS σ × υ) (n : Nat) {y : σ}
    (h : findPool (cutStepS m L g cur a n).1 y = none) : findPool a.1 y = none := by
  unfold cutStepS at h
  have hp : findPool (if n = g.root then { a.1 with wrel := a.1.wrel + 1 } else a.1) y = findPool a.1 y := by split <;> rfl
  dsimp only at h
  generalize (if n = g.root then { a.1 with wrel := a.1.wrel + 1 } else a.1) = s' at hp h
  rw [← hp]
  split at h
  · have hd := domStep_pool m s' (g.st n) (g.bound n) y
    generalize domStep m s' (g.st n) (g.bound n) = d at hd h
    obtain ⟨d1, d2⟩ := d
    rw [← hd]
    cases d1 with
    | true => exact h
    | false =>
      dsimp only at h ⊢
      cases hq : findPool d2 (g.st n) with
      | some o => rw [hq] at h; exact h
      | none =>
        rw [hq] at h
        dsimp only at h
        split at h
        · exact (findPool_clone (s := d2) (x := g.st n) (lb := g.lab n) (bd := g.bound n) (bb := g.bb n) h).1
        · exact (findPool_clone (s := d2) (x := g.st n) (lb := g.lab n) (bd := g.bound n) (bb := g.bb n) h).1
  · exact h

/-- When the local bound changed its state, the node's state is in the pool. -/
theorem cutStepS_call (m : Mdl σ) (L : LocS σ υ) (g : G σ) (cur : Nat) (a : BS σ × υ) (n : Nat) :
    ((cutStepS m L g cur a n).2 = a.2 ∧ ∀ f, cutStep m (some f) g cur a.1 n = (cutStepS m L g cur a n).1) ∨ ((cutStepS m L g cur a n).2 = (L.call a.2 (g.st n)).2 ∧
      findPool (cutStepS m L g cur a n).1 (g.st n) ≠ none) := by
  unfold cutStepS cutStep
  dsimp only
  generalize (if n = g.root then { a.1 with wrel := a.1.wrel + 1 } else a.1) = s'
  split
  · generalize domStep m s' (g.st n) (g.bound n) = d
    obtain ⟨d1, d2⟩ := d
    cases d1 with
    | true => exact .inl ⟨rfl, fun _ => rfl⟩
    | false =>
      dsimp only
      cases hq : findPool d2 (g.st n) with
      | some o => exact .inl ⟨rfl, fun _ => rfl⟩
      | none =>
        right
        dsimp only
        split
        · exact ⟨rfl, fun h => (findPool_clone (s := d2) (x := g.st n) (lb := g.lab n) (bd := g.bound n) (bb := g.bb n) h).2 rfl⟩
        · exact ⟨rfl, fun h => (findPool_clone (s := d2) (x := g.st n) (lb := g.lab n) (bd := g.bound n) (bb := g.bb n) h).2 rfl⟩
  · exact .inl ⟨rfl, fun _ => rfl⟩

theorem cutStepS_inv {I : υ → Prop} (hI : ∀ u x, I u → I (L.call u x).2) (g : G σ) (cur : Nat) {a : BS σ × υ} (h : I a.2) (n : Nat) :
    I (cutStepS m L g cur a n).2 := by
  rcases cutStepS_call m L g cur a n with ⟨e, _⟩ | ⟨e, _⟩
  · rw [e]; exact h
  · rw [e]; exact hI _ _ h

theorem cutFoldS_inv {I : υ → Prop} (hI : ∀ u x, I u → I (L.call u x).2) (g : G σ) (cur : Nat) (cs : List Nat) {a : BS σ × υ} (h : I a.2) :
    I (cs.foldl (cutStepS m L g cur) a).2 := by
  induction cs generalizing a with
  | nil => exact h
  | cons n cs ih => exact ih (cutStepS_inv hI g cur h n)

/-- Two bounds that agree off the pool give the same loop over the cut set. -/
theorem cutFold_congr (m : Mdl σ) (g : G σ) (cur : Nat) {f f' : σ → Ctx → Int} : ∀ (cs : List Nat) (s : BS σ),
    (∀ x, findPool s x = none → f x .bb = f' x .bb) →
    cs.foldl (cutStep m (some f) g cur) s = cs.foldl (cutStep m (some f') g cur) s ∧
    okFold m (some f) g cur s cs = okFold m (some f') g cur s cs := by
  intro cs
  induction cs with
  | nil => intro s _; exact ⟨rfl, rfl⟩
  | cons n cs ih =>
    intro s h
    let L : LocS σ Unit := ⟨fun _ _ => 0, fun _ x => (f' x .bb, ())⟩
    have e1 := cutStep_eq m f L g cur s () n (h _)
    have e2 := cutStep_eq m f' L g cur s () n (fun _ => rfl)
    have := ih (cutStepS m L g cur (s, ()) n).1 (fun x hx => h x (cutStepS_pool m L g cur (s, ()) n hx))
    simp only [List.foldl_cons, okFold, e1, e2, this.1, this.2, and_self]

/-- The calls of one loop over the cut set are those of one function of the node. -/
theorem cutFold_state {I : υ → Prop} (hI : ∀ u x, I u → I (L.call u x).2) (g : G σ) (cur : Nat) : ∀ (cs : List Nat) (s : BS σ) (u : υ), I u →
    ∃ f, From L I f ∧ cs.foldl (cutStep m (some f) g cur) s = (cs.foldl (cutStepS m L g cur) (s, u)).1 ∧
      okFold m (some f) g cur s cs = okFoldS m L g cur (s, u) cs := by
  intro cs
  induction cs with
  | nil => intro s u hu; exact ⟨L.at u, ⟨fun x => ⟨u, hu, rfl⟩, fun x => ⟨u, hu, rfl⟩⟩, rfl, rfl⟩
  | cons n cs ih =>
    intro s u hu
    have hu1 := cutStepS_inv (m := m) hI g cur (a := (s, u)) hu n
    obtain ⟨f', h1, h2, h3⟩ := ih (cutStepS m L g cur (s, u) n).1 (cutStepS m L g cur (s, u) n).2 hu1
    -- answer the node from the state now, everything else as later
    let f : σ → Ctx → Int := fun x c => if x = g.st n ∧ c = .bb ∧ findPool s x = none then (L.call u x).1 else f' x c
    have hF : From L I f := by
      refine ⟨fun x => ?_, fun x => ?_⟩
      · obtain ⟨u', a, b⟩ := h1.1 x
        refine ⟨u', a, ?_⟩
        show (if x = g.st n ∧ Ctx.dd = .bb ∧ findPool s x = none then _ else f' x .dd) = _
        rw [if_neg (by simp)]; exact b
      · by_cases hx : x = g.st n ∧ Ctx.bb = .bb ∧ findPool s x = none
        · exact ⟨u, hu, by show (if _ then _ else _) = _; rw [if_pos hx]⟩
        · obtain ⟨u', a, b⟩ := h1.2 x
          exact ⟨u', a, by show (if _ then _ else _) = _; rw [if_neg hx]; exact b⟩
    have e1 : cutStep m (some f) g cur s n = (cutStepS m L g cur (s, u) n).1 :=
      cutStep_eq m f L g cur s u n (fun h => by
        show (if g.st n = g.st n ∧ Ctx.bb = .bb ∧ findPool s (g.st n) = none then _ else _) = _
        rw [if_pos ⟨rfl, rfl, h⟩])
    rcases cutStepS_call m L g cur (s, u) n with ⟨_, e⟩ | ⟨_, e⟩
    · refine ⟨f', h1, ?_, ?_⟩
      · rw [List.foldl_cons, List.foldl_cons, e f']; exact h2
      · have := e f'
        simp only [okFold, okFoldS, this, h3]
    · have hc := cutFold_congr m g cur (f := f) (f' := f') cs (cutStepS m L g cur (s, u) n).1 (fun x hx => by
        have hne : x ≠ g.st n := fun h => e (h ▸ hx)
        show (if _ then _ else _) = _
        rw [if_neg (fun h => hne h.1)])
      exact ⟨f, hF, by rw [List.foldl_cons, List.foldl_cons, e1, hc.1, h2], by simp only [okFold, okFoldS, e1, hc.2, h3]⟩

/-- `okExpandP` with the state. -/
def okExpandS (m : Mdl σ) (L : LocS σ υ) (wres fuel : Nat) (a : BS σ × υ) (cur : Nat) : Bool :=
  ((relaxed (m.withLoc (L.at a.2)) a.1.primal a.1.wrel fuel (a.1.src cur)).map fun g =>
    if m.sense.better (g.bound g.trg) a.1.primal then
      let s1 := if g.exact then setPrimal m a.1 (g.bound g.trg) (g.lab g.trg) else a.1
      ((restricted (m.withLoc (L.at a.2)) s1.primal wres fuel (s1.src cur)).map fun r =>
        let s2 := if m.sense.better (r.bound r.trg) s1.primal then
          setPrimal m s1 (r.bound r.trg) (r.lab r.trg) else s1
        if !r.exact && !g.exact then
          ((cutSet g).map (fun cs => noShortcut m g cs s2.primal && okFoldS m L g cur (s2, a.2) cs)).getD true
        else true).getD true
    else true).getD true

/-- `okLoopT` with the state. -/
def okLoopS (m : Mdl σ) (L : LocS σ υ) (wres dfuel : Nat) (lim : Nat → Bool) : Nat → Nat → BS σ × υ → Bool
  | 0, _, _ => true
  | f + 1, k, a =>
    if Heap.empty a.1.pq then true
    else
      let x := Heap.extractMax (qord m) a.1.pq
      let s1 := { a.1 with pq := x.1 }
      if lim k then true
      else if m.sense.better x.2.2 s1.primal then
        okExpandS m L wres dfuel (s1, a.2) x.2.1 && ((expandS m L wres dfuel (s1, a.2) x.2.1).map (okLoopS m L wres dfuel lim f (k + 1))).getD true
      else okLoopS m L wres dfuel lim f (k + 1) (s1, a.2)

/-- One expansion is one with a single function for the queue keys. -/
theorem expand_state {I : υ → Prop} (hI : ∀ u x, I u → I (L.call u x).2) (wres fuel : Nat) (a : BS σ × υ) (cur : Nat) (hu : I a.2) :
    ∃ f, From L I f ∧
      expandP m (fun _ => m.withLoc (L.at a.2)) (fun _ => some f) wres fuel a.1 cur = (expandS m L wres fuel a cur).map Prod.fst ∧
      okExpandP m (fun _ => m.withLoc (L.at a.2)) (fun _ => some f) wres fuel a.1 cur = okExpandS m L wres fuel a cur ∧
      ∀ a', expandS m L wres fuel a cur = some a' → I a'.2 := by
  have h0 : From L I (L.at a.2) := ⟨fun x => ⟨a.2, hu, rfl⟩, fun x => ⟨a.2, hu, rfl⟩⟩
  unfold expandP okExpandP expandS okExpandS
  cases hg : relaxed (m.withLoc (L.at a.2)) a.1.primal a.1.wrel fuel (a.1.src cur) with
  | none => exact ⟨_, h0, rfl, rfl, fun a' h => by cases h⟩
  | some g =>
    simp only [Option.bind_some, Option.map_some, Option.getD_some]
    by_cases hb : m.sense.better (g.bound g.trg) a.1.primal = true
    · simp only [if_pos hb]
      generalize (if g.exact then setPrimal m a.1 (g.bound g.trg) (g.lab g.trg) else a.1) = s1
      cases hr : restricted (m.withLoc (L.at a.2)) s1.primal wres fuel (s1.src cur) with
      | none => exact ⟨_, h0, rfl, rfl, fun a' h => by cases h⟩
      | some r =>
        simp only [Option.bind_some, Option.map_some, Option.getD_some]
        generalize (if m.sense.better (r.bound r.trg) s1.primal then setPrimal m s1 (r.bound r.trg) (r.lab r.trg) else s1) = s2
        by_cases he : (!r.exact && !g.exact) = true
        · simp only [if_pos he]
          cases hc : cutSet g with
          | none => exact ⟨_, h0, rfl, rfl, fun a' h => by cases h⟩
          | some cs =>
            obtain ⟨f, h1, h2, h3⟩ := cutFold_state (m := m) hI g cur cs s2 a.2 hu
            refine ⟨f, h1, ?_, ?_, ?_⟩
            · simp only [Option.map_some, h2]
            · simp only [Option.map_some, Option.getD_some, h3]
            · intro a' h
              simp only [Option.map_some, Option.some.injEq] at h
              rw [← h]
              exact cutFoldS_inv hI g cur cs hu
        · rw [if_neg he]
          refine ⟨_, h0, ?_, ?_, fun a' h => by cases h; exact hu⟩
          · rw [if_neg he]; rfl
          · rw [if_neg he, if_neg he]
    · rw [if_neg hb]
      refine ⟨_, h0, ?_, ?_, fun a' h => by cases h; exact hu⟩
      · rw [if_neg hb]; rfl
      · rw [if_neg hb, if_neg hb]

/-- The loop looks at the models of the iterations still to come only. -/
theorem loopP_congr {T T' : Nat → Int → Mdl σ} {lc lc' : Nat → Int → Option (σ → Ctx → Int)} {wres dfuel : Nat} {lim : Nat → Bool} :
    ∀ (f k : Nat) (s : BS σ), (∀ j, k ≤ j → T j = T' j ∧ lc j = lc' j) →
    loopP m T lc wres dfuel lim f k s = loopP m T' lc' wres dfuel lim f k s ∧
    okLoopT m T lc wres dfuel lim f k s = okLoopT m T' lc' wres dfuel lim f k s := by
  intro f
  induction f with
  | zero => intro k s _; exact ⟨rfl, rfl⟩
  | succ f ih =>
    intro k s h
    have e := fun s => (ih (k + 1) s fun j hj => h j (by omega)).1
    have e' := fun s => (ih (k + 1) s fun j hj => h j (by omega)).2
    unfold loopP okLoopT
    rw [(h k (Nat.le_refl k)).1, (h k (Nat.le_refl k)).2]
    have e1 : loopP m T lc wres dfuel lim f (k + 1) = loopP m T' lc' wres dfuel lim f (k + 1) := funext e
    have e2 : okLoopT m T lc wres dfuel lim f (k + 1) = okLoopT m T' lc' wres dfuel lim f (k + 1) := funext e'
    rw [e1, e2]
    exact ⟨rfl, rfl⟩

/-- A run with a stateful bound is a run in which the bound of every iteration is a function. -/
theorem loop_state {I : υ → Prop} (hI : ∀ u x, I u → I (L.call u x).2) {wres dfuel : Nat} {lim : Nat → Bool} :
    ∀ (f k : Nat) (a : BS σ × υ), I a.2 →
    ∃ T lc, (∀ j p, ∃ u, I u ∧ T j p = m.withLoc (L.at u)) ∧ (∀ j p, ∃ q, From L I q ∧ lc j p = some q) ∧ (∀ j p q, T j p = T j q) ∧
      loopP m T lc wres dfuel lim f k a.1 = (loopS m L wres dfuel lim f k a).map Prod.fst ∧
      okLoopT m T lc wres dfuel lim f k a.1 = okLoopS m L wres dfuel lim f k a := by
  intro f
  induction f with
  | zero =>
    intro k a hu
    exact ⟨fun _ _ => m.withLoc (L.at a.2), fun _ _ => some (L.at a.2), fun _ _ => ⟨a.2, hu, rfl⟩,
      fun _ _ => ⟨L.at a.2, ⟨fun x => ⟨a.2, hu, rfl⟩, fun x => ⟨a.2, hu, rfl⟩⟩, rfl⟩, fun _ _ _ => rfl, rfl, rfl⟩
  | succ f ih =>
    intro k a hu
    unfold loopP okLoopT loopS okLoopS
    have h0 : From L I (L.at a.2) := ⟨fun x => ⟨a.2, hu, rfl⟩, fun x => ⟨a.2, hu, rfl⟩⟩
    by_cases he : Heap.empty a.1.pq = true
    · refine ⟨fun _ _ => m.withLoc (L.at a.2), fun _ _ => some (L.at a.2), fun _ _ => ⟨a.2, hu, rfl⟩, fun _ _ => ⟨_, h0, rfl⟩, fun _ _ _ => rfl, ?_⟩
      rw [if_pos he, if_pos he, if_pos he, if_pos he]; exact ⟨rfl, rfl⟩
    simp only [if_neg he]
    by_cases hl : lim k = true
    · refine ⟨fun _ _ => m.withLoc (L.at a.2), fun _ _ => some (L.at a.2), fun _ _ => ⟨a.2, hu, rfl⟩, fun _ _ => ⟨_, h0, rfl⟩, fun _ _ _ => rfl, ?_⟩
      rw [if_pos hl, if_pos hl, if_pos hl, if_pos hl]; exact ⟨rfl, rfl⟩
    simp only [if_neg hl]
    generalize Heap.extractMax (qord m) a.1.pq = x
    by_cases hb : m.sense.better x.2.2 a.1.primal = true
    · simp only [if_pos hb]
      obtain ⟨q, h1, h2, h3, h4⟩ := expand_state (m := m) hI wres dfuel ({ a.1 with pq := x.1 }, a.2) x.2.1 hu
      cases hx : expandS m L wres dfuel ({ a.1 with pq := x.1 }, a.2) x.2.1 with
      | none =>
        rw [hx] at h2
        refine ⟨fun _ _ => m.withLoc (L.at a.2), fun _ _ => some q, fun _ _ => ⟨a.2, hu, rfl⟩, fun _ _ => ⟨_, h1, rfl⟩, fun _ _ _ => rfl, ?_, ?_⟩
        · dsimp only at h2 ⊢; rw [h2]; rfl
        · dsimp only at h2 h3 ⊢; rw [h2, h3]; rfl
      | some a' =>
        rw [hx] at h2
        obtain ⟨T, lc, g1, g2, g3, g4, g5⟩ := ih (k + 1) a' (h4 a' hx)
        let T' : Nat → Int → Mdl σ := fun j => if j = k then fun _ => m.withLoc (L.at a.2) else T j
        let lc' : Nat → Int → Option (σ → Ctx → Int) := fun j => if j = k then fun _ => some q else lc j
        have eT : T' k = fun _ => m.withLoc (L.at a.2) := if_pos rfl
        have el : lc' k = fun _ => some q := if_pos rfl
        have hc : ∀ j, k + 1 ≤ j → T' j = T j ∧ lc' j = lc j := fun j hj => ⟨if_neg (by omega), if_neg (by omega)⟩
        refine ⟨T', lc', ?_, ?_, ?_, ?_, ?_⟩
        · intro j p
          by_cases hj : j = k
          · subst hj; rw [eT]; exact ⟨a.2, hu, rfl⟩
          · have : T' j = T j := if_neg hj
            rw [this]; exact g1 j p
        · intro j p
          by_cases hj : j = k
          · subst hj; rw [el]; exact ⟨q, h1, rfl⟩
          · have : lc' j = lc j := if_neg hj
            rw [this]; exact g2 j p
        · intro j p q'
          by_cases hj : j = k
          · subst hj; rw [eT]
          · have : T' j = T j := if_neg hj
            rw [this]; exact g3 j p q'
        · rw [eT, el]
          dsimp only at h2 ⊢
          rw [h2]
          simp only [Option.map_some, Option.bind_some]
          rw [(loopP_congr f (k + 1) a'.1 hc).1, g4]
        · rw [eT, el]
          dsimp only at h2 h3 ⊢
          rw [h2, h3]
          simp only [Option.map_some, Option.getD_some]
          rw [(loopP_congr f (k + 1) a'.1 hc).2, g5]
    · simp only [if_neg hb]
      exact ih (k + 1) ({ a.1 with pq := x.1 }, a.2) hu

theorem expandS_loc {l : Option (σ → Ctx → Int)} {wres dfuel : Nat} :
    expandS { m with loc := l } L wres dfuel = expandS m L wres dfuel ∧ okExpandS { m with loc := l } L wres dfuel = okExpandS m L wres dfuel := by
  have e0 : domScan { m with loc := l } = domScan m := by
    funext sd s x b ls acc
    induction ls generalizing acc with
    | nil => rfl
    | cons a ls ih => simp only [domScan, ih]
  have e1 : domStep { m with loc := l } = domStep m := by funext s x b; unfold domStep; rw [e0]; rfl
  have e3 : okCut { m with loc := l } = okCut m := by funext g s n; unfold okCut; rw [e1]
  have e : cutStepS { m with loc := l } L = cutStepS m L := by
    funext g cur a n
    have e2 : qord { m with loc := l } = qord m := rfl
    unfold cutStepS; rw [e1, e2]
  have e2 : okFoldS { m with loc := l } L = okFoldS m L := by
    funext g cur a cs
    induction cs generalizing a with
    | nil => rfl
    | cons n cs ih => simp only [okFoldS, ih, e, e3]
  constructor <;> funext a cur
  · unfold expandS; rw [e]; rfl
  · unfold okExpandS; rw [e2]; rfl

/-- The search does not look at the bound stored in the model. -/
theorem loopS_loc {l : Option (σ → Ctx → Int)} {wres dfuel : Nat} {lim : Nat → Bool} : ∀ (f k : Nat),
    loopS { m with loc := l } L wres dfuel lim f k = loopS m L wres dfuel lim f k ∧
    okLoopS { m with loc := l } L wres dfuel lim f k = okLoopS m L wres dfuel lim f k := by
  intro f
  induction f with
  | zero => intro k; exact ⟨rfl, rfl⟩
  | succ f ih =>
    intro k
    constructor <;> funext a
    · unfold loopS; rw [(ih (k + 1)).1, expandS_loc.1]; rfl
    · unfold okLoopS; rw [(ih (k + 1)).2, expandS_loc.1, expandS_loc.2]; rfl

/-- A stateful bound is valid: every answer it gives, in any state it can get into, is at least as good as every
completion. -/
structure LocOK (m : Mdl σ) (rank : σ → Nat) (L : LocS σ υ) (I : υ → Prop) : Prop where
  keep : ∀ u x, I u → I (L.call u x).2
  rd : ∀ u s v c, I u → Relx m rank m.sti 0 s v → Val m s c → m.sense.betterEQ (L.rd u s) c = true
  call : ∀ u s v c, I u → Relx m rank m.sti 0 s v → Val m s c → m.sense.betterEQ (L.call u s).1 c = true

section
variable {I : υ → Prop} {u0 : υ}

theorem LocOK.layered (V : LocOK m rank L I) (H : Layered m rank m.sti 0) {u : υ} (hu : I u) : Layered (m.withLoc (L.at u)) rank m.sti 0 :=
  H.withLoc fun s v x c hr hv => by
    cases x with
    | dd => exact V.rd u s v c hu hr hv
    | bb => exact V.call u s v c hu hr hv

/-- A search with a stateful bound, as one the engine's theorems speak of. -/
theorem search_state (V : LocOK m rank L I) (H : Layered m rank m.sti 0) (hu : I u0) (w dfuel : Nat) (lim : Nat → Bool) (fuel : Nat) (p0 : Int) :
    ∃ T lc, (∀ k, Fam (m.withLoc (L.at u0)) rank (T k)) ∧ (∀ k, LcOK (Val (m.withLoc (L.at u0))) (m.withLoc (L.at u0)) (lc k)) ∧
      searchT (m.withLoc (L.at u0)) T lc w dfuel lim fuel p0 = (searchS m L u0 w dfuel lim fuel p0).map Prod.fst ∧
      okLoopT (m.withLoc (L.at u0)) T lc w dfuel lim fuel 0 (init (m.withLoc (L.at u0)) w p0) =
        okLoopS m L w dfuel lim fuel 0 (init (m.withLoc (L.at u0)) w p0, (L.call u0 m.sti).2) := by
  obtain ⟨T, lc, g1, g2, g3, g4, g5⟩ := loop_state (m := m.withLoc (L.at u0)) (L := L) (wres := w) (dfuel := dfuel) (lim := lim) V.keep fuel 0
    (init (m.withLoc (L.at u0)) w p0, (L.call u0 m.sti).2) (V.keep _ _ hu)
  have H0 := V.layered H hu
  refine ⟨T, lc, fun k => ?_, fun k => ?_, ?_, ?_⟩
  · obtain ⟨u, hu', e⟩ := g1 k 0
    have e' : T k = fun _ => m.withLoc (L.at u) := funext fun p => (g3 k p 0).trans e
    rw [e']
    refine ⟨fun _ => rfl, fun _ _ _ h => h, fun _ _ _ _ _ _ h _ => (h.of_loc).to_loc, fun _ _ _ h => (h.of_loc).to_loc, fun _ s ls v hp hq => ?_⟩
    have := (V.layered H hu').of_path hp.of_loc.to_loc hq
    rwa [Int.zero_add] at this
  · intro p f hf s ls v c hp hq hv hb
    obtain ⟨q, hq', e⟩ := g2 k p
    rw [e] at hf
    obtain rfl := Option.some.inj hf
    obtain ⟨u, hu', e2⟩ := hq'.2 s
    rw [e2]
    have hr := hp.relx (rank := rank) (v0 := 0) Relx.root
    exact V.call u s _ c hu' hr.of_loc hv.of_loc
  · unfold searchT searchS
    rw [g4, (loopS_loc fuel 0).1]
  · rw [g5, (loopS_loc fuel 0).2]

/-- C89, C01 for a local bound with state. -/
theorem searchS_sound (V : LocOK m rank L I) (H : Layered m rank m.sti 0) (hu : I u0) {p0 : Int} (hp0 : m.sense.betterEQ p0 m.sense.best0 = true)
    {w dfuel fuel : Nat} {lim : Nat → Bool} {a : BS σ × υ} (h : searchS m L u0 w dfuel lim fuel p0 = some a) :
    (∀ x, x ∈ a.1.sols → Sol m x.2 x.1) ∧ (a.1.sols ≠ [] → Sol m a.1.inc a.1.primal) := by
  obtain ⟨T, lc, F, _, e, _⟩ := search_state V H hu w dfuel lim fuel p0
  rw [h] at e
  obtain ⟨h1, h2⟩ := searchT_sound F (V.layered H hu) hp0 e
  exact ⟨fun x hx => (h1 x hx).of_loc, fun hne => (h2 hne).of_loc⟩

/-- C89, C04 for a local bound with state. -/
theorem searchS_ends (V : LocOK m rank L I) (H : Layered m rank m.sti 0) (hu : I u0) {p0 : Int} (hp0 : m.sense.betterEQ p0 m.sense.best0 = true) {N : Nat}
    (hN : RankBound m rank m.sti 0 N) (w : Nat) {dfuel : Nat} (hf : N + 2 ≤ dfuel) (lim : Nat → Bool) :
    ∃ K, ∀ fuel, K < fuel → ∃ a, searchS m L u0 w dfuel lim fuel p0 = some a ∧ (a.1.stopped = true ∨ Heap.empty a.1.pq = true) := by
  let m0 := m.withLoc (L.at u0)
  have H0 : Layered m0 rank m0.sti 0 := V.layered H hu
  refine ⟨((List.range (N + 1)).flatMap (level m0)).length, fun fuel hfu => ?_⟩
  obtain ⟨T, lc, F, _, e, _⟩ := search_state V H hu w dfuel lim fuel p0
  have hN0 : RankBound m0 rank m0.sti 0 N := fun s v hr hq => hN s v hr.of_loc hq
  obtain ⟨s, h1, h2⟩ := searchT_terminates (lc := lc) F H0 hp0 hN0 (U := (List.range (N + 1)).flatMap (level m0)) (fun x ls c hp hq => by
    have h0 := hp.relx (rank := rank) (v0 := 0) Relx.root
    have h1 := path_rank H0 hp 0 Relx.root hq
    have h2 := hN0 _ _ h0 hq
    have h3 := mem_level hp 0 (by simp [level])
    rw [Nat.zero_add] at h3
    exact List.mem_flatMap.2 ⟨ls.length, by simp only [List.mem_range]; omega, h3⟩) w hf lim hfu
  have h1' := e.symm.trans h1
  simp only [Option.map_eq_some_iff] at h1'
  obtain ⟨a, g1, g2⟩ := h1'
  exact ⟨a, g1, by rw [g2]; exact h2⟩

/-- C89, C81 for a local bound with state. -/
theorem searchS_room (V : LocOK m rank L I) (H : Layered m rank m.sti 0) (hu : I u0) {p0 : Int} (hp0 : m.sense.betterEQ p0 m.sense.best0 = true)
    {w dfuel fuel : Nat} (hR : Room m rank m.sti w) {lim : Nat → Bool} {a : BS σ × υ}
    (h : searchS m L u0 w dfuel lim fuel p0 = some a) (hns : a.1.stopped = false) :
    (∀ ls c, Sol m ls c → m.sense.betterEQ a.1.primal c = true) ∧
    (Sol m a.1.inc a.1.primal ∨ (a.1.primal = p0 ∧ ∀ ls c, Sol m ls c → m.sense.better c p0 = false)) := by
  obtain ⟨T, lc, F, _, e, _⟩ := search_state V H hu w dfuel lim fuel p0
  rw [h] at e
  have hR0 : Room (m.withLoc (L.at u0)) rank m.sti w := fun k M hn hM => hR k M hn fun x hx => by
    obtain ⟨q1, q2, ls, c, q3⟩ := hM x hx
    exact ⟨q1, q2, ls, c, q3.of_loc⟩
  obtain ⟨h1, h2⟩ := searchT_room F (V.layered H hu) hp0 (fun hn => by cases hn) hR0 e hns
  refine ⟨fun ls c hs => h1 ls c (Path.to_loc hs), h2.imp (fun x => Path.of_loc x) fun x => ⟨x.1, fun ls c hs => x.2 ls c (Path.to_loc hs)⟩⟩

/-- C89, C03 for a local bound with state.  Missing: runs in which the engine drops a node for a bad reason. -/
theorem searchS_answer_partial (V : LocOK m rank L I) (H : Layered m rank m.sti 0) (hD : DomRank m rank) (hu : I u0) {p0 : Int} (hp0 : m.sense.betterEQ p0 m.sense.best0 = true)
    {w dfuel fuel : Nat} {lim : Nat → Bool} {a : BS σ × υ} (h : searchS m L u0 w dfuel lim fuel p0 = some a)
    (hok : okLoopS m L w dfuel lim fuel 0 (init (m.withLoc (L.at u0)) w p0, (L.call u0 m.sti).2) = true) (hns : a.1.stopped = false) :
    (∀ ls c, Sol m ls c → m.sense.betterEQ a.1.primal c = true) ∧
    (Sol m a.1.inc a.1.primal ∨ (a.1.primal = p0 ∧ ∀ ls c, Sol m ls c → m.sense.better c p0 = false)) := by
  obtain ⟨T, lc, F, V', e, e2⟩ := search_state V H hu w dfuel lim fuel p0
  rw [h] at e
  rw [← e2] at hok
  obtain ⟨h1, h2⟩ := searchT_answer_partial F V' (V.layered H hu)
    (fun sd hsd a b va vb h1 h2 => hD sd hsd a b va vb h1.of_loc h2.of_loc) hp0 (fun hn => by cases hn) e hok hns
  exact ⟨fun ls c hs => h1 ls c (Path.to_loc hs), h2.imp (fun x => Path.of_loc x) fun x => ⟨x.1, fun ls c hs => x.2 ls c (Path.to_loc hs)⟩⟩

end

end Verif.BB
