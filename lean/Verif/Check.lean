import Verif.Spec
/-!
# Deciding the hypotheses of a small finite model

Used only for concrete witnesses: the kernel evaluates `layChk` on a listed set of reachable
(state, value) pairs, and `layChk_sound` turns the answer into `Layered`.
-/
namespace Verif.DD
variable {σ : Type} [DecidableEq σ]

/-- Costs of the completions of `s` of length at most `n`. -/
def vals (m : Mdl σ) : Nat → σ → List Int
  | 0, s => if m.eqs s = true ∧ s = m.stt then [0] else []
  | n + 1, s =>
    if m.eqs s = true then (if s = m.stt then [0] else [])
    else (m.lgf s).flatMap (fun l =>
      match m.stf s l with
      | none => []
      | some s' => (vals m n s').map (fun c => m.stc s l + c))

theorem vals_sound (m : Mdl σ) : ∀ (n : Nat) (s : σ) (c : Int), c ∈ vals m n s → Val m s c := by
  intro n
  induction n with
  | zero =>
    intro s c h
    unfold vals at h
    split at h
    · rename_i hc; simp at h; subst h; rw [hc.2]; exact ⟨[], Path.nil _⟩
    · simp at h
  | succ n ih =>
    intro s c h
    unfold vals at h
    split at h
    · split at h
      · rename_i hc; simp at h; subst h; rw [hc]; exact ⟨[], Path.nil _⟩
      · simp at h
    · rename_i he
      rw [List.mem_flatMap] at h
      obtain ⟨l, hl, h⟩ := h
      split at h
      · simp at h
      · rename_i s' hs
        rw [List.mem_map] at h
        obtain ⟨c', hc', rfl⟩ := h
        obtain ⟨ls, hp⟩ := ih s' c' hc'
        exact ⟨l :: ls, Path.cons ⟨by simpa using he, hl, hs⟩ hp⟩

/-- `R` contains the states and is closed under steps, and `vals m N` satisfies its equation there. -/
def closedChk (m : Mdl σ) (N : Nat) (R : List (σ × Int)) : Bool :=
  R.all (fun x => m.eqs x.1 || (m.lgf x.1).all (fun l =>
    match m.stf x.1 l with
    | none => true
    | some s' => decide ((s', x.2 + m.stc x.1 l) ∈ R) &&
        (vals m N s').all (fun c => decide (m.stc x.1 l + c ∈ vals m N x.1))))

theorem closed_step {m : Mdl σ} {N : Nat} {R : List (σ × Int)} (h : closedChk m N R = true) {s s' : σ} {v l : Int}
    (hs : (s, v) ∈ R) (hst : Step m s l s') :
    (s', v + m.stc s l) ∈ R ∧ ∀ c, c ∈ vals m N s' → m.stc s l + c ∈ vals m N s := by
  unfold closedChk at h
  rw [List.all_eq_true] at h
  have := h _ hs
  obtain ⟨h1, h2, h3⟩ := hst
  simp only [h1, Bool.false_or, List.all_eq_true] at this
  have := this l h2
  rw [h3] at this
  simpa using this

theorem vals_complete {m : Mdl σ} {N : Nat} {R : List (σ × Int)} (hS : m.eqs m.stt = true) (h : closedChk m N R = true)
    {s t : σ} {v c : Int} {ls : List Int} (hs : (s, v) ∈ R) (hp : Path m s ls c t) (ht : t = m.stt) : c ∈ vals m N s := by
  induction hp generalizing v with
  | nil =>
    subst ht
    cases N <;> simp [vals, hS]
  | cons hst _ ih =>
    obtain ⟨a, b⟩ := closed_step h hs hst
    exact b _ (ih a ht)

/-- `a` covers `b`, decided on the value lists. -/
def covChk (m : Mdl σ) (N : Nat) (a b : σ) : Bool :=
  (vals m N b).all (fun c => (vals m N a).any (fun c' => m.sense.betterEQ c' c))

theorem covChk_sound {m : Mdl σ} {N : Nat} {R : List (σ × Int)} (hS : m.eqs m.stt = true) (h : closedChk m N R = true)
    {a b : σ} {v : Int} (hb : (b, v) ∈ R) (hc : covChk m N a b = true) : Cover m a b := by
  rintro c ⟨ls, hp⟩
  unfold covChk at hc
  rw [List.all_eq_true] at hc
  have := hc c (vals_complete hS h hb hp rfl)
  rw [List.any_eq_true] at this
  obtain ⟨c', h1, h2⟩ := this
  exact ⟨c', vals_sound m N a c' h1, h2⟩

def mergeChk (m : Mdl σ) (rank : σ → Nat) (N : Nat) (R : List (σ × Int)) : Bool :=
  R.all (fun x => R.all (fun y =>
    if m.eqs x.1 = false ∧ m.eqs y.1 = false ∧ rank x.1 = rank y.1 then
      match m.smf x.1 y.1 with
      | none => true
      | some c => decide ((c, x.2) ∈ R) && decide ((c, y.2) ∈ R) && !(m.eqs c) && decide (rank c = rank x.1) &&
          covChk m N c x.1 && covChk m N c y.1
    else true))

theorem mergeChk_sound {m : Mdl σ} {rank : σ → Nat} {N : Nat} {R : List (σ × Int)} (h : mergeChk m rank N R = true)
    {a b c : σ} {va vb : Int} (ha : (a, va) ∈ R) (hb : (b, vb) ∈ R) (ea : m.eqs a = false) (eb : m.eqs b = false)
    (hr : rank a = rank b) (hm : m.smf a b = some c) :
    (c, va) ∈ R ∧ (c, vb) ∈ R ∧ m.eqs c = false ∧ rank c = rank a ∧ covChk m N c a = true ∧ covChk m N c b = true := by
  unfold mergeChk at h
  rw [List.all_eq_true] at h
  have h := h _ ha
  rw [List.all_eq_true] at h
  have h := h _ hb
  rw [if_pos ⟨ea, eb, hr⟩] at h
  rw [hm] at h
  simp at h
  exact ⟨h.1.1.1.1.1, h.1.1.1.1.2, h.1.1.1.2, h.1.1.2, h.1.2, h.2⟩

def locChk (m : Mdl σ) (N : Nat) (R : List (σ × Int)) : Bool :=
  match m.loc with
  | none => true
  | some f => R.all (fun x => (vals m N x.1).all (fun c => m.sense.betterEQ (f x.1 .bb) c && m.sense.betterEQ (f x.1 .dd) c))

def domChk (m : Mdl σ) (rank : σ → Nat) (N : Nat) (R : List (σ × Int)) : Bool :=
  match m.sdom with
  | none => true
  | some f => R.all (fun x => R.all (fun y =>
    if m.eqs x.1 = false ∧ (m.eqs y.1 = true ∨ rank x.1 = rank y.1) ∧ f x.1 y.1 = true then
      covChk m N x.1 y.1 && decide (y.1 ≠ m.stt) else true))

def layChk (m : Mdl σ) (rank : σ → Nat) (s0 : σ) (v0 : Int) (N : Nat) (R : List (σ × Int)) : Bool :=
  m.eqs m.stt && !(m.eqs s0) && decide ((s0, v0) ∈ R) &&
  R.all (fun x => m.sense.better x.2 m.sense.best0) &&
  R.all (fun x => m.eqs x.1 || (m.lgf x.1).all (fun l =>
    match m.stf x.1 l with
    | none => true
    | some s' => m.eqs s' || decide (rank s' = rank x.1 + 1))) &&
  closedChk m N R && mergeChk m rank N R && locChk m N R && domChk m rank N R

theorem layChk_relx {m : Mdl σ} {rank : σ → Nat} {s0 : σ} {v0 : Int} {N : Nat} {R : List (σ × Int)}
    (h0 : (s0, v0) ∈ R) (h1 : closedChk m N R = true) (h2 : mergeChk m rank N R = true) {s : σ} {v : Int}
    (h : Relx m rank s0 v0 s v) : (s, v) ∈ R := by
  induction h with
  | swap _ _ hsw _ ihsw => obtain rfl := (same_iff _ _).1 hsw; exact ihsw
  | root => exact h0
  | step _ hst ih => exact (closed_step h1 ih hst).1
  | mergeL _ _ ea eb hr hm iha ihb => exact (mergeChk_sound h2 iha ihb ea eb hr hm).1
  | mergeR _ _ ea eb hr hm iha ihb => exact (mergeChk_sound h2 iha ihb ea eb hr hm).2.1

theorem layChk_sound {m : Mdl σ} {rank : σ → Nat} {s0 : σ} {v0 : Int} (N : Nat) (R : List (σ × Int))
    (h : layChk m rank s0 v0 N R = true) : Layered m rank s0 v0 := by
  unfold layChk at h
  simp only [Bool.and_eq_true] at h
  obtain ⟨⟨⟨⟨⟨⟨⟨⟨a1, a2⟩, a3⟩, a4⟩, a5⟩, a6⟩, a7⟩, a8⟩, a9⟩ := h
  have a3 : (s0, v0) ∈ R := by simpa using a3
  have hin : ∀ s v, Relx m rank s0 v0 s v → (s, v) ∈ R := fun s v h => layChk_relx a3 a6 a7 h
  refine ⟨a1, val_closed _, by simpa using a2, ?_, ?_, ?_, ?_, ?_, Fair.ofEq⟩
  · intro s v h
    rw [List.all_eq_true] at a4
    exact a4 _ (hin s v h)
  · intro s v l s' h ⟨h1, h2, h3⟩
    rw [List.all_eq_true] at a5
    have := a5 _ (hin s v h)
    simp only [h1, Bool.false_or, List.all_eq_true] at this
    have := this l h2
    rw [h3] at this
    simpa using this
  · intro a b c va vb ra rb ea eb hr hm
    obtain ⟨_, _, b3, b4, b5, b6⟩ := mergeChk_sound a7 (hin _ _ ra) (hin _ _ rb) ea eb hr hm
    exact ⟨b3, b4, covChk_sound a1 a6 (hin _ _ ra) b5, covChk_sound a1 a6 (hin _ _ rb) b6⟩
  · intro f hf s v x c hr ⟨ls, hp⟩
    unfold locChk at a8
    rw [hf] at a8
    simp only [List.all_eq_true] at a8
    have := a8 _ (hin _ _ hr) c (vals_complete a1 a6 (hin _ _ hr) hp rfl)
    simp only [Bool.and_eq_true] at this
    cases x
    · exact this.1
    · exact this.2
  · intro f hf a b va vb ra rb ea hr hd
    unfold domChk at a9
    rw [hf] at a9
    simp only [List.all_eq_true] at a9
    have := a9 _ (hin _ _ ra) _ (hin _ _ rb)
    rw [if_pos ⟨ea, hr.elim (fun x => Or.inr x.2) (fun ⟨_, _, _, _, _, x, _⟩ => Or.inl x), hd⟩] at this
    simp at this
    exact ⟨covChk_sound a1 a6 (hin _ _ rb) this.1, this.2⟩

/-- One round of closing a list of pairs under steps and merges. -/
def growR (m : Mdl σ) (rank : σ → Nat) (R : List (σ × Int)) : List (σ × Int) :=
  let st := R.flatMap (fun x => if m.eqs x.1 then [] else (m.lgf x.1).filterMap (fun l =>
    (m.stf x.1 l).map (fun s' => (s', x.2 + m.stc x.1 l))))
  let mg := R.flatMap (fun x => R.flatMap (fun y =>
    if m.eqs x.1 = false ∧ m.eqs y.1 = false ∧ rank x.1 = rank y.1 then
      match m.smf x.1 y.1 with
      | none => []
      | some c => [(c, x.2), (c, y.2)]
    else []))
  (R ++ st ++ mg).eraseDups
/-- `n` rounds from the initial state. -/
def closeR (m : Mdl σ) (rank : σ → Nat) (n : Nat) : List (σ × Int) :=
  (List.range n).foldl (fun R _ => growR m rank R) [(m.sti, 0)]

/-- A model given by a table: arcs `(from, label, to, cost)`, merges `(a, b, merged)` and terminal
states; the first terminal state is the sink. -/
def gm (sense : Sense) (tr : List (Nat × Int × Nat × Int)) (mg : List (Nat × Nat × Nat)) (sink : Nat)
    (dead : List Nat := []) (loc : Option (Nat → Ctx → Int) := none) (sdom : Option (Nat → Nat → Bool) := none) : Mdl Nat where
  sense := sense
  sti := 0
  stt := sink
  lgf := fun s => (tr.filter (fun t => t.1 = s)).map (fun t => t.2.1)
  stf := fun s l => (tr.find? (fun t => t.1 = s ∧ t.2.1 = l)).map (fun t => t.2.2.1)
  stc := fun s l => ((tr.find? (fun t => t.1 = s ∧ t.2.1 = l)).map (fun t => t.2.2.2)).getD 0
  smf := fun a b => (mg.find? (fun t => (t.1 = a ∧ t.2.1 = b) ∨ (t.1 = b ∧ t.2.1 = a))).map (fun t => t.2.2)
  eqs := fun s => s = sink || decide (s ∈ dead)
  loc := loc
  sdom := sdom

end Verif.DD
