import Verif.DD
/-!
# What a user's model means, independently of the engine

A problem is the transition system given by the functions the user passes.  A solution is a
label sequence driving the initial state to the sink; its cost is the sum of the arc costs.
Nothing in this file mentions diagrams, nodes or queues.
-/
namespace Verif.DD
variable {σ : Type}

/-! ### Order of the objective -/

/-- `v` seen as a maximisation value: larger is better in either sense. -/
def Sense.k : Sense → Int → Int
  | .min, a => -a
  | .max, a => a

theorem Sense.better_iff (s : Sense) (a b : Int) : s.better a b = true ↔ s.k b < s.k a := by
  cases s <;> simp [Sense.better, Sense.k] <;> omega

theorem Sense.better_false (s : Sense) (a b : Int) : s.better a b = false ↔ s.k a ≤ s.k b := by
  cases s <;> simp [Sense.better, Sense.k] <;> omega

theorem Sense.betterEQ_iff (s : Sense) (a b : Int) : s.betterEQ a b = true ↔ s.k b ≤ s.k a := by
  cases s <;> simp [Sense.betterEQ, Sense.k] <;> omega

theorem Sense.betterEQ_false (s : Sense) (a b : Int) : s.betterEQ a b = false ↔ s.k a < s.k b := by
  cases s <;> simp [Sense.betterEQ, Sense.k] <;> omega

theorem Sense.k_add (s : Sense) (a b : Int) : s.k (a + b) = s.k a + s.k b := by
  cases s <;> simp [Sense.k] <;> omega

theorem Sense.k_sub (s : Sense) (a b : Int) : s.k (a - b) = s.k a - s.k b := by
  cases s <;> simp [Sense.k] <;> omega

theorem Sense.k_zero (s : Sense) : s.k 0 = 0 := by cases s <;> simp [Sense.k]

theorem Sense.k_inj {s : Sense} {a b : Int} (h : s.k a = s.k b) : a = b := by
  cases s <;> simp [Sense.k] at h <;> omega

/-! ### Paths -/

/-- `l` is a feasible decision in the non-terminal state `s` and leads to `s'`. -/
def Step (m : Mdl σ) (s : σ) (l : Int) (s' : σ) : Prop :=
  m.eqs s = false ∧ l ∈ m.lgf s ∧ m.stf s l = some s'

/-- `ls` leads from `s` to `t` at total cost `c`. -/
inductive Path (m : Mdl σ) : σ → List Int → Int → σ → Prop
  | nil (s : σ) : Path m s [] 0 s
  | cons {s s' t : σ} {l : Int} {ls : List Int} {c : Int} :
      Step m s l s' → Path m s' ls c t → Path m s (l :: ls) (m.stc s l + c) t

/-- A completion of `s` of cost `c`. -/
def Val (m : Mdl σ) (s : σ) (c : Int) : Prop := ∃ ls, Path m s ls c m.stt

/-- A solution of the problem: labels and cost. -/
def Sol (m : Mdl σ) (ls : List Int) (c : Int) : Prop := Path m m.sti ls c m.stt

/-- `a` can do at least as well as `b`, as far as the completions in `Vl` are concerned. -/
def CoverV (Vl : σ → Int → Prop) (m : Mdl σ) (a b : σ) : Prop := ∀ c, Vl b c → ∃ c', Vl a c' ∧ m.sense.betterEQ c' c = true

/-- `a` can do at least as well as `b`. -/
abbrev Cover (m : Mdl σ) (a b : σ) : Prop := CoverV (Val m) m a b

/-- `Vl` picks some of the completions, with every end of a completion it picks. -/
def Closed (Vl : σ → Int → Prop) (m : Mdl σ) : Prop := ∀ s c, Vl s c →
  (s = m.stt ∧ c = 0) ∨ ∃ l s' c', Step m s l s' ∧ Vl s' c' ∧ c = m.stc s l + c'

theorem Path.trans {m : Mdl σ} {a b c : σ} {l1 l2 : List Int} {c1 c2 : Int}
    (h1 : Path m a l1 c1 b) (h2 : Path m b l2 c2 c) : Path m a (l1 ++ l2) (c1 + c2) c := by
  induction h1 with
  | nil s => simpa using h2
  | cons hs _ ih =>
    have := Path.cons hs (ih h2)
    rw [Int.add_assoc]; exact this

theorem Path.snoc {m : Mdl σ} {a b c : σ} {ls : List Int} {v : Int} {l : Int}
    (h1 : Path m a ls v b) (h2 : Step m b l c) : Path m a (ls ++ [l]) (v + m.stc b l) c := by
  have := h1.trans (Path.cons h2 (Path.nil c))
  simpa using this

theorem Path.of_terminal {m : Mdl σ} {s t : σ} {ls : List Int} {c : Int}
    (h : Path m s ls c t) (ht : m.eqs s = true) : ls = [] ∧ c = 0 ∧ s = t := by
  cases h with
  | nil => exact ⟨rfl, rfl, rfl⟩
  | cons hs _ => rw [hs.1] at ht; exact absurd ht (by simp)

/-- All completions. -/
theorem val_closed (m : Mdl σ) : Closed (Val m) m := by
  rintro s c ⟨ls, hp⟩
  generalize hz : m.stt = z at hp
  cases hp with
  | nil => exact .inl ⟨rfl, rfl⟩
  | @cons _ s' _ l ls' c' hst hp' => subst hz; exact .inr ⟨l, s', c', hst, ⟨ls', hp'⟩, rfl⟩

theorem Closed.terminal {Vl : σ → Int → Prop} {m : Mdl σ} (h : Closed Vl m) {s : σ} {c : Int} (hv : Vl s c) (ht : m.eqs s = true) :
    s = m.stt ∧ c = 0 := by
  rcases h s c hv with h | ⟨_, _, _, h, _⟩
  · exact h
  · rw [h.1] at ht; cases ht

theorem Closed.open {Vl : σ → Int → Prop} {m : Mdl σ} (h : Closed Vl m) (hs : m.eqs m.stt = true) {s : σ} {c : Int} (hv : Vl s c) (ht : m.eqs s = false) :
    ∃ l s' c', Step m s l s' ∧ Vl s' c' ∧ c = m.stc s l + c' := by
  rcases h s c hv with ⟨rfl, _⟩ | h
  · rw [hs] at ht; cases ht
  · exact h

theorem CoverV.refl {Vl : σ → Int → Prop} (m : Mdl σ) (a : σ) : CoverV Vl m a a := fun c h =>
  ⟨c, h, by rw [Sense.betterEQ_iff]; omega⟩

theorem CoverV.trans {Vl : σ → Int → Prop} {m : Mdl σ} {a b c : σ} (h1 : CoverV Vl m a b) (h2 : CoverV Vl m b c) : CoverV Vl m a c := by
  intro v hv
  obtain ⟨v1, hv1, h3⟩ := h2 v hv
  obtain ⟨v2, hv2, h4⟩ := h1 v1 hv1
  rw [Sense.betterEQ_iff] at h3 h4
  exact ⟨v2, hv2, by rw [Sense.betterEQ_iff]; omega⟩

/-! ### Relaxed reachability and the hypotheses on a model -/

/-- States, with a value, that transitions and merges of states of equal rank can produce from
`s0` at value `v0`.  `swap`: of two states the program takes for equal, one may stand for the other
and take over its value. -/
inductive Relx [Same σ] (m : Mdl σ) (rank : σ → Nat) (s0 : σ) (v0 : Int) : σ → Int → Prop
  | root : Relx m rank s0 v0 s0 v0
  | step {s s' : σ} {l : Int} {v : Int} :
      Relx m rank s0 v0 s v → Step m s l s' → Relx m rank s0 v0 s' (v + m.stc s l)
  | mergeL {a b c : σ} {v v' : Int} :
      Relx m rank s0 v0 a v → Relx m rank s0 v0 b v' → m.eqs a = false → m.eqs b = false →
      rank a = rank b → m.smf a b = some c → Relx m rank s0 v0 c v
  | mergeR {a b c : σ} {v v' : Int} :
      Relx m rank s0 v0 a v → Relx m rank s0 v0 b v' → m.eqs a = false → m.eqs b = false →
      rank a = rank b → m.smf a b = some c → Relx m rank s0 v0 c v'
  | swap {a b : σ} {v v' : Int} :
      Relx m rank s0 v0 a v' → Relx m rank s0 v0 b v → Same.same a b = true → Relx m rank s0 v0 a v

variable [Same σ]

theorem Relx.trans {m : Mdl σ} {rank : σ → Nat} {s0 s1 s2 : σ} {v0 v1 v2 : Int}
    (h1 : Relx m rank s0 v0 s1 v1) (h2 : Relx m rank s1 v1 s2 v2) : Relx m rank s0 v0 s2 v2 := by
  induction h2 with
  | root => exact h1
  | step _ h ih => exact ih.step h
  | mergeL _ _ a b c d ih1 ih2 => exact ih1.mergeL ih2 a b c d
  | mergeR _ _ a b c d ih1 ih2 => exact ih1.mergeR ih2 a b c d
  | swap _ _ a ih1 ih2 => exact ih1.swap ih2 a

theorem Path.relx {m : Mdl σ} {rank : σ → Nat} {s0 s t : σ} {v0 v c : Int} {ls : List Int}
    (h : Path m s ls c t) (hr : Relx m rank s0 v0 s v) : Relx m rank s0 v0 t (v + c) := by
  induction h generalizing v with
  | nil => simpa using hr
  | cons hs _ ih =>
    have := ih (hr.step hs)
    rwa [Int.add_assoc] at this

/-- The program's equality tells apart what decisions alone reach from `s0`, and the sink from it. -/
structure Uniq (m : Mdl σ) (s0 : σ) : Prop where
  refl : ∀ a : σ, Same.same a a = true
  symm : ∀ a b : σ, Same.same a b = true → Same.same b a = true
  sink : ∀ b ls c, Path m s0 ls c b → Same.same m.stt b = true → b = m.stt
  uniq : ∀ a b la lb ca cb, Path m s0 la ca a → Path m s0 lb cb b → Same.same a b = true → a = b

/-- What the program's equality of states must provide, among the states relaxation can reach from
`s0`: it is reflexive and symmetric, equal states agree on being terminal and on the rank and one can
do as well as the other; a state equal to a terminal state or to the sink is that state; and two
states that decisions alone reach from `s0` are equal only if they are the same. -/
structure Fair (Vl : σ → Int → Prop) (m : Mdl σ) (rank : σ → Nat) (s0 : σ) (v0 : Int) : Prop where
  refl : ∀ a : σ, Same.same a a = true
  symm : ∀ a b : σ, Same.same a b = true → Same.same b a = true
  like : ∀ a b va vb, Relx m rank s0 v0 a va → Relx m rank s0 v0 b vb → Same.same a b = true →
    m.eqs a = m.eqs b ∧ rank a = rank b ∧ CoverV Vl m a b ∧ (m.eqs a = true → a = b)
  sink : ∀ b vb, Relx m rank s0 v0 b vb → Same.same m.stt b = true → b = m.stt
  uniq : ∀ a b la lb ca cb, Path m s0 la ca a → Path m s0 lb cb b → Same.same a b = true → a = b

theorem Fair.toUniq {Vl : σ → Int → Prop} {m : Mdl σ} {rank : σ → Nat} {s0 : σ} {v0 : Int} (h : Fair Vl m rank s0 v0) :
    Uniq m s0 := ⟨h.refl, h.symm, fun b _ _ hp => h.sink b _ (hp.relx Relx.root), h.uniq⟩

theorem Uniq.ofEq {τ : Type} [DecidableEq τ] {m : Mdl τ} {s0 : τ} : Uniq m s0 where
  refl := by simp
  symm := by intro a b h; simp at h ⊢; exact h.symm
  sink := by intro b _ _ _ h; simp at h; exact h.symm
  uniq := by intro a b _ _ _ _ _ _ h; simpa using h

/-- Equality of whole states does. -/
theorem Fair.ofEq {τ : Type} [DecidableEq τ] {Vl : τ → Int → Prop} {m : Mdl τ} {rank : τ → Nat} {s0 : τ} {v0 : Int} :
    Fair Vl m rank s0 v0 where
  refl := by simp
  symm := by intro a b h; simp at h ⊢; exact h.symm
  like := by
    intro a b _ _ _ _ h
    simp at h; subst h
    exact ⟨rfl, rfl, CoverV.refl m a, fun _ => rfl⟩
  sink := by intro b _ _ h; simp at h; exact h.symm
  uniq := by intro a b _ _ _ _ _ _ h; simpa using h

/-- Hypotheses on a layered model, relative to everything relaxation can reach from `s0`:
terminal states include the sink; a step goes to a terminal state or one rank up; a merge stays
in its rank; a merged state, a dominating state and a local bound are all at least as good as
what they stand for (dominance: between states of one layer only, where a terminal state counts in
the layer after its predecessor); costs stay within the range of the engine's "no value yet" constant.
"As good" is about the completions in `Vl`; with all of them see `Layered`. -/
structure LayeredV (Vl : σ → Int → Prop) (m : Mdl σ) (rank : σ → Nat) (s0 : σ) (v0 : Int) : Prop where
  sink : m.eqs m.stt = true
  ends : Closed Vl m := by exact val_closed _
  src : m.eqs s0 = false
  range : ∀ s v, Relx m rank s0 v0 s v → m.sense.better v m.sense.best0 = true
  step : ∀ s v l s', Relx m rank s0 v0 s v → Step m s l s' → m.eqs s' = true ∨ rank s' = rank s + 1
  merge : ∀ a b c va vb, Relx m rank s0 v0 a va → Relx m rank s0 v0 b vb → m.eqs a = false →
    m.eqs b = false → rank a = rank b → m.smf a b = some c →
    m.eqs c = false ∧ rank c = rank a ∧ CoverV Vl m c a ∧ CoverV Vl m c b
  local_ : ∀ f, m.loc = some f → ∀ s v x c, Relx m rank s0 v0 s v → Vl s c →
    m.sense.betterEQ (f s x) c = true
  dom : ∀ f, m.sdom = some f → ∀ a b va vb, Relx m rank s0 v0 a va → Relx m rank s0 v0 b vb →
    m.eqs a = false → (m.eqs b = false ∧ rank a = rank b ∨
      ∃ p vp l, Relx m rank s0 v0 p vp ∧ Step m p l b ∧ m.eqs b = true ∧ rank a = rank p + 1) →
    f a b = true → CoverV Vl m a b ∧ b ≠ m.stt
  fair : Fair Vl m rank s0 v0 := by exact Fair.ofEq

/-- The hypotheses about all completions. -/
abbrev Layered (m : Mdl σ) (rank : σ → Nat) (s0 : σ) (v0 : Int) : Prop := LayeredV (Val m) m rank s0 v0

theorem LayeredV.of_path {Vl : σ → Int → Prop} {m : Mdl σ} {rank : σ → Nat} {s0 s1 : σ} {v0 c : Int} {ls : List Int}
    (h : LayeredV Vl m rank s0 v0) (hp : Path m s0 ls c s1) (hs : m.eqs s1 = false) :
    LayeredV Vl m rank s1 (v0 + c) := by
  have hr : Relx m rank s0 v0 s1 (v0 + c) := hp.relx Relx.root
  exact {
    sink := h.sink
    ends := h.ends
    src := hs
    range := fun s v hv => h.range s v (hr.trans hv)
    step := fun s v l s' hv => h.step s v l s' (hr.trans hv)
    merge := fun a b c va vb h1 h2 => h.merge a b c va vb (hr.trans h1) (hr.trans h2)
    local_ := fun f hf s v x c h1 => h.local_ f hf s v x c (hr.trans h1)
    dom := fun f hf a b va vb h1 h2 h3 h4 => h.dom f hf a b va vb (hr.trans h1) (hr.trans h2) h3
      (h4.imp id fun ⟨p, vp, l, h5, h6⟩ => ⟨p, vp, l, hr.trans h5, h6⟩)
    fair := {
      refl := h.fair.refl
      symm := h.fair.symm
      like := fun a b va vb h1 h2 => h.fair.like a b va vb (hr.trans h1) (hr.trans h2)
      sink := fun b vb h1 => h.fair.sink b vb (hr.trans h1)
      uniq := fun a b la lb ca cb h1 h2 => h.fair.uniq a b _ _ _ _ (hp.trans h1) (hp.trans h2) } }

end Verif.DD
