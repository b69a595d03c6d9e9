import Verif.Props.SameOn
import Verif.First
/-!
# C149: the merge function is not asked about final states

The compilation merges only states that are not final, provided no merge of two such states is final.  So a merge
function need not treat final states, and what it says of them changes nothing.
-/
namespace Verif.DD
set_option linter.unusedSectionVars false
variable {σ κ : Type} [Same σ] {m : Mdl σ}

/-- The nodes of `g` keep their states in `g'`. -/
def Held (g g' : G σ) : Prop := g.nn ≤ g'.nn ∧ ∀ i, i < g.nn → g'.st i = g.st i

theorem Held.refl (g : G σ) : Held g g := ⟨Nat.le_refl _, fun _ _ => rfl⟩

theorem Held.trans {a b c : G σ} (h1 : Held a b) (h2 : Held b c) : Held a c :=
  ⟨Nat.le_trans h1.1 h2.1, fun i hi => (h2.2 i (Nat.lt_of_lt_of_le hi h1.1)).trans (h1.2 i hi)⟩

theorem Fr.stay {g g' : G σ} (h : Fr g g') : Held g g' := ⟨by rw [h.2.2]; exact Nat.le_refl _, fun i _ => by rw [h.2.1]⟩

/-- The listed nodes exist and are not final. -/
def Opn (m : Mdl σ) (g : G σ) (l : List Nat) : Prop := ∀ i, i ∈ l → i < g.nn ∧ m.eqs (g.st i) = false

theorem Opn.stay {g g' : G σ} {l : List Nat} (h : Opn m g l) (hs : Held g g') : Opn m g' l := fun i hi =>
  ⟨Nat.lt_of_lt_of_le (h i hi).1 hs.1, by rw [hs.2 i (h i hi).1]; exact (h i hi).2⟩

theorem Opn.sub {g : G σ} {l l' : List Nat} (h : Opn m g l) (hs : ∀ i, i ∈ l' → i ∈ l) : Opn m g l' := fun i hi => h i (hs i hi)

theorem makeNode_stay (g : G σ) (s : σ) (pe : Bool) : Held g (makeNode m g s pe).1 ∧ (makeNode m g s pe).2 < (makeNode m g s pe).1.nn := by
  obtain ⟨_, h2, _, h4⟩ := makeNode_ex (m := m) g s pe
  rcases h4 with ⟨a, b, _⟩ | ⟨a, b, _⟩
  · exact ⟨⟨by omega, h2⟩, by omega⟩
  · exact ⟨⟨by omega, h2⟩, by omega⟩

theorem visit_stay {prim : Int} (cands : List Nat) (g : G σ) (p : Nat) (l : Int) : Held g (visit m prim cands g p l).1 := by
  rcases visit_fr (m := m) (prim := prim) cands g p l with h | ⟨s', _, h⟩
  · exact h.stay
  · exact (makeNode_stay g s' _).1.trans h.stay

/-- A node that is put in the queue is not final. -/
theorem visit_open {prim : Int} (cands : List Nat) (g : G σ) (p : Nat) (l : Int) {c : Nat} (h : (visit m prim cands g p l).2 = some c) :
    c < (visit m prim cands g p l).1.nn ∧ m.eqs ((visit m prim cands g p l).1.st c) = false := by
  revert h
  unfold visit
  have ht : ∀ c', (transition m prim g p l).2 = some c' → c' < (transition m prim g p l).1.nn := by
    intro c'
    unfold transition
    cases m.stf (g.st p) l with
    | none => intro h; cases h
    | some s' =>
      have hk := (makeNode_stay (m := m) g s' (g.ex p)).2
      cases m.loc with
      | none => intro h; cases h; exact hk
      | some f =>
        dsimp only
        split
        · intro h
          cases h
          dsimp only
          split
          · exact hk
          · exact hk
        · intro h; cases h
  generalize transition m prim g p l = t at ht
  obtain ⟨g1, o⟩ := t
  cases o with
  | none => intro h; cases h
  | some c1 =>
    have hc1 := ht c1 rfl
    dsimp only at hc1 ⊢
    generalize hd : (if (g1.par c1).isEmpty = true then findDom m g1 cands c1 (g1.bound p + m.stc (g1.st p) l) else none) = dom
    cases dom with
    | some d => intro h; simp at h
    | none =>
      simp only [Option.isSome_none, Bool.false_eq_true, if_false, Option.getD_none, Option.isNone_none, Bool.true_and]
      have hf := addEdge_fr g1 p c1 l (m.stc (g1.st p) l)
      generalize addEdge g1 p c1 l (m.stc (g1.st p) l) = g3 at hf
      have key : ∀ g4 : G σ, g4.nn = g3.nn → (if ((g1.par c1).isEmpty && !m.eqs (g4.st c1)) = true then some c1 else none) = some c →
          c < g4.nn ∧ m.eqs (g4.st c) = false := by
        intro g4 h4 h
        split at h
        · rename_i hb
          rw [Option.some.injEq] at h
          subst h
          rw [Bool.and_eq_true] at hb
          exact ⟨by rw [h4, hf.2.2]; exact hc1, by simpa using hb.2⟩
        · cases h
      by_cases hb : m.sense.better (g1.bound p + m.stc (g1.st p) l) (g3.bound c1) = true
      · simp only [if_pos hb]
        exact key _ rfl
      · simp only [if_neg hb]
        exact key g3 rfl

theorem relLabels_open {prim : Int} (p : Nat) : ∀ (ls : List Int) (g : G σ) (q : LQ), Opn m g q.next → Opn m g q.rest →
    Held g (relLabels m prim p ls g q).1 ∧ Opn m (relLabels m prim p ls g q).1 (relLabels m prim p ls g q).2.next ∧
      Opn m (relLabels m prim p ls g q).1 (relLabels m prim p ls g q).2.rest
  | [], g, q, h1, h2 => ⟨Held.refl g, h1, h2⟩
  | l :: ls, g, q, h1, h2 => by
    unfold relLabels
    have hs := visit_stay (m := m) (prim := prim) q.next g p l
    have ho := fun c => visit_open (m := m) (prim := prim) q.next g p l (c := c)
    generalize visit m prim q.next g p l = t at hs ho
    obtain ⟨g1, o⟩ := t
    cases o with
    | none =>
      obtain ⟨a, b, c⟩ := relLabels_open p ls g1 q (h1.stay hs) (h2.stay hs)
      exact ⟨hs.trans a, b, c⟩
    | some c =>
      have hc := ho c rfl
      have hn := h1.stay hs
      have hr := h2.stay hs
      have key : Opn m g1 (q.enQueue g1 c).next ∧ Opn m g1 (q.enQueue g1 c).rest := by
        obtain ⟨nx, rs⟩ := q
        unfold LQ.enQueue
        cases nx with
        | nil => exact ⟨fun i hi => by rw [List.mem_singleton.1 hi]; exact hc, hr⟩
        | cons a t =>
          dsimp only
          split
          · exact ⟨fun i hi => by
              rcases List.mem_cons.1 hi with rfl | hi
              · exact hc
              · exact hn i hi, hr⟩
          · exact ⟨hn, fun i hi => by
              rcases List.mem_append.1 hi with hi | hi
              · exact hr i hi
              · rw [List.mem_singleton.1 hi]; exact hc⟩
      obtain ⟨a, b, d⟩ := relLabels_open p ls g1 (q.enQueue g1 c) key.1 key.2
      exact ⟨hs.trans a, b, d⟩

theorem relNodes_open {prim : Int} : ∀ (ps : List Nat) (g : G σ) (q : LQ), Opn m g q.next → Opn m g q.rest →
    Opn m (relNodes m prim ps g q).1 (relNodes m prim ps g q).2.next ∧ Opn m (relNodes m prim ps g q).1 (relNodes m prim ps g q).2.rest
  | [], _, _, h1, h2 => ⟨h1, h2⟩
  | p :: ps, g, q, h1, h2 => by
    unfold relNodes
    obtain ⟨_, b, c⟩ := relLabels_open (m := m) (prim := prim) p (m.lgf (g.st p)) g q h1 h2
    exact relNodes_open ps _ _ b c

/-- A map of models, where merges are only asked of states that are not final. -/
structure HomO [Same σ] (f : σ → κ) (m : Mdl σ) (k : Mdl κ) : Prop extends HomR f m k where
  smf : ∀ a b, m.eqs a = false → m.eqs b = false → k.smf (f a) (f b) = (m.smf a b).map f
  opn : ∀ a b c, m.eqs a = false → m.eqs b = false → m.smf a b = some c → m.eqs c = false
  same : ∀ a b, Same.same a b = true → m.eqs a = m.eqs b

variable [Same κ] {f : σ → κ} {k : Mdl κ} (hS : ∀ a b : σ, Same.same (f a) (f b) = Same.same a b)
include hS

theorem merge_mapAt (hm : HomR f m k) (g : G σ) (a b : Nat) (hs : k.smf (f (g.st a)) (f (g.st b)) = (m.smf (g.st a) (g.st b)).map f) :
    merge k (g.map f) a b = ((merge m g a b).1.map f, (merge m g a b).2) := by
  unfold merge
  rw [show ∀ n, (g.map f).st n = f (g.st n) from fun _ => rfl, show ∀ n, (g.map f).st n = f (g.st n) from fun _ => rfl, hs, hm.sense]
  cases m.smf (g.st a) (g.st b) with
  | none => rfl
  | some c =>
    simp only [Option.map_some, makeNode_map hS hm, mergeLow_map hS]
    by_cases h0 : mergeLow g c a b = true
    · rw [if_pos h0, if_pos h0]
    · rw [if_neg h0, if_neg h0]
      generalize makeNode m g c true = r
      have h1 : (if m.sense.better ((r.1.map f).bound a) ((r.1.map f).bound r.2) = true then copyBL (r.1.map f) r.2 a else r.1.map f)
          = G.map f (if m.sense.better (r.1.bound a) (r.1.bound r.2) = true then copyBL r.1 r.2 a else r.1) := by
        rw [show (r.1.map f).bound = r.1.bound from rfl]
        split <;> rfl
      rw [h1]
      generalize (if m.sense.better (r.1.bound a) (r.1.bound r.2) = true then copyBL r.1 r.2 a else r.1) = g1
      refine Prod.ext ?_ rfl
      simp only [show (g1.map f).bound = g1.bound from rfl]
      split <;> rfl

omit hS in
/-- The merged node is not final. -/
theorem merge_open (hm : HomO f m k) {g : G σ} {a b : Nat} (ha : m.eqs (g.st a) = false) (hb : m.eqs (g.st b) = false) {mn : Nat} (h : (merge m g a b).2 = some mn) :
    Held g (merge m g a b).1 ∧ mn < (merge m g a b).1.nn ∧ m.eqs ((merge m g a b).1.st mn) = false := by
  revert h
  unfold merge
  cases hc : m.smf (g.st a) (g.st b) with
  | none => intro h; cases h
  | some c =>
    have ho := hm.opn _ _ _ ha hb hc
    dsimp only
    split
    · intro h; cases h
    · intro h
      rw [Option.some.injEq] at h
      obtain ⟨h1, h2⟩ := makeNode_stay (m := m) g c true
      obtain ⟨_, _, _, h4⟩ := makeNode_ex (m := m) g c true
      rw [h] at h2 h4 ⊢
      have ex : m.eqs ((makeNode m g c true).1.st mn) = false := by
        rcases h4 with ⟨x, _, y⟩ | ⟨x, _, y, _⟩
        · rw [h1.2 mn x, hm.same _ _ y]; exact ho
        · rw [x, y]; exact ho
      generalize (makeNode m g c true).1 = g1 at h1 h2 ex
      have e : ∀ (g1 : G σ) (x : Bool) (i : Nat), Fr g1 { (if x = true then copyBL g1 mn i else g1) with ex := g1.ex } := by
        intro g1 x i
        cases x <;> exact ⟨rfl, rfl, rfl⟩
      have e1 := e g1 (m.sense.better (g1.bound a) (g1.bound mn)) a
      generalize (if m.sense.better (g1.bound a) (g1.bound mn) = true then copyBL g1 mn a else g1) = g2 at e1
      have e2 := e g2 (m.sense.better (g2.bound b) (g2.bound mn)) b
      generalize (if m.sense.better (g2.bound b) (g2.bound mn) = true then copyBL g2 mn b else g2) = g3 at e2
      have s1 : g3.st = g1.st := e2.2.1.trans e1.2.1
      have s2 : g3.nn = g1.nn := e2.2.2.trans e1.2.2
      exact ⟨h1.trans ⟨by rw [s2]; exact Nat.le_refl _, fun i _ => by rw [s1]⟩, by rw [s2]; exact h2, by rw [s1]; exact ex⟩

theorem mergeFind_mapO (hm : HomO f m k) {g : G σ} {n1 : Nat} (h1 : m.eqs (g.st n1) = false) : ∀ (r pre : List Nat), Opn m g r →
    mergeFind k (g.map f) n1 pre r = (mergeFind m g n1 pre r).map (fun x => (x.1.map f, x.2)) ∧
      ∀ g1 mn n2 rest, mergeFind m g n1 pre r = some (g1, mn, n2, rest) → Held g g1 ∧ mn < g1.nn ∧ m.eqs (g1.st mn) = false ∧
        ∀ i, i ∈ rest → i ∈ pre ∨ i ∈ r
  | [], _, _ => ⟨rfl, fun _ _ _ _ h => by cases h⟩
  | n2 :: r, pre, h => by
    obtain ⟨e1, e2⟩ := mergeFind_mapO hm h1 r (pre ++ [n2]) (h.sub fun i hi => List.mem_cons_of_mem _ hi)
    have hb := (h n2 List.mem_cons_self).2
    have hmm := merge_mapAt hS hm.toHomR g n1 n2 (hm.smf _ _ h1 hb)
    have ho := fun mn => merge_open hm (g := g) h1 hb (mn := mn)
    have e3 : ∀ g1 mn n3 rest, mergeFind m g n1 (pre ++ [n2]) r = some (g1, mn, n3, rest) → Held g g1 ∧ mn < g1.nn ∧ m.eqs (g1.st mn) = false ∧
        ∀ i, i ∈ rest → i ∈ pre ∨ i ∈ n2 :: r := by
      intro g1 mn n3 rest he
      obtain ⟨a, b, c, d⟩ := e2 g1 mn n3 rest he
      refine ⟨a, b, c, fun i hi => ?_⟩
      rcases d i hi with d | d
      · rcases List.mem_append.1 d with d | d
        · exact .inl d
        · rw [List.mem_singleton.1 d]; exact .inr List.mem_cons_self
      · exact .inr (List.mem_cons_of_mem _ d)
    unfold mergeFind
    rw [hmm, show (g.map f).kids = g.kids from rfl, show (g.map f).layer = g.layer from rfl]
    generalize merge m g n1 n2 = t at ho
    obtain ⟨g1, o⟩ := t
    split
    · cases o with
      | none => exact ⟨e1, e3⟩
      | some mn =>
        refine ⟨rfl, fun g2 mn' n3 rest he => ?_⟩
        dsimp only at he
        rw [Option.some.injEq, Prod.mk.injEq, Prod.mk.injEq, Prod.mk.injEq] at he
        obtain ⟨rfl, rfl, rfl, rfl⟩ := he
        obtain ⟨a, b, c⟩ := ho mn rfl
        refine ⟨a, b, c, fun i hi => ?_⟩
        rcases List.mem_append.1 hi with hi | hi
        · exact .inl hi
        · exact .inr (List.mem_cons_of_mem _ hi)
    · exact ⟨e1, e3⟩

theorem mergeOne_mapO (hm : HomO f m k) {g : G σ} {n1 : Nat} {rest : List Nat} (skip : List Nat) (h : Opn m g (n1 :: rest) ∨ rest = []) :
    mergeOne k (g.map f) n1 rest skip = ((mergeOne m g n1 rest skip).1.map f, (mergeOne m g n1 rest skip).2) ∧
      Held g (mergeOne m g n1 rest skip).1 ∧ Opn m (mergeOne m g n1 rest skip).1 (mergeOne m g n1 rest skip).2.1 := by
  have key : mergeFind k (g.map f) n1 [] rest = (mergeFind m g n1 [] rest).map (fun x => (x.1.map f, x.2)) ∧
      (∀ g1 mn n2 rest', mergeFind m g n1 [] rest = some (g1, mn, n2, rest') → Held g g1 ∧ Opn m g1 (mn :: rest')) ∧ Opn m g rest := by
    rcases h with h | rfl
    · have h' : Opn m g rest := h.sub fun i hi => List.mem_cons_of_mem _ hi
      obtain ⟨a, b⟩ := mergeFind_mapO hS hm (h n1 List.mem_cons_self).2 rest [] h'
      refine ⟨a, fun g1 mn n2 rest' he => ?_, h'⟩
      obtain ⟨c, d, e, j⟩ := b g1 mn n2 rest' he
      refine ⟨c, fun i hi => ?_⟩
      rcases List.mem_cons.1 hi with rfl | hi
      · exact ⟨d, e⟩
      · rcases j i hi with j | j
        · cases j
        · exact h'.stay c i j
    · exact ⟨rfl, (fun _ _ _ _ he => by cases he), fun i hi => by cases hi⟩
  obtain ⟨k1, k2, k3⟩ := key
  unfold mergeOne
  rw [k1, show (g.map f).kids = g.kids from rfl]
  split
  · generalize mergeFind m g n1 [] rest = t at k2
    cases t with
    | none => exact ⟨rfl, Held.refl g, k3⟩
    | some t =>
      obtain ⟨g1, mn, n2, rest'⟩ := t
      obtain ⟨s1, s2⟩ := k2 g1 mn n2 rest' rfl
      simp only [Option.map_some, mergePair_map]
      have hp : Fr g1 { (mergePair g1 mn n1 n2).1 with ex := g1.ex } := by
        unfold mergePair
        dsimp only
        refine Fr.trans (b := { g1 with ex := g1.ex }) ⟨rfl, rfl, rfl⟩ ⟨rfl, ?_, ?_⟩
        · exact (absorb_fr _ _ _).2.1.trans (absorb_fr _ _ _).2.1
        · exact (absorb_fr _ _ _).2.2.trans (absorb_fr _ _ _).2.2
      have hp : Held g1 (mergePair g1 mn n1 n2).1 := ⟨Nat.le_of_eq hp.2.2.symm, fun i _ => by rw [show (mergePair g1 mn n1 n2).1.st = g1.st from hp.2.1]⟩
      generalize mergePair g1 mn n1 n2 = t at hp
      obtain ⟨g2, a⟩ := t
      have hr : Opn m g1 rest' := s2.sub fun i hi => List.mem_cons_of_mem _ hi
      cases a with
      | delay =>
        simp only
        rw [show (g2.map f).nn = g2.nn from rfl, adjustBounds_map hm.toHomR]
        have := (adjustBounds_fr (m := m) g2.nn g2 mn).stay
        exact ⟨rfl, (s1.trans hp).trans this, hr.stay (hp.trans this)⟩
      | inFront => exact ⟨rfl, s1.trans hp, s2.stay hp⟩
      | noop => exact ⟨rfl, s1.trans hp, hr.stay hp⟩
  · exact ⟨rfl, Held.refl g, k3⟩

theorem mergeLoop_mapO (hm : HomO f m k) (w : Nat) : ∀ (fu : Nat) (g : G σ) (ly sk : List Nat), (Opn m g ly ∨ ly.length ≤ 1) →
    mergeLoop k w fu (g.map f) ly sk = ((mergeLoop m w fu g ly sk).1.map f, (mergeLoop m w fu g ly sk).2) ∧ Held g (mergeLoop m w fu g ly sk).1
  | 0, g, _, _, _ => ⟨rfl, Held.refl g⟩
  | fu + 1, g, ly, sk, h => by
    simp only [mergeLoop]
    split
    · cases ly with
      | nil => exact ⟨rfl, Held.refl g⟩
      | cons n1 rest =>
        have h' : Opn m g (n1 :: rest) ∨ rest = [] := h.imp id fun h => by
          cases rest with
          | nil => rfl
          | cons => simp at h
        obtain ⟨a, b, c⟩ := mergeOne_mapO hS hm sk h'
        dsimp only
        rw [a]
        obtain ⟨d, e⟩ := mergeLoop_mapO hm w fu (mergeOne m g n1 rest sk).1 (mergeOne m g n1 rest sk).2.1 (mergeOne m g n1 rest sk).2.2 (.inl c)
        exact ⟨d, b.trans e⟩
    · exact ⟨rfl, Held.refl g⟩

theorem pull_mapO (hm : HomO f m k) (w : Nat) {g : G σ} {q : LQ} (h : Opn m g q.next ∨ q.next.length ≤ 1) (hr : Opn m g q.rest) :
    q.pull k w (g.map f) = ((q.pull m w g).1.map f, (q.pull m w g).2) ∧ Opn m (q.pull m w g).1 (q.pull m w g).2.2.next ∧
      Opn m (q.pull m w g).1 (q.pull m w g).2.2.rest := by
  have hp := relSort_perm (m := m) g q.next
  have h' : Opn m g (relSort m g q.next) ∨ (relSort m g q.next).length ≤ 1 := h.imp (fun h => h.sub fun i hi => hp.mem_iff.1 hi) fun h => by rw [hp.length_eq]; exact h
  unfold LQ.pull mergeLayer
  rw [relSort_map hm.toHomR]
  obtain ⟨a, b⟩ := mergeLoop_mapO hS hm w ((relSort m g q.next).length + 1) g (relSort m g q.next) [] h'
  rw [a]
  generalize mergeLoop m w ((relSort m g q.next).length + 1) g (relSort m g q.next) [] = t at b
  obtain ⟨g1, ly⟩ := t
  have hr := hr.stay b
  cases hq : q.rest with
  | nil => exact ⟨rfl, fun i (hi : i ∈ []) => (by cases hi), fun i (hi : i ∈ []) => (by cases hi)⟩
  | cons n t =>
    rw [hq] at hr
    dsimp only
    exact ⟨rfl, hr.sub fun i hi => (List.takeWhile_sublist _).subset hi, hr.sub fun i hi => (List.dropWhile_sublist _).subset hi⟩

theorem relLoop_mapO (hm : HomO f m k) (p : Int) (w : Nat) : ∀ (fu : Nat) (g : G σ) (q : LQ), (Opn m g q.next ∨ q.next.length ≤ 1) → Opn m g q.rest →
    relLoop k p w fu (g.map f) q = (relLoop m p w fu g q).map (G.map f)
  | 0, _, _, _, _ => rfl
  | fu + 1, g, q, h1, h2 => by
    obtain ⟨a, b, c⟩ := pull_mapO hS hm w h1 h2
    simp only [relLoop]
    rw [a]
    simp only [relNodes_map hS hm.toHomR]
    split
    · rfl
    · obtain ⟨d, e⟩ := relNodes_open (m := m) (prim := p) (q.pull m w g).2.1 (q.pull m w g).1 (q.pull m w g).2.2 b c
      exact relLoop_mapO hm p w fu _ _ (.inl d) e

theorem relaxed_mapO (hm : HomO f m k) (p : Int) (w fu : Nat) (r : Src σ) : relaxed k p w fu (r.map f) = (relaxed m p w fu r).map (G.map f) := by
  simp only [relaxed, start2_map hS hm.toHomR]
  rw [show (G.map f (start2 m r)).root = (start2 m r).root from rfl,
    show LQ.enQueue (G.map f (start2 m r)) ⟨[], []⟩ (start2 m r).root = LQ.enQueue (start2 m r) ⟨[], []⟩ (start2 m r).root from rfl,
    relLoop_mapO hS hm _ _ _ _ _ (.inr (Nat.le_refl _)) (fun i hi => by cases hi)]
  cases relLoop m p w fu (start2 m r) (LQ.enQueue (start2 m r) ⟨[], []⟩ (start2 m r).root) with
  | none => rfl
  | some g =>
    simp only [Option.map_some, Option.bind_some]
    rw [show (G.map f g).trg = g.trg from rfl, tighten_map hm.toHomR, computeBestBackward_map hm.toHomR]

end Verif.DD

namespace Verif.BB
open Verif.DD
variable {σ κ : Type} {f : σ → κ} {m : Mdl σ} {k : Mdl κ} [Same σ] [Same κ]

theorem loopP_mapO (hS : ∀ a b : σ, Same.same (f a) (f b) = Same.same a b) (hm : HomO f m k) (w fu : Nat) (lim : Nat → Bool) :
    ∀ (n i : Nat) (s : BS σ), loopP k (fun _ _ => k) (fun _ _ => k.loc) w fu lim n i (s.map f) =
      (loopP m (fun _ _ => m) (fun _ _ => m.loc) w fu lim n i s).map (BS.map f)
  | 0, _, _ => rfl
  | n + 1, i, s => by
    unfold loopP
    rw [show (s.map f).pq = s.pq from rfl, show qord k = qord m by unfold qord; rw [hm.sense], hm.sense]
    by_cases h1 : Heap.empty s.pq = true
    · rw [if_pos h1, if_pos h1]; rfl
    · rw [if_neg h1, if_neg h1]
      simp only []
      by_cases h2 : lim i = true
      · rw [if_pos h2, if_pos h2]; rfl
      · rw [if_neg h2, if_neg h2]
        rw [show (s.map f).primal = s.primal from rfl]
        have key := expandP_mapR hS hm.toHomR (M := fun _ => m) (K := fun _ => k) (fun _ => hm.toHomR) (lc := fun _ => m.loc) (lc' := fun _ => k.loc)
          (fun _ => hm.loc) w fu { s with pq := (Heap.extractMax (qord m) s.pq).1 }
          (Heap.extractMax (qord m) s.pq).2.1 (relaxed_mapO hS hm _ _ _ _)
        split
        · refine Eq.trans (congrArg (fun x => Option.bind x _) key) ?_
          cases expandP m (fun _ => m) (fun _ => m.loc) w fu { s with pq := (Heap.extractMax (qord m) s.pq).1 } (Heap.extractMax (qord m) s.pq).2.1 with
          | none => rfl
          | some s' => exact loopP_mapO hS hm w fu lim n (i + 1) s'
        · exact loopP_mapO hS hm w fu lim n (i + 1) { s with pq := (Heap.extractMax (qord m) s.pq).1 }

theorem search_mapO (hS : ∀ a b : σ, Same.same (f a) (f b) = Same.same a b) (hm : HomO f m k) (w fu : Nat) (lim : Nat → Bool) (n : Nat) (p0 : Int) :
    search k w fu lim n p0 = (search m w fu lim n p0).map (BS.map f) := by
  unfold search searchP searchT
  rw [show init k w p0 = (init m w p0).map f by
    simp only [init, hm.sense, hm.loc, hm.sti, show qord k = qord m by unfold qord; rw [hm.sense]]
    cases k.loc <;> rfl]
  exact loopP_mapO hS hm w fu lim n 0 _

end Verif.BB

namespace Verif.Ex
open Verif.DD
variable {σ κ : Type}

section
variable [DecidableEq σ] {m m' : Mdl σ}

theorem homO_id (hm : m' = { m with
      smf := m'.smf }) (hs : ∀ a b, m.eqs a = false → m.eqs b = false → m'.smf a b = m.smf a b)
    (ho : ∀ a b c, m.eqs a = false → m.eqs b = false → m.smf a b = some c → m.eqs c = false) : HomO (id : σ → σ) m m' where
  sense := by rw [hm]
  sti := by rw [hm]; rfl
  stt := by rw [hm]; rfl
  lgf := fun s => by rw [hm]; rfl
  stf := fun s l => by rw [hm]; show m.stf s l = _; cases m.stf s l <;> rfl
  stc := fun s l => by rw [hm]; rfl
  eqs := fun s => by rw [hm]; rfl
  loc := by rw [hm]; show m.loc = m.loc.map _; cases m.loc <;> rfl
  sdom := by rw [hm]; show m.sdom = m.sdom.map _; cases m.sdom <;> rfl
  smf := fun a b ha hb => by rw [show m'.smf (id a) (id b) = m.smf a b from hs a b ha hb]; cases m.smf a b <;> rfl
  opn := ho
  same := fun a b h => by rw [(same_iff a b).1 h]

/-- C149: what the merge function says of final states changes nothing of a search, when a merge of two states that are
not final is not final. -/
theorem merge_final_search (hm : m' = { m with
      smf := m'.smf }) (hs : ∀ a b, m.eqs a = false → m.eqs b = false → m'.smf a b = m.smf a b)
    (ho : ∀ a b c, m.eqs a = false → m.eqs b = false → m.smf a b = some c → m.eqs c = false)
    (w fu : Nat) (lim : Nat → Bool) (n : Nat) (p0 : Int) : BB.search m' w fu lim n p0 = BB.search m w fu lim n p0 := by
  rw [BB.search_mapO (fun _ _ => rfl) (homO_id hm hs ho)]
  cases BB.search m w fu lim n p0 <;> rfl

/-- C149: the same for one relaxed diagram, from any node, final or not. -/
theorem merge_final_relaxed (hm : m' = { m with
      smf := m'.smf }) (hs : ∀ a b, m.eqs a = false → m.eqs b = false → m'.smf a b = m.smf a b)
    (ho : ∀ a b c, m.eqs a = false → m.eqs b = false → m.smf a b = some c → m.eqs c = false)
    (p : Int) (w fu : Nat) (r : Src σ) : relaxed m' p w fu r = relaxed m p w fu r := by
  refine (relaxed_mapO (f := id) (fun _ _ => rfl) (homO_id hm hs ho) p w fu r).trans ?_
  cases relaxed m p w fu r <;> rfl

end

/-- A model whose states 8 and 9 are final, in which 1 and 2 merge to 8. -/
def mo8 (c : Nat → Nat → Option Nat) : Mdl Nat where
  sense := .max
  sti := 0
  stt := 9
  lgf := fun s => if s = 0 then [1, 2, 3] else [0]
  stf := fun s l => if s = 0 then some l.toNat else some 9
  stc := fun s _ => if s = 4 then 100 else 1
  smf := fun a b => if a + b = 3 then some 8 else c a b
  eqs := fun s => s == 8 || s == 9
  loc := none
  sdom := none

/-- C149: without that proviso it is false.  The two models below differ in what they say of the final state 8. -/
theorem merge_final_false : (∀ a b, (mo8 fun _ _ => none).eqs a = false → (mo8 fun _ _ => none).eqs b = false →
      (mo8 fun a b => if a = 8 ∨ b = 8 then some 4 else none).smf a b = (mo8 fun _ _ => none).smf a b) ∧
    (relaxed (mo8 fun _ _ => none) (-1000) 1 10 (mo8 fun _ _ => none).src0).map (fun g => g.bound g.trg) ≠
    (relaxed (mo8 fun a b => if a = 8 ∨ b = 8 then some 4 else none) (-1000) 1 10 (mo8 fun _ _ => none).src0).map (fun g => g.bound g.trg) := by
  refine ⟨fun a b ha hb => ?_, by decide +kernel⟩
  show (if a + b = 3 then some 8 else if a = 8 ∨ b = 8 then some 4 else none) = if a + b = 3 then some 8 else none
  have h1 : a ≠ 8 := by rintro rfl; cases ha
  have h2 : b ≠ 8 := by rintro rfl; cases hb
  rw [if_neg (show ¬ (a = 8 ∨ b = 8) by omega)]

/-- The invariant holds at the root and the sink, and transitions and the merges of states that are not final keep it. -/
structure KeptO (P : σ → Prop) (m : Mdl σ) : Prop where
  sti : P m.sti
  stt : P m.stt
  stf : ∀ s l t, P s → m.stf s l = some t → P t
  smf : ∀ a b c, P a → P b → m.eqs a = false → m.eqs b = false → m.smf a b = some c → P c

/-- `HomOn`, with merges asked only of states that are not final. -/
structure HomOnO (P : σ → Prop) (f : σ → κ) (m : Mdl σ) (k : Mdl κ) : Prop where
  sense : k.sense = m.sense
  sti : k.sti = f m.sti
  stt : k.stt = f m.stt
  lgf : ∀ s, P s → k.lgf (f s) = m.lgf s
  stf : ∀ s l, P s → k.stf (f s) l = (m.stf s l).map f
  stc : ∀ s l, P s → k.stc (f s) l = m.stc s l
  smf : ∀ a b, P a → P b → m.eqs a = false → m.eqs b = false → k.smf (f a) (f b) = (m.smf a b).map f
  eqs : ∀ s, P s → k.eqs (f s) = m.eqs s
  loc : (m.loc.isSome = k.loc.isSome) ∧ ∀ h h', m.loc = some h → k.loc = some h' → ∀ s c, P s → h s c = h' (f s) c
  sdom : (m.sdom.isSome = k.sdom.isSome) ∧ ∀ h h', m.sdom = some h → k.sdom = some h' → ∀ a b, P a → P b → h a b = h' (f a) (f b)

/-- The model with merges refused when a state is final. -/
def _root_.Verif.DD.Mdl.cut (m : Mdl σ) : Mdl σ := { m with
  smf := fun a b => if m.eqs a = false ∧ m.eqs b = false then m.smf a b else none }

theorem KeptO.cut {P : σ → Prop} {m : Mdl σ} (h : KeptO P m) : Kept P m.cut where
  sti := h.sti
  stt := h.stt
  stf := h.stf
  smf := fun a b c ha hb he => by
    have he : (if m.eqs a = false ∧ m.eqs b = false then m.smf a b else none) = some c := he
    split at he
    · rename_i hc; exact h.smf a b c ha hb hc.1 hc.2 he
    · cases he

theorem HomOnO.cut {P : σ → Prop} {f : σ → κ} {m : Mdl σ} {k : Mdl κ} (h : HomOnO P f m k) : HomOn P f m.cut k.cut where
  sense := h.sense
  sti := h.sti
  stt := h.stt
  lgf := h.lgf
  stf := h.stf
  stc := h.stc
  smf := fun a b ha hb => by
    show (if k.eqs (f a) = false ∧ k.eqs (f b) = false then k.smf (f a) (f b) else none) = (if m.eqs a = false ∧ m.eqs b = false then m.smf a b else none).map f
    rw [h.eqs a ha, h.eqs b hb]
    split
    · rename_i hc; exact h.smf a b ha hb hc.1 hc.2
    · rfl
  eqs := h.eqs
  loc := h.loc
  sdom := h.sdom

/-- `state_equality_on` with merges asked only of states that are not final. -/
theorem state_equality_open [DecidableEq κ] {P : σ → Prop} {f : σ → κ} {n : Nat} {eqv : σ → σ → Bool} {hash : σ → Nat} {m : Mdl σ} {k : Mdl κ}
    (hP : KeptO P m) (hf : HomOnO P f m k) (ho : ∀ a b c, k.eqs a = false → k.eqs b = false → k.smf a b = some c → k.eqs c = false)
    (he : ∀ a b, P a → P b → (eqv a b = true ↔ f a = f b)) (hh : ∀ a b, P a → P b → f a = f b → hash a = hash b)
    (w fu : Nat) (lim : Nat → Bool) (N : Nat) (p0 : Int) :
    (@BB.search σ (tabSame n eqv hash) m w fu lim N p0).map (fun s => (s.primal, s.inc, s.sols, s.stopped, s.wrel, s.log, s.pq)) =
      (BB.search k w fu lim N p0).map (fun s => (s.primal, s.inc, s.sols, s.stopped, s.wrel, s.log, s.pq)) := by
  let eq' : {s // P s} → {s // P s} → Bool := fun a b => eqv a.1 b.1
  let ha' : {s // P s} → Nat := fun a => hash a.1
  have hc := hP.cut
  have hopn : ∀ a b c : {s // P s}, (m.cut.sub hc).eqs a = false → (m.cut.sub hc).eqs b = false → (m.cut.sub hc).smf a b = some c → (m.cut.sub hc).eqs c = false := by
    intro a b c h1 h2 h3
    have h4 : k.cut.smf (f a.1) (f b.1) = some (f c.1) := by
      rw [(hf.cut.sub hc).smf a b, h3]; rfl
    have h5 : k.smf (f a.1) (f b.1) = some (f c.1) := by
      have h4 : (if k.eqs (f a.1) = false ∧ k.eqs (f b.1) = false then k.smf (f a.1) (f b.1) else none) = _ := h4
      split at h4
      · exact h4
      · cases h4
    have h6 := ho _ _ _ ((hf.eqs a.1 a.2).trans h1) ((hf.eqs b.1 b.2).trans h2) h5
    exact (hf.eqs c.1 c.2).symm.trans h6
  have hsame : ∀ a b : {s // P s}, (tabSame n eq' ha').same a b = true → (m.cut.sub hc).eqs a = (m.cut.sub hc).eqs b := by
    intro a b h
    have h : (eqv a.1 b.1 && hash a.1 % n == hash b.1 % n) = true := h
    rw [Bool.and_eq_true] at h
    show m.eqs a.1 = m.eqs b.1
    rw [← hf.eqs a.1 a.2, ← hf.eqs b.1 b.2, (he a.1 b.1 a.2 b.2).1 h.1]
  have ho1 : @HomO _ _ (tabSame n eq' ha') Subtype.val (m.cut.sub hc) m := @HomO.mk _ _ (tabSame n eq' ha') _ _ _
    ⟨rfl, rfl, rfl, fun _ => rfl, fun _ _ => pmap_val _ _, fun _ _ => rfl, fun _ => rfl, rfl, rfl⟩
    (fun a b h1 h2 => by
      have h := (m.cut.sub_val hc).smf a b
      rw [← h]
      show _ = if m.eqs a.1 = false ∧ m.eqs b.1 = false then m.smf a.1 b.1 else none
      rw [if_pos ⟨h1, h2⟩]) hopn hsame
  have ho2 : @HomO _ _ (tabSame n eq' ha') (fun s : {s // P s} => f s.1) (m.cut.sub hc) k := @HomO.mk _ _ (tabSame n eq' ha') _ _ _
    ⟨hf.sense, hf.sti, hf.stt, (hf.cut.sub hc).lgf, (hf.cut.sub hc).stf, (hf.cut.sub hc).stc, (hf.cut.sub hc).eqs, (hf.cut.sub hc).loc, (hf.cut.sub hc).sdom⟩
    (fun a b h1 h2 => by
      have h := (hf.cut.sub hc).smf a b
      rw [← h]
      show _ = if k.eqs (f a.1) = false ∧ k.eqs (f b.1) = false then k.smf (f a.1) (f b.1) else none
      rw [if_pos ⟨(hf.eqs a.1 a.2).trans h1, (hf.eqs b.1 b.2).trans h2⟩]) hopn hsame
  have h1 := @BB.search_mapO _ _ _ _ _ (tabSame n eq' ha') (tabSame n eqv hash) (fun _ _ => rfl) ho1 w fu lim N p0
  have h2 := @BB.search_mapO _ _ _ _ _ (tabSame n eq' ha') _
    (tabSame_same (f := fun s : {s // P s} => f s.1) (fun a b => he a.1 b.1 a.2 b.2) (fun a b => hh a.1 b.1 a.2 b.2)) ho2 w fu lim N p0
  rw [h1, h2, Option.map_map, Option.map_map]
  rfl

end Verif.Ex
