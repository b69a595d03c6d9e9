import Verif.DDFinal
/-!
# Restricted diagrams contain only real paths (layered or not)
-/
namespace Verif.DD
set_option linter.unusedSectionVars false
variable {σ : Type} {m : Mdl σ} {r : Src σ} {prim : Int}

/-- Path costs from the root stay in range of the sentinel. -/
def InRange (m : Mdl σ) (r : Src σ) : Prop :=
  ∀ ls c t, Path m r.st ls c t → m.sense.better (r.bound + c) m.sense.best0 = true

structure RInv (m : Mdl σ) (r : Src σ) (g : G σ) (q : List Nat) : Prop where
  root : g.root = 0
  trg : g.trg = 1
  two : 2 ≤ g.nn
  st0 : g.st 0 = r.st
  st1 : g.st 1 = m.stt
  pe : ∀ i e, e ∈ g.par i → e < g.ne
  esl : ∀ e, e < g.ne → g.es e < g.nn
  gen : ∀ i, Lv g i → Gen m r g i
  est : ∀ e, e ∈ g.par 1 → Lv g (g.es e) ∧ Step m (g.st (g.es e)) (g.el e) m.stt ∧
    g.eo e = m.stc (g.st (g.es e)) (g.el e)
  trg0 : g.par 1 = [] → g.bound 1 = m.sense.best0
  pge : ∀ i, g.nn ≤ i → g.par i = []
  ql : ∀ i, i ∈ q → Lv g i ∧ m.eqs (g.st i) = false
  rch : ∀ i, i < g.nn → i ≠ 1 → ∃ ls c, Path m r.st ls c (g.st i)

theorem RInv.setAn {g : G σ} {q : List Nat} (h : RInv m r g q) (x : List Nat) :
    RInv m r { g with an := x } q := { h with }
theorem RInv.bb {g : G σ} {q : List Nat} (h : RInv m r g q) (x : Nat → Int) :
    RInv m r { g with bb := x } q := { h with }
theorem RInv.setExact {g : G σ} {q : List Nat} (h : RInv m r g q) (x : Bool) :
    RInv m r { g with exact := x } q := { h with }
theorem RInv.sub {g : G σ} {q q' : List Nat} (h : RInv m r g q) (hq : ∀ i, i ∈ q' → i ∈ q) :
    RInv m r g q' := { h with ql := fun i hi => h.ql i (hq i hi) }
theorem RInv.snoc {g : G σ} {q : List Nat} {c : Nat} (h : RInv m r g q)
    (hc : Lv g c ∧ m.eqs (g.st c) = false) : RInv m r g (q ++ [c]) :=
  { h with
    ql := fun i hi => by
      rcases List.mem_append.1 hi with x | x
      · exact h.ql i x
      · simp at x; subst x; exact hc }

theorem link_fields (g : G σ) (p c : Nat) (l : Int) :
    (link m g p c l).st = g.st ∧ (link m g p c l).nn = g.nn ∧ (link m g p c l).ne = g.ne + 1 ∧
    (link m g p c l).es = upd g.es g.ne p ∧ (link m g p c l).el = upd g.el g.ne l ∧
    (link m g p c l).eo = upd g.eo g.ne (m.stc (g.st p) l) ∧
    (link m g p c l).par = (if p = c then g.par else upd g.par c (g.par c ++ [g.ne])) ∧
    (link m g p c l).bound = (if m.sense.better (g.bound p + m.stc (g.st p) l) (g.bound c)
        then upd g.bound c (g.bound p + m.stc (g.st p) l) else g.bound) ∧
    (link m g p c l).lab = (if m.sense.better (g.bound p + m.stc (g.st p) l) (g.bound c)
        then upd g.lab c (g.lab p ++ [l]) else g.lab) ∧
    (link m g p c l).root = g.root ∧ (link m g p c l).trg = g.trg := by
  by_cases h : p = c
  · subst h
    have h1 : addEdge g p p l (m.stc (g.st p) l) = { g with
        es := upd g.es g.ne p, ed := upd g.ed g.ne p, el := upd g.el g.ne l, eo := upd g.eo g.ne (m.stc (g.st p) l)
        ne := g.ne + 1
        efix := upd (upd g.efix g.ne (g.kids p).length) g.ne (g.kids p ++ [g.ne]).length
        kids := upd (upd g.kids p (g.kids p ++ [g.ne])) p (g.kids p ++ [g.ne] ++ [g.ne]) } := by
      unfold addEdge addArc addArcNode
      simp
    unfold link
    simp only [h1, if_true]
    by_cases hb : m.sense.better (g.bound p + m.stc (g.st p) l) (g.bound p) = true
    · simp [hb]
    · simp [hb]
  · rw [link_eq m g p c l h]
    simp [h]

theorem link_r (hR : InRange m r) {g : G σ} {q : List Nat} (h : RInv m r g q) {p c : Nat} {l : Int} {s' : σ}
    (hp : Lv g p) (hq : m.eqs (g.st p) = false) (hl : l ∈ m.lgf (g.st p)) (hs : m.stf (g.st p) l = some s')
    (hc : c < g.nn)
    (hcase : (g.st c = s' ∧ (¬ Lv g c → g.bound c = m.sense.best0)) ∨
      (m.sense.better (g.bound p + m.stc (g.st p) l) (g.bound c) = false ∧ Lv g c ∧ c ≠ 1)) :
    RInv m r (link m g p c l) q ∧ Lv (link m g p c l) c := by
  obtain ⟨f1, f2, f3, f4, f5, f6, f7, f8, f9, f10, f11⟩ := link_fields (m := m) g p c l
  generalize link m g p c l = g' at *
  have two := h.two
  have hmono : ∀ i, Lv g i → Lv g' i := by
    rintro i ⟨a, b⟩
    refine ⟨by omega, ?_⟩
    rcases b with b | b
    · exact Or.inl b
    · right
      rw [f7]
      split
      · exact b
      · rw [upd_apply]; split
        · simp
        · exact b
  have hconv : ∀ i, Lv g' i → Lv g i ∨ i = c := by
    rintro i ⟨a, b⟩
    by_cases hic : i = c
    · exact Or.inr hic
    · left
      refine ⟨by omega, ?_⟩
      rcases b with b | b
      · exact Or.inl b
      · right
        rw [f7] at b
        split at b
        · exact b
        · rwa [upd_ne _ _ hic] at b
  have hcl : Lv g' c := by
    by_cases hpc : p = c
    · subst hpc; exact hmono _ hp
    · refine ⟨by omega, Or.inr ?_⟩
      rw [f7, if_neg hpc, upd_same]; simp
  obtain ⟨ls, hlab, hpath⟩ := h.gen p hp
  have hgenc : Gen m r g' c := by
    rcases hcase with ⟨a, b⟩ | ⟨a, b, b'⟩
    · have hst : Step m (g.st p) l (g.st c) := ⟨hq, hl, by rw [a]; exact hs⟩
      by_cases hb : m.sense.better (g.bound p + m.stc (g.st p) l) (g.bound c) = true
      · refine ⟨ls ++ [l], ?_, ?_⟩
        · rw [f9, if_pos hb, upd_same, hlab, List.append_assoc]
        · rw [f8, if_pos hb, upd_same, f1]
          have := hpath.snoc hst
          have he : g.bound p + m.stc (g.st p) l - r.bound = g.bound p - r.bound + m.stc (g.st p) l := by omega
          rw [he]; exact this
      · have hcl' : Lv g c := by
          by_cases hx : Lv g c
          · exact hx
          · rw [b hx] at hb
            have := hR _ _ _ (hpath.snoc hst)
            have he : r.bound + (g.bound p - r.bound + m.stc (g.st p) l) = g.bound p + m.stc (g.st p) l := by omega
            rw [he] at this
            exact absurd this hb
        have := h.gen c hcl'
        unfold Gen
        rw [f9, f8, if_neg hb, if_neg hb, f1]; exact this
    · have := h.gen c b
      unfold Gen
      rw [f9, f8, a]
      simp only [Bool.false_eq_true, if_false]
      rw [f1]; exact this
  refine ⟨?_, hcl⟩
  constructor
  · rw [f10]; exact h.root
  · rw [f11]; exact h.trg
  · omega
  · rw [f1]; exact h.st0
  · rw [f1]; exact h.st1
  · intro i e he
    rw [f7] at he
    rw [f3]
    split at he
    · have := h.pe i e he; omega
    · rw [upd_apply] at he
      split at he
      · rcases List.mem_append.1 he with x | x
        · have := h.pe _ e x; omega
        · simp at x; omega
      · have := h.pe i e he; omega
  · intro e he
    rw [f4, upd_apply, f2]
    split
    · exact hp.1
    · exact h.esl e (by omega)
  · intro i hi
    by_cases hic : i = c
    · subst hic; exact hgenc
    · have := h.gen i ((hconv i hi).resolve_right hic)
      have e1 : g'.bound i = g.bound i := by
        rw [f8]; split
        · rw [upd_ne _ _ hic]
        · rfl
      have e2 : g'.lab i = g.lab i := by
        rw [f9]; split
        · rw [upd_ne _ _ hic]
        · rfl
      unfold Gen
      rw [e1, e2, f1]; exact this
  · have hold : ∀ e, e ∈ g.par 1 → Lv g' (g'.es e) ∧ Step m (g'.st (g'.es e)) (g'.el e) m.stt ∧
        g'.eo e = m.stc (g'.st (g'.es e)) (g'.el e) := by
      intro e he
      have h1 := h.pe 1 e he
      have h2 : e ≠ g.ne := by omega
      rw [f4, f5, f6, f1, upd_ne _ _ h2, upd_ne _ _ h2, upd_ne _ _ h2]
      obtain ⟨a, b⟩ := h.est e he
      exact ⟨hmono _ a, b⟩
    intro e he
    rw [f7] at he
    split at he
    · exact hold e he
    · rw [upd_apply] at he
      split at he
      · rename_i h1c
        rcases List.mem_append.1 he with x | x
        · exact hold e (by rw [h1c]; exact x)
        · simp at x
          subst x
          rw [f4, f5, f6, f1, upd_same, upd_same, upd_same]
          refine ⟨hmono _ hp, ⟨hq, hl, ?_⟩, rfl⟩
          rcases hcase with ⟨a, _⟩ | ⟨_, _, b⟩
          · rw [hs, ← a, ← h1c, h.st1]
          · exact absurd h1c.symm b
      · exact hold e he
  · intro hn
    have hcn : g.par 1 = [] := by
      rw [f7] at hn
      split at hn
      · exact hn
      · rw [upd_apply] at hn
        split at hn
        · simp at hn
        · exact hn
    by_cases h1c : c = 1
    · exfalso
      have := hcl.2
      rw [h1c] at this
      rcases this with x | x
      · omega
      · exact x hn
    · have := h.trg0 hcn
      rw [f8]
      split
      · rw [upd_ne _ _ (Ne.symm h1c)]; exact this
      · exact this
  · intro i hi
    rw [f7]
    rw [f2] at hi
    split
    · exact h.pge i hi
    · rw [upd_ne _ _ (by omega)]; exact h.pge i hi
  · intro i hi
    obtain ⟨a, b⟩ := h.ql i hi
    rw [f1]; exact ⟨hmono _ a, b⟩
  · rw [f2, f1]; exact h.rch

section
variable [Same σ]

theorem makeNode_r (hU : Uniq m r.st) {g : G σ} {q : List Nat} (h : RInv m r g q) (s : σ) (pe : Bool)
    (hr : ∃ ls c, Path m r.st ls c s) :
    RInv m r (makeNode m g s pe).1 q ∧ (makeNode m g s pe).2 < (makeNode m g s pe).1.nn ∧
    (makeNode m g s pe).1.st (makeNode m g s pe).2 = s ∧
    (¬ Lv (makeNode m g s pe).1 (makeNode m g s pe).2 →
      (makeNode m g s pe).1.bound (makeNode m g s pe).2 = m.sense.best0) ∧
    (∀ i, Lv g i → Lv (makeNode m g s pe).1 i ∧ (makeNode m g s pe).1.st i = g.st i ∧
      (makeNode m g s pe).1.bound i = g.bound i) := by
  have two := h.two
  unfold makeNode
  cases hf : findNode g s with
  | some a =>
    obtain ⟨ha, hs⟩ := findNode_some hf
    have hs : g.st a = s := by
      obtain ⟨ls, c, hr⟩ := hr
      by_cases h1 : a = 1
      · subst h1; rw [h.st1] at hs ⊢; exact (hU.sink _ _ _ hr hs).symm
      · obtain ⟨ls', c', hr'⟩ := h.rch a ha h1
        exact hU.uniq _ _ _ _ _ _ hr' hr hs
    dsimp only
    split
    · rename_i hc
      have hc0 : a ≠ 0 := by rw [h.root] at hc; exact hc.2.1
      have hc1 : a ≠ 1 := by rw [h.trg] at hc; exact hc.2.2
      have hcp : g.par a = [] := by simpa using hc.1
      have hnl : ∀ i, Lv g i → i ≠ a := by
        rintro i ⟨_, b⟩ rfl
        exact b.elim hc0 (fun x => x hcp)
      refine ⟨{ h with
        gen := fun i hi => ?_
        trg0 := fun hn => ?_ }, ha, hs, fun _ => by simp, fun i hi => ⟨hi, rfl, ?_⟩⟩
      · have := h.gen i hi
        unfold Gen
        dsimp only
        rw [upd_ne _ _ (hnl i hi)]; exact this
      · dsimp only
        rw [upd_ne _ _ (Ne.symm hc1)]; exact h.trg0 hn
      · dsimp only
        rw [upd_ne _ _ (hnl i hi)]
    · rename_i hc
      refine ⟨{ h with }, ha, hs, ?_, fun i hi => ⟨hi, rfl, rfl⟩⟩
      intro hl
      have hx : a ≠ 0 ∧ g.par a = [] := by
        constructor
        · intro hh; exact hl ⟨ha, Or.inl hh⟩
        · rcases hpa : g.par a with _ | ⟨x, xs⟩
          · rfl
          · exact absurd ⟨ha, Or.inr (by show g.par a ≠ []; rw [hpa]; simp)⟩ hl
      have h1 : a = 1 := by
        rcases Nat.decEq a 1 with z | z
        · exfalso; apply hc
          rw [h.root, h.trg]
          exact ⟨by simp [hx.2], hx.1, z⟩
        · exact z
      subst h1
      exact h.trg0 hx.2
  | none =>
    dsimp only
    have hlv : ∀ (g' : G σ) i, g'.nn = g.nn + 1 → g'.par = upd g.par g.nn [] → (Lv g' i ↔ Lv g i) := by
      intro g' i h1 h2
      simp only [Lv, h1, h2]
      constructor
      · rintro ⟨a, b | b⟩
        · exact ⟨by omega, Or.inl b⟩
        · by_cases hi : i = g.nn
          · rw [hi, upd_same] at b; exact absurd rfl b
          · rw [upd_ne _ _ hi] at b; exact ⟨by omega, Or.inr b⟩
      · rintro ⟨a, b | b⟩
        · exact ⟨by omega, Or.inl b⟩
        · rw [upd_ne _ _ (by omega)]; exact ⟨by omega, Or.inr b⟩
    have hpar : ∀ i, upd g.par g.nn [] i = g.par i := by
      intro i
      rw [upd_apply]; split
      · rename_i hi; rw [hi, h.pge _ (Nat.le_refl _)]
      · rfl
    refine ⟨?_, Nat.lt_succ_self _, upd_same _ _ _, fun _ => upd_same _ _ _, fun i hi => ?_⟩
    · constructor
      · exact h.root
      · exact h.trg
      · show 2 ≤ g.nn + 1; omega
      · show upd g.st g.nn s 0 = _; rw [upd_ne _ _ (by omega)]; exact h.st0
      · show upd g.st g.nn s 1 = _; rw [upd_ne _ _ (by omega)]; exact h.st1
      · intro i e he
        have he : e ∈ upd g.par g.nn [] i := he
        rw [hpar] at he
        exact h.pe i e he
      · intro e he
        have := h.esl e he
        show g.es e < g.nn + 1; omega
      · intro i hi
        rw [hlv _ i rfl rfl] at hi
        have := h.gen i hi
        have hi' : i ≠ g.nn := by have := hi.1; omega
        unfold Gen
        dsimp only
        rw [upd_ne _ _ hi', upd_ne _ _ hi', upd_ne _ _ hi']; exact this
      · intro e he
        have he : e ∈ upd g.par g.nn [] 1 := he
        rw [hpar] at he
        obtain ⟨a, b, c⟩ := h.est e he
        have : g.es e ≠ g.nn := by have := a.1; omega
        rw [hlv _ _ rfl rfl]
        show Lv g (g.es e) ∧ Step m (upd g.st g.nn s (g.es e)) _ _ ∧ _ = m.stc (upd g.st g.nn s (g.es e)) _
        rw [upd_ne _ _ this]
        exact ⟨a, b, c⟩
      · intro hn
        have hn : upd g.par g.nn [] 1 = [] := hn
        rw [hpar] at hn
        show upd g.bound g.nn _ 1 = _
        rw [upd_ne _ _ (by omega)]; exact h.trg0 hn
      · intro i hi
        show upd g.par g.nn [] i = []
        rw [hpar]
        exact h.pge i (by have : g.nn + 1 ≤ i := hi; omega)
      · intro i hi
        obtain ⟨a, b⟩ := h.ql i hi
        rw [hlv _ _ rfl rfl]
        show _ ∧ m.eqs (upd g.st g.nn s i) = false
        rw [upd_ne _ _ (by have := a.1; omega)]; exact ⟨a, b⟩
      · intro i hi h1
        have hi : i < g.nn + 1 := hi
        show ∃ ls c, Path m r.st ls c (upd g.st g.nn s i)
        rw [upd_apply]; split
        · exact hr
        · exact h.rch i (by omega) h1
    · have hi' : i ≠ g.nn := by have := hi.1; omega
      rw [hlv _ i rfl rfl]
      exact ⟨hi, upd_ne _ _ hi', upd_ne _ _ hi'⟩

theorem visit_none {m : Mdl σ} {cands : List Nat} {g g1 : G σ} {p c : Nat} {l : Int}
    (ht : transition m prim g p l = (g1, some c))
    (hd : (if (g1.par c).isEmpty then findDom m g1 cands c (g1.bound p + m.stc (g1.st p) l) else none) = none) :
    visit m prim cands g p l =
      (link m g1 p c l, if (g1.par c).isEmpty && !(m.eqs (g1.st c)) then some c else none) := by
  have hst : (link m g1 p c l).st = g1.st := (link_fields g1 p c l).1
  rw [show m.eqs (g1.st c) = m.eqs ((link m g1 p c l).st c) by rw [hst]]
  unfold visit
  rw [ht]
  simp only [hd, Option.isSome_none, Bool.false_eq_true, if_false, Option.getD_none, Option.isNone_none, Bool.true_and]
  rfl

theorem visit_dom {m : Mdl σ} {cands : List Nat} {g g1 : G σ} {p c w : Nat} {l : Int}
    (ht : transition m prim g p l = (g1, some c))
    (hd : (if (g1.par c).isEmpty then findDom m g1 cands c (g1.bound p + m.stc (g1.st p) l) else none) = some w) :
    visit m prim cands g p l = (link m { g1 with an := g1.an.dropLast } p w l, none) := by
  unfold visit
  rw [ht]
  simp only [hd, Option.isSome_some, if_true, Option.getD_some, Option.isNone_some, Bool.false_and, Bool.false_eq_true, if_false]
  rfl

theorem Lv.link {g : G σ} {p c i : Nat} {l : Int} (h : Lv g i) : Lv (link m g p c l) i := by
  obtain ⟨_, f2, _, _, _, _, f7, _⟩ := link_fields (m := m) g p c l
  refine ⟨by rw [f2]; exact h.1, ?_⟩
  rcases h.2 with z | z
  · exact Or.inl z
  · right; rw [f7]; split
    · exact z
    · rw [upd_apply]; split
      · simp
      · exact z

theorem visit_r (hS : m.eqs m.stt = true) (hU : Uniq m r.st) (hR : InRange m r) {g : G σ} {q : List Nat} (h : RInv m r g q) {p : Nat} {l : Int}
    (hp : Lv g p) (hq : m.eqs (g.st p) = false) (hl : l ∈ m.lgf (g.st p))
    {g' : G σ} {o : Option Nat} (hv : visit m prim q g p l = (g', o)) :
    RInv m r g' q ∧ (∀ c, o = some c → Lv g' c ∧ m.eqs (g'.st c) = false) ∧
    Lv g' p ∧ g'.st p = g.st p ∧ (∀ i, Lv g i → Lv g' i ∧ g'.st i = g.st i) := by
  rcases transition_cases m prim g p l with ⟨_, h2⟩ | ⟨_, _, _, _, _, h2⟩ | ⟨s', x, h1, hb, h2⟩
  · unfold visit at hv
    rw [h2] at hv
    simp at hv
    obtain ⟨rfl, rfl⟩ := hv
    exact ⟨h, by simp, hp, rfl, fun i hi => ⟨hi, rfl⟩⟩
  · unfold visit at hv
    rw [h2] at hv
    simp at hv
    obtain ⟨rfl, rfl⟩ := hv
    exact ⟨h, by simp, hp, rfl, fun i hi => ⟨hi, rfl⟩⟩
  · obtain ⟨k1, k2, k3, k4, k5⟩ := makeNode_r hU h s' (g.ex p) (by
      obtain ⟨ls, _, hp'⟩ := h.gen p hp
      exact ⟨_, _, hp'.snoc ⟨hq, hl, h1⟩⟩)
    have k1 := k1.bb x
    generalize hg1 : ({ (makeNode m g s' (g.ex p)).1 with bb := x } : G σ) = g1 at *
    generalize hc : (makeNode m g s' (g.ex p)).2 = c at *
    have k2 : c < g1.nn := by rw [← hg1]; exact k2
    have k3 : g1.st c = s' := by rw [← hg1]; exact k3
    have k4 : ¬ Lv g1 c → g1.bound c = m.sense.best0 := by rw [← hg1]; exact k4
    have k5 : ∀ i, Lv g i → Lv g1 i ∧ g1.st i = g.st i ∧ g1.bound i = g.bound i := by rw [← hg1]; exact k5
    obtain ⟨hp1, hst1, hbd1⟩ := k5 p hp
    generalize hd : (if (g1.par c).isEmpty then findDom m g1 q c (g1.bound p + m.stc (g1.st p) l) else none) = dom
    cases dom with
    | none =>
      rw [visit_none h2 hd] at hv
      simp only [Prod.mk.injEq] at hv
      obtain ⟨hv1, hv2⟩ := hv
      obtain ⟨l1, l2⟩ := link_r hR k1 hp1 (by rw [hst1]; exact hq) (by rw [hst1]; exact hl) (by rw [hst1]; exact h1) k2 (Or.inl ⟨k3, k4⟩)
      have f1 := (link_fields (m := m) g1 p c l).1
      have hlv : ∀ i, Lv g1 i → Lv (link m g1 p c l) i := fun i hi => hi.link
      rw [hv1] at l1 l2 f1 hlv
      refine ⟨l1, ?_, hlv p hp1, by rw [f1, hst1], fun i hi => ⟨hlv i (k5 i hi).1, by rw [f1]; exact (k5 i hi).2.1⟩⟩
      intro c' hc'
      rw [hc'] at hv2
      split at hv2
      · rename_i hcond
        simp at hv2; subst hv2
        simp at hcond
        exact ⟨l2, by rw [f1]; exact hcond.2⟩
      · simp at hv2
    | some w =>
      rw [visit_dom h2 hd] at hv
      simp only [Prod.mk.injEq] at hv
      obtain ⟨hv1, hv2⟩ := hv
      have hd : findDom m g1 q c (g1.bound p + m.stc (g1.st p) l) = some w := by
        split at hd
        · exact hd
        · simp at hd
      obtain ⟨sd, _, d2, d3, _⟩ := findDom_some hd
      obtain ⟨w1, w2⟩ := k1.ql w d2
      have hw1 : w ≠ 1 := by
        intro hh; rw [hh, k1.st1, hS] at w2; simp at w2
      rw [Sense.betterEQ_iff] at d3
      have k1' := k1.setAn g1.an.dropLast
      obtain ⟨l1, l2⟩ := link_r (p := p) (c := w) (l := l) hR k1' hp1 (by show m.eqs (g1.st p) = _; rw [hst1]; exact hq)
        (by show l ∈ m.lgf (g1.st p); rw [hst1]; exact hl) (by show m.stf (g1.st p) l = _; rw [hst1]; exact h1) w1.1
        (Or.inr ⟨by rw [Sense.better_false]; exact d3, w1, hw1⟩)
      have f1 : (link m { g1 with an := g1.an.dropLast } p w l).st = g1.st := (link_fields (m := m) _ p w l).1
      have hlv : ∀ i, Lv g1 i → Lv (link m { g1 with an := g1.an.dropLast } p w l) i := fun i hi =>
        Lv.link (g := { g1 with an := g1.an.dropLast }) hi
      rw [hv1] at l1 l2 f1 hlv
      refine ⟨l1, by simp [← hv2], hlv p hp1, by rw [f1, hst1], fun i hi => ⟨hlv i (k5 i hi).1, by rw [f1]; exact (k5 i hi).2.1⟩⟩

theorem resLabels_r (hS : m.eqs m.stt = true) (hU : Uniq m r.st) (hR : InRange m r) (w : Nat) {p : Nat} (ps : List Nat) : ∀ (ls : List Int) (g : G σ) (q : List Nat),
    RInv m r g q → Lv g p → m.eqs (g.st p) = false → (∀ l, l ∈ ls → l ∈ m.lgf (g.st p)) →
    (∀ i, i ∈ ps → Lv g i ∧ m.eqs (g.st i) = false) →
    ∀ g' q' b, resLabels m prim w p ls g q = (g', q', b) →
      RInv m r g' q' ∧ (∀ i, i ∈ ps → Lv g' i ∧ m.eqs (g'.st i) = false) := by
  intro ls
  induction ls with
  | nil =>
    intro g q h _ _ _ hps g' q' b he
    simp [resLabels] at he
    obtain ⟨rfl, rfl, rfl⟩ := he
    exact ⟨h, hps⟩
  | cons l ls ih =>
    intro g q h hp hq hl hps g' q' b he
    unfold resLabels at he
    generalize hv : visit m prim q g p l = v at he
    obtain ⟨g1, o⟩ := v
    obtain ⟨v1, v2, v3, v4, v5⟩ := visit_r hS hU hR h hp hq (hl l (by simp)) hv
    have hps1 : ∀ i, i ∈ ps → Lv g1 i ∧ m.eqs (g1.st i) = false := fun i hi => by
      obtain ⟨a, b⟩ := hps i hi
      obtain ⟨c, d⟩ := v5 i a
      rw [d]; exact ⟨c, b⟩
    cases o with
    | none =>
      exact ih g1 q v1 v3 (by rw [v4]; exact hq) (fun x hx => by rw [v4]; exact hl x (by simp [hx])) hps1 g' q' b he
    | some c =>
      dsimp only at he
      have v6 := v1.snoc (v2 c rfl)
      split at he
      · simp only [Prod.mk.injEq] at he
        obtain ⟨rfl, rfl, rfl⟩ := he
        exact ⟨v6.setExact _, hps1⟩
      · exact ih g1 _ v6 v3 (by rw [v4]; exact hq) (fun x hx => by rw [v4]; exact hl x (by simp [hx])) hps1 g' q' b he

theorem resNodes_r (hS : m.eqs m.stt = true) (hU : Uniq m r.st) (hR : InRange m r) (w : Nat) : ∀ (ps : List Nat) (g : G σ) (q : List Nat),
    RInv m r g q → (∀ i, i ∈ ps → Lv g i ∧ m.eqs (g.st i) = false) →
    ∀ g' q', resNodes m prim w ps g q = (g', q') → RInv m r g' q' := by
  intro ps
  induction ps with
  | nil =>
    intro g q h _ g' q' he
    simp [resNodes] at he
    obtain ⟨rfl, rfl⟩ := he
    exact h
  | cons p ps ih =>
    intro g q h hps g' q' he
    unfold resNodes at he
    generalize hv : resLabels m prim w p (m.lgf (g.st p)) g q = v at he
    obtain ⟨g1, q1, b⟩ := v
    obtain ⟨p1, p2⟩ := hps p (by simp)
    obtain ⟨v1, v2⟩ := resLabels_r hS hU hR w ps _ g q h p1 p2 (fun _ hx => hx) (fun i hi => hps i (by simp [hi])) g1 q1 b hv
    cases b with
    | true =>
      simp only [Prod.mk.injEq] at he
      obtain ⟨rfl, rfl⟩ := he
      exact v1
    | false => exact ih g1 q1 v1 v2 g' q' he

theorem pullLayer_mem (g : G σ) (q : List Nat) (i : Nat) :
    (i ∈ (pullLayer m g q).1 → i ∈ q) ∧ (i ∈ (pullLayer m g q).2 → i ∈ q) := by
  unfold pullLayer
  cases q with
  | nil => simp
  | cons n q =>
    dsimp only
    constructor
    · intro hi
      rw [(MSort.msortL_perm _ _).mem_iff] at hi
      exact (List.takeWhile_sublist _).subset hi
    · intro hi
      exact (List.dropWhile_sublist _).subset hi

theorem resLoop_r (hS : m.eqs m.stt = true) (hU : Uniq m r.st) (hR : InRange m r) (w : Nat) : ∀ (f : Nat) (g : G σ) (q : List Nat),
    RInv m r g q → ∀ g', resLoop m prim w f g q = some g' → RInv m r g' [] := by
  intro f
  induction f with
  | zero => intro g q _ g' he; simp [resLoop] at he
  | succ f ih =>
    intro g q h g' he
    unfold resLoop at he
    split at he
    · simp at he; subst he
      exact h.sub (by simp)
    · dsimp only at he
      have h1 := h.sub (fun i hi => (pullLayer_mem (m := m) g q i).2 hi)
      generalize hv : resNodes m prim w (pullLayer m g q).1 g (pullLayer m g q).2 = v at he
      obtain ⟨g1, q1⟩ := v
      have := resNodes_r hS hU hR w _ g _ h1 (fun i hi => h.ql i ((pullLayer_mem (m := m) g q i).1 hi)) g1 q1 hv
      exact ih g1 q1 this g' he

theorem start2_r (hS : m.eqs m.stt = true) (hU : Uniq m r.st) (hq : m.eqs r.st = false) : RInv m r (start2 m r) [0] := by
  have hne : r.st ≠ m.stt := by
    intro hh; rw [hh, hS] at hq; simp at hq
  have hf : findNode (start r) m.stt = none := by
    have hne1 : Same.same r.st m.stt = false := by
      cases hh : Same.same r.st m.stt with
      | false => rfl
      | true => exact absurd (hU.sink _ _ _ (Path.nil _) (hU.symm _ _ hh)) hne
    unfold findNode start
    simp [hne1]
  have hs : start2 m r = { start r with
      st := upd (fun _ => r.st) 1 m.stt, lab := upd (fun _ => r.lab) 1 [],
      bound := upd (fun _ => r.bound) 1 m.sense.best0, bb := upd (fun _ => r.bb) 1 0,
      layer := upd (fun _ => 0) 1 0, ex := upd (fun _ => true) 1 true,
      par := upd (fun _ => []) 1 [], kids := upd (fun _ => []) 1 [], nn := 2, an := [0, 1], trg := 1 } := by
    unfold start2 makeNode
    rw [hf]
    rfl
  have hpar : ∀ i, upd (fun _ => ([] : List Nat)) 1 [] i = [] := by
    intro i; rw [upd_apply]; split <;> rfl
  rw [hs]
  have hlv : ∀ (g : G σ) i, g.nn = 2 → (∀ i, g.par i = []) → (Lv g i ↔ i = 0) := by
    intro g i h1 h2
    simp only [Lv, h1, h2]
    constructor
    · rintro ⟨_, a | a⟩
      · exact a
      · exact absurd rfl a
    · intro a; exact ⟨by omega, Or.inl a⟩
  constructor
  · rfl
  · rfl
  · exact Nat.le_refl _
  · rfl
  · rfl
  · intro i e he
    have he : e ∈ upd (fun _ => []) 1 [] i := he
    rw [hpar] at he; simp at he
  · intro e he; exact absurd he (Nat.not_lt_zero e)
  · intro i hi
    rw [hlv _ i rfl hpar] at hi
    subst hi
    refine ⟨[], by show r.lab = _; simp, ?_⟩
    show Path m r.st [] (r.bound - r.bound) r.st
    rw [Int.sub_self]; exact Path.nil _
  · intro e he
    have he : e ∈ upd (fun _ => []) 1 [] 1 := he
    rw [hpar] at he; simp at he
  · intro _; rfl
  · intro i _; exact hpar i
  · intro i hi
    simp at hi; subst hi
    rw [hlv _ 0 rfl hpar]
    exact ⟨rfl, hq⟩
  · intro i _ h1
    exact ⟨[], 0, by show Path m r.st [] 0 (upd (fun _ => r.st) 1 m.stt i); rw [upd_ne _ _ h1]; exact Path.nil _⟩

/-- The value of a restricted diagram is the sentinel or a real completion of the root. -/
theorem restricted_real (hS : m.eqs m.stt = true) (hq : m.eqs r.st = false) (hR : InRange m r) {w f : Nat} {g : G σ}
    (h : restricted m prim w f r = some g) (hU : Uniq m r.st := by exact Uniq.ofEq) :
    g.bound g.trg = m.sense.best0 ∨
    ∃ ls, g.lab g.trg = r.lab ++ ls ∧ Path m r.st ls (g.bound g.trg - r.bound) m.stt := by
  unfold restricted at h
  simp only [Option.map_eq_some_iff] at h
  obtain ⟨g0, h0, rfl⟩ := h
  have hs := start2_r (r := r) hS hU hq
  rw [hs.root] at h0
  have h1 := resLoop_r hS hU hR w f _ _ hs g0 h0
  have hpath : ∀ e, e ∈ g0.par 1 → ∃ ls, g0.lab (g0.es e) ++ [g0.el e] = r.lab ++ ls ∧
      Path m r.st ls (g0.bound (g0.es e) + g0.eo e - r.bound) m.stt := by
    intro e he
    obtain ⟨a, b, c⟩ := h1.est e he
    obtain ⟨ls, l1, l2⟩ := h1.gen _ a
    refine ⟨ls ++ [g0.el e], by rw [l1, List.append_assoc], ?_⟩
    have := l2.snoc b
    rw [c]
    have he : g0.bound (g0.es e) + m.stc (g0.st (g0.es e)) (g0.el e) - r.bound =
      g0.bound (g0.es e) - r.bound + m.stc (g0.st (g0.es e)) (g0.el e) := by omega
    rw [he]; exact this
  obtain ⟨bd, lb, t1, t2, _⟩ := tighten_trg (m := m) h1.trg (fun e he => by
    obtain ⟨ls, _, hp⟩ := hpath e he
    have := hR _ _ _ hp
    have e2 : r.bound + (g0.bound (g0.es e) + g0.eo e - r.bound) = g0.bound (g0.es e) + g0.eo e := by omega
    rw [e2] at this; exact this)
  rw [t1]
  show upd g0.bound 1 bd g0.trg = _ ∨ ∃ ls, upd g0.lab 1 lb g0.trg = _ ∧ Path m r.st ls (upd g0.bound 1 bd g0.trg - r.bound) m.stt
  rw [h1.trg, upd_same, upd_same]
  rcases t2 with ⟨_, x⟩ | ⟨e, x1, rfl, rfl⟩
  · exact Or.inl x
  · exact Or.inr (hpath e x1)

end
end Verif.DD
