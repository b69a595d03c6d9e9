import Verif.Fl.Merge
/-!
# Merging a layer keeps the invariant
-/
namespace Verif.Fl
open Verif.DD
variable {σ : Type} {Vl : σ → Int → Prop} {P : Num} [Same σ] {m : Mdl σ} {rank : σ → Nat} {r : Src σ} {prim : Int}

/-- What a successful `merge` does. -/
theorem merge_some {g g' : G σ} {f s mn : Nat} (h : Fl.merge P m g f s = (g', some mn)) :
    ∃ cst g1, m.smf (g.st f) (g.st s) = some cst ∧ Fl.makeNode P m g cst true = (g1, mn) ∧
    ∃ v b L x, g' = { g1 with bound := upd g1.bound mn v, bb := b, lab := upd g1.lab mn L, ex := x } ∧
      (∀ i, i ≠ mn → x i = g1.ex i) ∧ (v = g1.bound f ∨ v = g1.bound s ∨ v = g1.bound mn) ∧
      m.sense.k (g1.bound mn) ≤ m.sense.k v ∧ m.sense.k (g1.bound f) ≤ m.sense.k v ∧
      m.sense.k (g1.bound s) ≤ m.sense.k v := by
  unfold Fl.merge at h
  cases hs : m.smf (g.st f) (g.st s) with
  | none => rw [hs] at h; simp at h
  | some cst =>
    rw [hs] at h
    dsimp only at h
    cases hlo : mergeLow g cst f s with
    | true => simp [hlo] at h
    | false =>
      simp only [hlo, Bool.false_eq_true, if_false] at h
      refine ⟨cst, (Fl.makeNode P m g cst true).1, rfl, ?_⟩
      generalize hmk : Fl.makeNode P m g cst true = q at h
      obtain ⟨g1, c⟩ := q
      simp only [Prod.mk.injEq, Option.some.injEq] at h
      obtain ⟨h1, h2⟩ := h
      subst h2
      refine ⟨rfl, ?_⟩
      dsimp only
      by_cases hb1 : m.sense.better (g1.bound f) (g1.bound c) = true
      · rw [if_pos hb1] at h1
        rw [Sense.better_iff] at hb1
        by_cases hsc : s = c
        · subst hsc
          have : m.sense.better ((copyBL g1 s f).bound s) ((copyBL g1 s f).bound s) = false := by
            rw [Sense.better_false]; omega
          rw [this] at h1
          simp only [Bool.false_eq_true, if_false] at h1
          refine ⟨g1.bound f, _, g1.lab f, upd g1.ex s false, h1.symm, ?_, Or.inl rfl, ?_, ?_, ?_⟩
          · intro i hi; exact upd_ne _ _ hi
          · omega
          · omega
          · omega
        · have e1 : (copyBL g1 c f).bound s = g1.bound s := upd_ne _ _ hsc
          have e2 : (copyBL g1 c f).bound c = g1.bound f := upd_same _ _ _
          rw [e1, e2] at h1
          by_cases hb2 : m.sense.better (g1.bound s) (g1.bound f) = true
          · rw [if_pos hb2] at h1
            rw [Sense.better_iff] at hb2
            refine ⟨g1.bound s, upd (upd g1.bb c (g1.bb f)) c (upd g1.bb c (g1.bb f) s), g1.lab s,
              upd (upd g1.ex c false) c false, ?_, ?_, Or.inr (Or.inl rfl), ?_, ?_, ?_⟩
            · rw [← h1]
              simp only [copyBL]
              congr 1
              · funext i; simp only [upd_apply, if_neg hsc]; split <;> rfl
              · funext i; simp only [upd_apply, if_neg hsc]; split <;> rfl
            · intro i hi; rw [upd_ne _ _ hi, upd_ne _ _ hi]
            · omega
            · omega
            · omega
          · rw [if_neg hb2] at h1
            rw [Bool.not_eq_true, Sense.better_false] at hb2
            refine ⟨g1.bound f, _, g1.lab f, upd g1.ex c false, h1.symm, ?_, Or.inl rfl, ?_, ?_, ?_⟩
            · intro i hi; exact upd_ne _ _ hi
            · omega
            · omega
            · omega
      · rw [if_neg hb1] at h1
        rw [Bool.not_eq_true, Sense.better_false] at hb1
        by_cases hb2 : m.sense.better (g1.bound s) (g1.bound c) = true
        · rw [if_pos hb2] at h1
          rw [Sense.better_iff] at hb2
          refine ⟨g1.bound s, _, g1.lab s, upd g1.ex c false, h1.symm, ?_, Or.inr (Or.inl rfl), ?_, ?_, ?_⟩
          · intro i hi; exact upd_ne _ _ hi
          · omega
          · omega
          · omega
        · rw [if_neg hb2] at h1
          rw [Bool.not_eq_true, Sense.better_false] at hb2
          refine ⟨g1.bound c, g1.bb, g1.lab c, g1.ex, ?_, fun _ _ => rfl, Or.inr (Or.inr rfl), ?_, ?_, ?_⟩
          · rw [← h1, upd_id, upd_id]
          · omega
          · omega
          · omega

/-- Asking for an inexact node instead, in an arena marked inexact. -/
theorem makeNode_inexact {g g1 : G σ} {c : σ} {mn : Nat} (h : Fl.makeNode P m g c true = (g1, mn)) :
    Fl.makeNode P m { g with exact := false } c false = ({ g1 with ex := upd g1.ex mn false, exact := false }, mn) := by
  unfold Fl.makeNode at h ⊢
  have hf : findNode ({ g with exact := false } : G σ) c = findNode g c := rfl
  rw [hf]
  cases hn : findNode g c with
  | none =>
    rw [hn] at h
    simp only [Prod.mk.injEq] at h
    obtain ⟨rfl, rfl⟩ := h
    simp only [Prod.mk.injEq, and_true]
    congr 1
    funext i; simp only [upd_apply]; split <;> rfl
  | some a =>
    rw [hn] at h
    dsimp only at h ⊢
    have hu : ∀ x : Bool, upd (upd g.ex a x) a false = upd g.ex a false := by
      intro x; funext i; simp only [upd_apply]; split <;> rfl
    by_cases hc : (g.par a).isEmpty = true ∧ a ≠ g.root ∧ a ≠ g.trg
    · rw [if_pos hc] at h ⊢
      simp only [Prod.mk.injEq] at h
      obtain ⟨h1, rfl⟩ := h
      rw [← h1]
      simp only [hu, Bool.and_false]
    · rw [if_neg hc] at h ⊢
      simp only [Prod.mk.injEq] at h
      obtain ⟨h1, rfl⟩ := h
      rw [← h1]
      simp only [hu, Bool.and_false]

theorem mergeFind_some {g g' : G σ} {n1 : Nat} {mn n2 : Nat} {rest' : List Nat} :
    ∀ {l pre : List Nat}, Fl.mergeFind P m g n1 pre l = some (g', mn, n2, rest') →
      ∃ u v, l = u ++ n2 :: v ∧ rest' = pre ++ u ++ v ∧ Fl.merge P m g n1 n2 = (g', some mn) := by
  intro l
  induction l with
  | nil => intro pre h; simp [Fl.mergeFind] at h
  | cons x l ih =>
    intro pre h
    have hrec : Fl.mergeFind P m g n1 (pre ++ [x]) l = some (g', mn, n2, rest') →
        ∃ u v, x :: l = u ++ n2 :: v ∧ rest' = pre ++ u ++ v ∧ Fl.merge P m g n1 n2 = (g', some mn) := by
      intro h
      obtain ⟨u, v, a, b, c⟩ := ih h
      exact ⟨x :: u, v, by simp [a], by simp [b], c⟩
    unfold Fl.mergeFind at h
    split at h
    · split at h
      · rename_i g1 mn' heq
        simp at h
        obtain ⟨rfl, rfl, rfl, rfl⟩ := h
        exact ⟨[], l, by simp, by simp, heq⟩
      · exact hrec h
    · exact hrec h

/-- The list of unexpanded nodes after a merge. -/
theorem mergePair_inv {g g' : G σ} {d : Nat} {B B' : List Nat} {p n1 n2 mn : Nat}
    (H : LayV Vl P m rank r.st r.bound)
    (h : Inv Vl P m rank r prim true g d [] B p []) (ha : AnOK g 1) (hn1 : n1 ∈ B) (hn2 : n2 ∈ B) (h12 : n1 ≠ n2)
    (hm : Fl.merge P m g n1 n2 = (g', some mn)) (hBn : B'.Nodup)
    (hB' : ∀ i, i ∈ B' ↔ i = mn ∨ (i ∈ B ∧ i ≠ n1 ∧ i ≠ n2)) :
    ∃ g2 act, mergePair g' mn n1 n2 = (g2, act) ∧ Inv Vl P m rank r prim true g2 d [] B' p [] ∧ AnOK g2 1 ∧
      (act = .inFront ∧ (mn ∉ B ∨ mn = n1 ∨ mn = n2) ∨
       act = .noop ∧ mn ∈ B ∧ mn ≠ n1 ∧ mn ≠ n2) := by
  obtain ⟨cst, g0, q1, q2, v, b, L, x, hg', hx, hv, kv1, kv2, kv3⟩ := merge_some hm
  obtain ⟨l1, e1, y1, r1⟩ := h.Bm n1 hn1
  obtain ⟨l2, e2, y2, r2⟩ := h.Bm n2 hn2
  have nn1 : n1 ≠ 1 := by intro hh; rw [hh, h.st1, H.sink] at e1; simp at e1
  have nn2 : n2 ≠ 1 := by intro hh; rw [hh, h.st1, H.sink] at e2; simp at e2
  obtain ⟨mq, mr⟩ := H.merge _ _ _ (h.rxs n1 l1.1 nn1) (h.rxs n2 l2.1 nn2) e1 e2 (by omega) q1
  obtain ⟨mc1, mc2⟩ := H.mcov _ _ _ (h.rxs n1 l1.1 nn1) (h.rxs n2 l2.1 nn2) e1 e2 (by omega) q1
  have hL : Rch m rank r.st cst := (h.rxs n1 l1.1 nn1).merge (h.rxs n2 l2.1 nn2) e1 e2 (by omega) q1
  obtain ⟨g1, mn', k1, k2, k3, k4, k5, k6, k7, k8, k9, k10, k11, k12, k13, k14, k15, k16⟩ :=
    h.unexact.makeNode H cst false (fun hh => hh) hL (fun hh => by cases hh) (Or.inr (by omega))
  rw [makeNode_inexact q2] at k1
  obtain ⟨hg1, rfl⟩ := Prod.mk.inj k1
  have k8 : ∀ i, Lv g1 i ↔ Lv g i := k8
  have k12 : ∀ i, Lv g i → g1.st i = g.st i ∧ g1.bound i = g.bound i ∧ g1.layer i = g.layer i ∧ g1.lab i = g.lab i ∧
    (i ≠ mn → g1.ex i = g.ex i) := k12
  have k13 : g1.an = g.an ++ (if g1.par mn = [] ∧ mn ≠ 1 then [mn] else []) := k13
  have k14 : AnOK g 1 → (g1.par mn = [] ∧ mn ≠ 1 → mn ∉ g.an) := k14
  have k15 : g.nn ≤ g1.nn := k15
  have hb0 : g0.bound = g1.bound := by rw [← hg1]
  rw [hb0] at hv kv1 kv2 kv3
  have hx : ∀ i, i ≠ mn → x i = g1.ex i := by
    intro i hi; rw [hx i hi, ← hg1]; exact (upd_ne _ _ hi).symm
  have hg' : g' = { g1 with bound := upd g1.bound mn v, bb := b, lab := upd g1.lab mn L, ex := x, exact := g0.exact } := by
    rw [hg', ← hg1]
  have hmr : rank (g1.st mn) = rank r.st + d + 1 := by rw [k4.rk]; omega
  have hmq : m.eqs (g1.st mn) = false := by rw [k4.q]; exact mq
  have hm1 : mn ≠ 1 := by
    intro hh; rw [hh, k2.st1, H.sink] at hmq; simp at hmq
  have hmB : mn ∈ B ∨ g1.par mn = [] := by
    by_cases hp : g1.par mn = []
    · exact Or.inr hp
    · rcases k2.done mn ⟨k3, Or.inr hp⟩ hmq with a | a | a
      · simp at a
      · exact Or.inl a
      · omega
  have hBp : mn ∈ B → g1.par mn ≠ [] := by
    intro hh
    rcases (k2.Bm mn hh).1.2 with a | a
    · exact absurd a k5
    · exact a
  have b1 := (k12 n1 l1)
  have b2 := (k12 n2 l2)
  have st := stage_inv k2 k3 k5 hm1 hmq hmr hmB v b L kv1
  generalize hS : ({ g1 with
      bound := upd g1.bound mn v, bb := b, lab := upd g1.lab mn L, layer := upd g1.layer mn (d + 1)
      ex := upd g1.ex mn false, exact := false } : G σ) = gS at st
  have s_st : gS.st = g1.st := by rw [← hS]
  have s_b : gS.bound = upd g1.bound mn v := by rw [← hS]
  have s_ly : gS.layer = upd g1.layer mn (d + 1) := by rw [← hS]
  have s_ex : gS.ex = upd g1.ex mn false := by rw [← hS]
  have s_par : gS.par = g1.par := by rw [← hS]
  have s_nn : gS.nn = g1.nn := by rw [← hS]
  have s_exact : gS.exact = false := by rw [← hS]
  have s_an : gS.an = g1.an := by rw [← hS]
  have hlvS : ∀ i, Lv gS i ↔ Lv g i := by
    intro i; rw [← k8 i]; simp only [Lv, s_nn, s_par]
  -- node list after staging
  have anS : AnOK gS (if mn ∈ B then 1 else mn) := by
    constructor
    · rw [s_an, k13]
      split
      · rename_i hh
        rw [List.nodup_append]
        exact ⟨ha.1, by simp, by intro a haa c hc; simp at hc; subst hc; intro hh2; exact k14 ha hh (hh2 ▸ haa)⟩
      · simpa using ha.1
    · intro i
      rw [s_an, k13, s_nn, hlvS]
      simp only [List.mem_append, ha.2]
      by_cases hh : mn ∈ B
      · rw [if_neg (by simp [hBp hh]), if_pos hh]
        simp only [List.not_mem_nil, or_false]
        constructor
        · rintro ⟨a, c⟩; exact ⟨by omega, by rcases c with c | c | c <;> simp [c]⟩
        · rintro ⟨a, c⟩
          have := h.two
          rcases c with c | c | c
          · exact ⟨c.1, Or.inl c⟩
          · exact ⟨by omega, Or.inr (Or.inl c)⟩
          · exact ⟨by omega, Or.inr (Or.inl c)⟩
      · have hp : g1.par mn = [] := by
          rcases hmB with a | a
          · exact absurd a hh
          · exact a
        rw [if_pos ⟨hp, hm1⟩, if_neg hh]
        simp only [List.mem_singleton]
        constructor
        · rintro (⟨a, c⟩ | c)
          · exact ⟨by omega, by rcases c with c | c | c <;> simp [c]⟩
          · exact ⟨by omega, by simp [c]⟩
        · rintro ⟨a, c⟩
          have := h.two
          rcases c with c | c | c
          · exact Or.inl ⟨c.1, Or.inl c⟩
          · exact Or.inl ⟨by omega, Or.inr (Or.inl c)⟩
          · exact Or.inr c
  -- unfold mergePair
  have y1' : g1.layer n1 = d + 1 := by rw [b1.2.2.1]; exact y1
  have hlymn : g1.par mn ≠ [] → g1.layer mn = d + 1 := by
    intro hp
    rcases hmB with a | a
    · exact (k2.Bm mn a).2.2.1
    · exact absurd a hp
  have hpair : mergePair g' mn n1 n2 = (absorb (absorb gS n1 mn) n2 mn,
      if (g1.par mn).isEmpty || n1 = mn || n2 = mn then .inFront else .noop) := by
    have hpg : g'.par = g1.par := by rw [hg']
    have hlg : g'.layer = g1.layer := by rw [hg']
    have hly : (if (g'.par mn).isEmpty = true then upd g'.layer mn (g'.layer n1) else g'.layer) =
        upd g1.layer mn (d + 1) := by
      rw [hpg, hlg]
      split
      · rw [y1']
      · rename_i hh
        rw [← hlymn (by simpa using hh), upd_id]
    have hln : upd g1.layer mn (d + 1) n1 = d + 1 := by
      rw [upd_apply]; split
      · rfl
      · exact y1'
    unfold mergePair
    simp only [hly]
    simp only [upd_same, hln, decide_true, if_true, Nat.max_self]
    have hgs : ({ g' with layer := upd (upd g1.layer mn (d + 1)) mn (d + 1), ex := upd g'.ex mn false, exact := false } : G σ)
        = gS := by
      rw [← hS, hg']
      congr 1
      · funext i; simp only [upd_apply]; split <;> rfl
      · funext i; simp only [upd_apply]
        split
        · rfl
        · rename_i hh; exact hx i hh
    rw [hgs, hpg]
  -- ordering of bounds
  have hkn : ∀ i, i = n1 ∨ i = n2 → m.sense.k (gS.bound i) ≤ m.sense.k (gS.bound mn) := by
    intro i hi
    rw [s_b, upd_same, upd_apply]
    split
    · omega
    · rcases hi with hi | hi
      · rw [hi]; exact kv2
      · rw [hi]; exact kv3
  have stS : ∀ i, Lv g i → gS.st i = g.st i := fun i hi => by rw [s_st]; exact (k12 i hi).1
  have cov1 : CoverV Vl m (gS.st mn) (gS.st n1) := by
    rw [stS n1 l1, s_st]; exact k4.cov.trans mc1
  have cov2 : CoverV Vl m (gS.st mn) (gS.st n2) := by
    rw [stS n2 l2, s_st]; exact k4.cov.trans mc2
  have hact : ∃ act, (if (g1.par mn).isEmpty || n1 = mn || n2 = mn then Act.inFront else .noop) = act ∧
      (act = .inFront ∧ (mn ∉ B ∨ mn = n1 ∨ mn = n2) ∨ act = .noop ∧ mn ∈ B ∧ mn ≠ n1 ∧ mn ≠ n2) := by
    refine ⟨_, rfl, ?_⟩
    by_cases c1 : g1.par mn = []
    · left; refine ⟨by simp [c1], Or.inl fun hh => hBp hh c1⟩
    · have hin : mn ∈ B := by
        rcases hmB with a | a
        · exact a
        · exact absurd a c1
      by_cases c2 : mn = n1
      · left; exact ⟨by simp [c2], Or.inr (Or.inl c2)⟩
      · by_cases c3 : mn = n2
        · left; exact ⟨by simp [c3], Or.inr (Or.inr c3)⟩
        · right
          refine ⟨?_, hin, c2, c3⟩
          have : (g1.par mn).isEmpty = false := by simpa using c1
          simp [this, Ne.symm c2, Ne.symm c3]
  obtain ⟨act, hact1, hact2⟩ := hact
  rw [hact1] at hpair
  refine ⟨_, act, hpair, ?_⟩
  -- first donor
  have first : ∀ (B1 : List Nat), B1.Nodup → (∀ i, i ∈ B1 ↔ i = mn ∨ (i ∈ B ∧ i ≠ n1)) →
      Inv Vl P m rank r prim true (absorb gS n1 mn) d [] B1 p [] ∧
      (mn ∈ B1) ∧ (absorb gS n1 mn).st = gS.st ∧ (absorb gS n1 mn).bound = gS.bound ∧
      (absorb gS n1 mn).layer = gS.layer ∧ (absorb gS n1 mn).ex = gS.ex ∧ (absorb gS n1 mn).nn = gS.nn ∧
      (absorb gS n1 mn).exact = false ∧ AnOK (absorb gS n1 mn) 1 := by
    intro B1 hB1 hm1B
    by_cases hc : n1 = mn
    · have hab : absorb gS n1 mn = gS := by unfold absorb; rw [if_neg (by simp [hc])]
      rw [hab]
      refine ⟨st.perm (by simp) hB1 (by simp) ?_, (hm1B mn).2 (Or.inl rfl), rfl, rfl, rfl, rfl, rfl, s_exact, ?_⟩
      · intro i; rw [hm1B]
        constructor
        · rintro (a | a)
          · rw [a, ← hc]; exact hn1
          · exact a.1
        · intro a
          by_cases hi : i = mn
          · exact Or.inl hi
          · exact Or.inr ⟨a, by rw [hc]; exact hi⟩
      · rw [if_pos (by rw [← hc]; exact hn1)] at anS; exact anS
    · obtain ⟨fx, tx, w1, w2, w3, w4⟩ := absorb_inv (B' := B1) H.sink st hn1 hc (by rw [s_nn]; exact k3) k5 hm1
        (by rw [s_st]; exact hmq) (by rw [s_st]; exact hmr) (by rw [s_par]; exact hmB) (by rw [s_ly, upd_same])
        (by rw [s_ex, upd_same]) s_exact (hkn n1 (Or.inl rfl)) cov1 hB1 hm1B
      refine ⟨w2, (hm1B mn).2 (Or.inl rfl), ?_, ?_, ?_, ?_, ?_, ?_, ?_⟩
      · rw [w1]
      · rw [w1]
      · rw [w1]
      · rw [w1]
      · rw [w1]
      · rw [w1]; exact s_exact
      · by_cases hh : mn ∈ B
        · rw [if_pos hh] at anS; exact w4 1 (Or.inl ⟨rfl, hh⟩) anS
        · rw [if_neg hh] at anS; exact w4 mn (Or.inr rfl) anS
  have hB1 : ∃ B1 : List Nat, B1.Nodup ∧ ∀ i, i ∈ B1 ↔ i = mn ∨ (i ∈ B ∧ i ≠ n1) := by
    refine ⟨mn :: ((B.erase n1).erase mn), ?_, ?_⟩
    · rw [List.nodup_cons]
      have h1 := h.Bn.erase n1
      exact ⟨fun hh => ((h1.mem_erase_iff).1 hh).1 rfl, h1.erase mn⟩
    · intro i
      rw [List.mem_cons, (h.Bn.erase n1).mem_erase_iff, h.Bn.mem_erase_iff]
      constructor
      · rintro (a | a)
        · exact Or.inl a
        · exact Or.inr ⟨a.2.2, a.2.1⟩
      · rintro (a | a)
        · exact Or.inl a
        · by_cases hi : i = mn
          · exact Or.inl hi
          · exact Or.inr ⟨hi, a.2, a.1⟩
  obtain ⟨B1, B1n, B1m⟩ := hB1
  obtain ⟨j1, j2, j3, j4, j5, j6, j7, j8, j9⟩ := first B1 B1n B1m
  by_cases hc : n2 = mn
  · have hab : ∀ g : G σ, absorb g n2 mn = g := fun g => by unfold absorb; rw [if_neg (by simp [hc])]
    rw [hab]
    refine ⟨j1.perm (by simp) hBn (by simp) ?_, j9, hact2⟩
    intro i; rw [hB', B1m]
    constructor
    · rintro (a | a)
      · exact Or.inl a
      · exact Or.inr ⟨a.1, a.2.1⟩
    · rintro (a | a)
      · exact Or.inl a
      · by_cases hi : i = mn
        · exact Or.inl hi
        · exact Or.inr ⟨a.1, a.2, by rw [hc]; exact hi⟩
  · obtain ⟨fx, tx, w1, w2, w3, w4⟩ := absorb_inv (B' := B') H.sink j1 ((B1m n2).2 (Or.inr ⟨hn2, Ne.symm h12⟩)) hc
      (by rw [j7, s_nn]; exact k3) k5 hm1 (by rw [j3, s_st]; exact hmq) (by rw [j3, s_st]; exact hmr) (Or.inl j2)
      (by rw [j5, s_ly, upd_same]) (by rw [j6, s_ex, upd_same]) j8
      (by rw [j4]; exact hkn n2 (Or.inr rfl)) (by rw [j3]; exact cov2) hBn
      (by intro i; rw [hB', B1m]
          constructor
          · rintro (a | a)
            · exact Or.inl a
            · exact Or.inr ⟨Or.inr ⟨a.1, a.2.1⟩, a.2.2⟩
          · rintro (a | ⟨a | a, b⟩)
            · exact Or.inl a
            · exact Or.inl a
            · exact Or.inr ⟨a.1, a.2, b⟩)
    exact ⟨w2, w4 1 (Or.inl ⟨rfl, j2⟩) j9, hact2⟩

theorem mergeOne_inv {g g' : G σ} {d : Nat} {p n1 : Nat} {rest skip rest' skip' : List Nat}
    (H : LayV Vl P m rank r.st r.bound)
    (h : Inv Vl P m rank r prim true g d [] (skip ++ n1 :: rest) p []) (ha : AnOK g 1)
    (ho : Fl.mergeOne P m g n1 rest skip = (g', rest', skip')) :
    Inv Vl P m rank r prim true g' d [] (skip' ++ rest') p [] ∧ AnOK g' 1 ∧
    rest'.length ≤ rest.length ∧
    ((skip' = skip ++ [n1] ∧ rest' = rest ∧ g' = g) ∨
      (skip' = skip ∧ skip'.length + rest'.length < skip.length + (rest.length + 1))) := by
  have skipcase : (g', rest', skip') = (g, rest, skip ++ [n1]) →
      Inv Vl P m rank r prim true g' d [] (skip' ++ rest') p [] ∧ AnOK g' 1 ∧ rest'.length ≤ rest.length ∧
      ((skip' = skip ++ [n1] ∧ rest' = rest ∧ g' = g) ∨
        (skip' = skip ∧ skip'.length + rest'.length < skip.length + (rest.length + 1))) := by
    intro hh
    simp only [Prod.mk.injEq] at hh
    obtain ⟨rfl, rfl, rfl⟩ := hh
    exact ⟨by simpa using h, ha, Nat.le_refl _, Or.inl ⟨rfl, rfl, rfl⟩⟩
  unfold Fl.mergeOne at ho
  split at ho
  · split at ho
    · rename_i g1 mn n2 rest1 hmf
      obtain ⟨u, v, hu, hr1, hmg⟩ := mergeFind_some hmf
      subst hu
      simp only [List.nil_append] at hr1
      subst hr1
      have hnd := h.Bn
      have hB : ∀ i, i ∈ skip ++ n1 :: (u ++ n2 :: v) ↔ i ∈ skip ++ (u ++ v) ∨ i = n1 ∨ i = n2 := by
        intro i; simp only [List.mem_append, List.mem_cons]
        constructor
        · rintro (a | a | a | a | a) <;> simp [a]
        · rintro ((a | a | a) | a | a) <;> simp [a]
      have hnd2 : (skip ++ (u ++ v)).Nodup ∧ n1 ∉ skip ++ (u ++ v) ∧ n2 ∉ skip ++ (u ++ v) ∧ n1 ≠ n2 := by
        have hp : List.Perm (skip ++ n1 :: (u ++ n2 :: v)) (n1 :: n2 :: (skip ++ (u ++ v))) := by
          refine List.perm_middle.trans (List.Perm.cons _ ?_)
          rw [← List.append_assoc, ← List.append_assoc]
          exact List.perm_middle
        have := hp.nodup_iff.1 hnd
        rw [List.nodup_cons, List.nodup_cons] at this
        refine ⟨this.2.2, ?_, this.2.1, ?_⟩
        · intro hh; exact this.1 (by simp only [List.mem_cons]; exact Or.inr hh)
        · intro hh; exact this.1 (by simp [hh])
      obtain ⟨nd, nn1, nn2, n12⟩ := hnd2
      -- the two possible final lists
      by_cases hin : mn ∈ skip ++ (u ++ v)
      · have := mergePair_inv (B' := skip ++ (u ++ v)) H h ha ((hB n1).2 (Or.inr (Or.inl rfl)))
          ((hB n2).2 (Or.inr (Or.inr rfl))) n12 hmg nd (by
            intro i; rw [hB]
            constructor
            · intro a; exact Or.inr ⟨Or.inl a, fun hh => nn1 (hh ▸ a), fun hh => nn2 (hh ▸ a)⟩
            · rintro (a | ⟨a | a | a, b, c⟩)
              · rw [a]; exact hin
              · exact a
              · exact absurd a b
              · exact absurd a c)
        obtain ⟨g2, act, w1, w2, w3, w4⟩ := this
        rw [w1] at ho
        have hact : act = .noop := by
          rcases w4 with ⟨_, a | a | a⟩ | ⟨a, _⟩
          · exact absurd ((hB mn).2 (Or.inl hin)) a
          · exact absurd (a ▸ hin) nn1
          · exact absurd (a ▸ hin) nn2
          · exact a
        rw [hact] at ho
        simp only [Prod.mk.injEq] at ho
        obtain ⟨rfl, rfl, rfl⟩ := ho
        exact ⟨w2, w3, by simp, Or.inr ⟨rfl, by simp; omega⟩⟩
      · have nd' : (skip ++ mn :: (u ++ v)).Nodup := by
          rw [List.perm_middle.nodup_iff, List.nodup_cons]; exact ⟨hin, nd⟩
        have := mergePair_inv (B' := skip ++ mn :: (u ++ v)) H h ha ((hB n1).2 (Or.inr (Or.inl rfl)))
          ((hB n2).2 (Or.inr (Or.inr rfl))) n12 hmg nd' (by
            intro i; rw [hB, List.perm_middle.mem_iff, List.mem_cons]
            constructor
            · rintro (a | a)
              · exact Or.inl a
              · exact Or.inr ⟨Or.inl a, fun hh => nn1 (hh ▸ a), fun hh => nn2 (hh ▸ a)⟩
            · rintro (a | ⟨a | a | a, b, c⟩)
              · exact Or.inl a
              · exact Or.inr a
              · exact absurd a b
              · exact absurd a c)
        obtain ⟨g2, act, w1, w2, w3, w4⟩ := this
        rw [w1] at ho
        have hact : act = .inFront := by
          rcases w4 with ⟨a, _⟩ | ⟨_, a, b, c⟩
          · exact a
          · rcases (hB mn).1 a with x | x | x
            · exact absurd x hin
            · exact absurd x b
            · exact absurd x c
        rw [hact] at ho
        simp only [Prod.mk.injEq] at ho
        obtain ⟨rfl, rfl, rfl⟩ := ho
        exact ⟨w2, w3, by simp; omega, Or.inr ⟨rfl, by simp⟩⟩
    · exact skipcase ho.symm
  · exact skipcase ho.symm

theorem mergeLoop_inv (H : LayV Vl P m rank r.st r.bound) {d p : Nat} (w : Nat) : ∀ (f : Nat) (g : G σ) (layer skip : List Nat),
    Inv Vl P m rank r prim true g d [] (skip ++ layer) p [] → AnOK g 1 →
    Inv Vl P m rank r prim true (Fl.mergeLoop P m w f g layer skip).1 d [] (Fl.mergeLoop P m w f g layer skip).2 p [] ∧
    AnOK (Fl.mergeLoop P m w f g layer skip).1 1 := by
  intro f
  induction f with
  | zero => intro g layer skip h ha; exact ⟨h, ha⟩
  | succ f ih =>
    intro g layer skip h ha
    unfold Fl.mergeLoop
    split
    · cases layer with
      | nil => exact ⟨by simpa using h, ha⟩
      | cons n1 rest =>
        dsimp only
        generalize ho : Fl.mergeOne P m g n1 rest skip = q
        obtain ⟨g', rest', skip'⟩ := q
        obtain ⟨w1, w2, _⟩ := mergeOne_inv H h ha ho
        exact ih g' rest' skip' w1 w2
    · exact ⟨h, ha⟩

end Verif.Fl
