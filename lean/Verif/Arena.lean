import Verif.DD
/-!
# Facts about the node and edge arena

Closed forms for the pointer-level operations of the model: adding an arc and moving all arcs
of one node to another.
-/
namespace Verif.DD
variable {σ : Type}

theorem getLastD_append_right (K T : List Nat) (h : T ≠ []) : (K ++ T).getLastD 0 = T.getLastD 0 := by
  rw [List.getLastD_eq_getLast?, List.getLastD_eq_getLast?, List.getLast?_append]
  cases ht : T.getLast? with
  | none => rw [List.getLast?_eq_none_iff] at ht; exact absurd ht h
  | some x => simp

theorem addArc_eq (g : G σ) (e : Nat) (h : g.es e ≠ g.ed e) :
    addArc g e = { g with
      efix := upd g.efix e (g.kids (g.es e)).length
      kids := upd g.kids (g.es e) (g.kids (g.es e) ++ [e])
      etix := upd g.etix e (g.par (g.ed e)).length
      par := upd g.par (g.ed e) (g.par (g.ed e) ++ [e]) } := by
  simp only [addArc, addArcNode, if_true]
  rw [if_neg h]

theorem addEdge_eq (g : G σ) (p c : Nat) (l o : Int) (h : p ≠ c) :
    addEdge g p c l o = { g with
      es := upd g.es g.ne p, ed := upd g.ed g.ne c, el := upd g.el g.ne l, eo := upd g.eo g.ne o,
      ne := g.ne + 1
      efix := upd g.efix g.ne (g.kids p).length
      kids := upd g.kids p (g.kids p ++ [g.ne])
      etix := upd g.etix g.ne (g.par c).length
      par := upd g.par c (g.par c ++ [g.ne]) } := by
  unfold addEdge
  rw [addArc_eq _ _ (by simpa using h)]
  simp

/-! ### Moving arcs -/

/-- During a transfer, the children of `f` are the original ones `K f` followed by the arcs of
`S` leaving `f`, and every arc of `S` knows its position. -/
def Moving (g : G σ) (K : Nat → List Nat) (S : Nat → Prop) : Prop :=
  ∀ f, ∃ T, g.kids f = K f ++ T ∧ T.Nodup ∧ (∀ e, e ∈ T ↔ S e ∧ g.es e = f) ∧
    ∀ e, e ∈ T → ∃ j, g.efix e = (K f).length + j ∧ T[j]? = some e

theorem vecRemove_append (K T : List Nat) (j : Nat) (hj : j < T.length) :
    vecRemove (K ++ T) (K.length + j) = K ++ vecRemove T j := by
  unfold vecRemove
  have hT : T ≠ [] := by intro h; simp [h] at hj
  have h1 : (K ++ T).getLastD 0 = T.getLastD 0 := getLastD_append_right _ _ hT
  rw [h1, List.set_append_right _ _ (by omega), Nat.add_sub_cancel_left,
    List.dropLast_append_of_ne_nil (by simpa using hT)]

theorem swapRemove_props (T : List Nat) (j : Nat) (x : Nat) (hn : T.Nodup) (hj : T[j]? = some x) :
    (vecRemove T j).Nodup ∧ (∀ e, e ∈ vecRemove T j ↔ e ∈ T ∧ e ≠ x) ∧
    (∀ (e i : Nat), T[i]? = some e → e ≠ x → e ≠ T.getLastD 0 → (vecRemove T j)[i]? = some e) ∧
    (T.getLastD 0 ≠ x → (vecRemove T j)[j]? = some (T.getLastD 0)) := by
  obtain ⟨L, z, rfl⟩ : ∃ L z, T = L ++ [z] := by
    rcases List.eq_nil_or_concat T with h | ⟨L, z, h⟩
    · simp [h] at hj
    · exact ⟨L, z, by simpa using h⟩
  have hl : (L ++ [z]).getLastD 0 = z := by simp [List.getLastD_eq_getLast?]
  rw [hl]
  rw [List.nodup_append] at hn
  obtain ⟨hL, _, hd⟩ := hn
  have hzL : z ∉ L := fun h => hd z h z (by simp) rfl
  by_cases hjL : j < L.length
  · have hx : L[j] = x := by
      rw [List.getElem?_append_left hjL, List.getElem?_eq_getElem hjL] at hj; simpa using hj
    have hxz : x ≠ z := fun h => hzL (by rw [← h, ← hx]; exact List.getElem_mem _)
    have hv : vecRemove (L ++ [z]) j = L.set j z := by
      unfold vecRemove
      rw [hl, List.set_append_left _ _ hjL, List.dropLast_concat]
    rw [hv]
    refine ⟨?_, ?_, ?_, ?_⟩
    · rw [List.Nodup, List.pairwise_iff_getElem]
      intro a b ha hb hab
      simp only [List.length_set] at ha hb
      simp only [List.getElem_set]
      have := List.pairwise_iff_getElem.1 hL a b ha hb hab
      split
      · split
        · omega
        · intro h; exact hzL (h ▸ List.getElem_mem _)
      · split
        · intro h; exact hzL (h ▸ List.getElem_mem _)
        · exact this
    · intro e
      rw [List.mem_iff_getElem]
      constructor
      · rintro ⟨i, hi, he⟩
        simp only [List.length_set] at hi
        rw [List.getElem_set] at he
        split at he
        · subst he; exact ⟨by simp, fun h => hxz h.symm⟩
        · rename_i hne
          refine ⟨by rw [← he]; simp, ?_⟩
          rw [← he, ← hx]
          intro h
          have hp := List.pairwise_iff_getElem.1 hL
          rcases Nat.lt_trichotomy i j with c | c | c
          · exact hp i j hi hjL c h
          · exact hne c.symm
          · exact hp j i hjL hi c h.symm
      · rintro ⟨he, hex⟩
        simp only [List.mem_append, List.mem_singleton] at he
        rcases he with he | he
        · obtain ⟨i, hi, he⟩ := List.mem_iff_getElem.1 he
          refine ⟨i, by simpa using hi, ?_⟩
          rw [List.getElem_set, if_neg]; exact he
          intro h; subst h; exact hex (he ▸ hx)
        · exact ⟨j, by simpa using hjL, by rw [List.getElem_set, if_pos rfl]; exact he.symm⟩
    · intro e i hi hex hez
      have hiL : i < L.length := by
        obtain ⟨hlt, he⟩ := List.getElem?_eq_some_iff.1 hi
        simp at hlt
        rcases Nat.lt_or_ge i L.length with h | h
        · exact h
        · have : i = L.length := by omega
          subst this; simp at he; exact absurd he.symm hez
      rw [List.getElem?_append_left hiL] at hi
      rw [List.getElem?_set]
      split
      · rename_i h; subst h
        rw [List.getElem?_eq_getElem hiL, hx] at hi
        simp at hi; exact absurd hi.symm hex
      · exact hi
    · intro _
      rw [List.getElem?_set, if_pos rfl, if_pos hjL]
  · have hjl : j = L.length := by
      obtain ⟨hlt, _⟩ := List.getElem?_eq_some_iff.1 hj
      simp at hlt; omega
    subst hjl
    have hx : z = x := by simpa using hj
    subst hx
    have hv : vecRemove (L ++ [z]) L.length = L := by
      unfold vecRemove; rw [hl]; simp
    rw [hv]
    refine ⟨hL, ?_, ?_, fun h => absurd rfl h⟩
    · intro e; simp only [List.mem_append, List.mem_singleton]
      constructor
      · intro h; exact ⟨Or.inl h, fun h' => hzL (h' ▸ h)⟩
      · rintro ⟨h | h, h'⟩
        · exact h
        · exact absurd h h'
    · intro e i hi hez _
      rcases Nat.lt_or_ge i L.length with h | h
      · rwa [List.getElem?_append_left h] at hi
      · rw [List.getElem?_append_right h] at hi
        have : i - L.length = 0 := by
          rcases Nat.eq_zero_or_pos (i - L.length) with h0 | h0
          · exact h0
          · rw [List.getElem?_eq_none (by simp; omega)] at hi; simp at hi
        rw [this] at hi; simp at hi; exact absurd hi.symm hez

theorem moving_add {g : G σ} {K : Nat → List Nat} {S : Nat → Prop} (h : Moving g K S) (e : Nat)
    (he : ¬ S e) {g' : G σ} (hes : g'.es = g.es)
    (hfx : g'.efix = upd g.efix e (g.kids (g.es e)).length)
    (hk : g'.kids = upd g.kids (g.es e) (g.kids (g.es e) ++ [e])) :
    Moving g' K (fun x => S x ∨ x = e) := by
  intro f
  obtain ⟨T, h1, h2, h3, h4⟩ := h f
  rw [hes, hfx, hk]
  by_cases hf : f = g.es e
  · subst hf
    have heT : e ∉ T := fun hm => he ((h3 e).1 hm).1
    refine ⟨T ++ [e], by simp [h1], ?_, ?_, ?_⟩
    · rw [List.nodup_append]; exact ⟨h2, by simp, by intro a ha b hb; simp at hb; subst hb; intro h; exact heT (h ▸ ha)⟩
    · intro x; simp only [List.mem_append, List.mem_singleton, h3]
      constructor
      · rintro (⟨a, b⟩ | rfl)
        · exact ⟨Or.inl a, b⟩
        · exact ⟨Or.inr rfl, rfl⟩
      · rintro ⟨a | a, b⟩
        · exact Or.inl ⟨a, b⟩
        · exact Or.inr a
    · intro x hx
      simp only [List.mem_append, List.mem_singleton] at hx
      rcases hx with hx | rfl
      · obtain ⟨j, a, b⟩ := h4 x hx
        refine ⟨j, ?_, ?_⟩
        · rw [upd_ne _ _ (by intro h; exact heT (h ▸ hx))]; exact a
        · obtain ⟨hlt, hb⟩ := List.getElem?_eq_some_iff.1 b
          rw [List.getElem?_append_left hlt]; exact b
      · exact ⟨T.length, by simp [h1], by simp⟩
  · refine ⟨T, by rw [upd_ne _ _ hf]; exact h1, h2, ?_, ?_⟩
    · intro x; rw [h3]
      constructor
      · rintro ⟨a, b⟩; exact ⟨Or.inl a, b⟩
      · rintro ⟨a | a, b⟩
        · exact ⟨a, b⟩
        · subst a; exact absurd b.symm hf
    · intro x hx
      obtain ⟨j, a, b⟩ := h4 x hx
      refine ⟨j, ?_, b⟩
      rw [upd_ne _ _ ?_]; exact a
      intro h; subst h; exact hf ((h3 x).1 hx).2.symm

theorem moving_unlink {g : G σ} {K : Nat → List Nat} {S : Nat → Prop} (h : Moving g K S) (e : Nat)
    (he : S e) : Moving (unlinkKid g e) K (fun x => S x ∧ x ≠ e) := by
  intro f
  obtain ⟨T, h1, h2, h3, h4⟩ := h f
  by_cases hf : f = g.es e
  · subst hf
    have heT : e ∈ T := (h3 e).2 ⟨he, rfl⟩
    obtain ⟨j, ha, hb⟩ := h4 e heT
    obtain ⟨hjlt, _⟩ := List.getElem?_eq_some_iff.1 hb
    have hTne : T ≠ [] := by intro h; simp [h] at heT
    obtain ⟨p1, p2, p3, p4⟩ := swapRemove_props T j e h2 hb
    have hlast : (K (g.es e) ++ T).getLastD 0 = T.getLastD 0 := getLastD_append_right _ _ hTne
    have hget : (((K (g.es e) ++ T).set (g.efix e) ((K (g.es e) ++ T).getLastD 0)).getD (g.efix e) 0)
        = T.getLastD 0 := by
      rw [hlast, ha, List.getD_eq_getElem?_getD, List.getElem?_set, if_pos rfl, if_pos]
      · rfl
      · simp; omega
    refine ⟨vecRemove T j, ?_, p1, ?_, ?_⟩
    · simp only [unlinkKid, upd_same, h1, ha]
      exact vecRemove_append _ _ _ hjlt
    · intro x
      rw [p2, h3]
      constructor
      · rintro ⟨⟨a, b⟩, c⟩; exact ⟨⟨a, c⟩, b⟩
      · rintro ⟨⟨a, c⟩, b⟩; exact ⟨⟨a, b⟩, c⟩
    · intro x hx
      obtain ⟨hxT, hxe⟩ := (p2 x).1 hx
      simp only [unlinkKid, h1]
      rw [hget]
      by_cases hxl : x = T.getLastD 0
      · refine ⟨j, ?_, ?_⟩
        · rw [hxl, upd_same, ha]
        · rw [hxl]; exact p4 (by rw [← hxl]; exact hxe)
      · obtain ⟨i, a, b⟩ := h4 x hxT
        refine ⟨i, ?_, ?_⟩
        · rw [upd_ne _ _ hxl, a]
        · exact p3 x i b hxe hxl
  · refine ⟨T, ?_, h2, ?_, ?_⟩
    · simp only [unlinkKid]; rw [upd_ne _ _ hf]; exact h1
    · intro x
      rw [h3]
      constructor
      · rintro ⟨a, b⟩; exact ⟨⟨a, by intro h; subst h; exact hf b.symm⟩, b⟩
      · rintro ⟨⟨a, _⟩, b⟩; exact ⟨a, b⟩
    · intro x hx
      obtain ⟨j, a, b⟩ := h4 x hx
      refine ⟨j, ?_, b⟩
      obtain ⟨T', h1', h2', h3', h4'⟩ := h (g.es e)
      have heT : e ∈ T' := (h3' e).2 ⟨he, rfl⟩
      obtain ⟨j', ha', hb'⟩ := h4' e heT
      obtain ⟨hjlt, _⟩ := List.getElem?_eq_some_iff.1 hb'
      have hTne : T' ≠ [] := by intro h; simp [h] at heT
      have hlast : (K (g.es e) ++ T').getLastD 0 = T'.getLastD 0 := getLastD_append_right _ _ hTne
      have hget : (((K (g.es e) ++ T').set (g.efix e) ((K (g.es e) ++ T').getLastD 0)).getD (g.efix e) 0)
          = T'.getLastD 0 := by
        rw [hlast, ha', List.getD_eq_getElem?_getD, List.getElem?_set, if_pos rfl, if_pos]
        · rfl
        · simp; omega
      simp only [unlinkKid, h1']
      rw [hget, upd_ne _ _ ?_]; exact a
      intro hxl
      have hm : T'.getLastD 0 ∈ T' := by
        rw [List.getLastD_eq_getLast?, List.getLast?_eq_some_getLast hTne]; simp
      rw [← hxl] at hm
      exact hf (((h3 x).1 hx).2.symm.trans ((h3' x).1 hm).2)

/-- Closed form of the three loops that move arcs. -/
theorem foldl_unlinkKid (P : List Nat) : ∀ (g : G σ) (K : Nat → List Nat) (S : Nat → Prop),
    Moving g K S → P.Nodup → (∀ e, e ∈ P → S e) →
    ∃ fx ks, P.foldl unlinkKid g = { g with efix := fx, kids := ks } ∧
      Moving (P.foldl unlinkKid g) K (fun x => S x ∧ x ∉ P) := by
  induction P with
  | nil =>
    intro g K S h _ _
    exact ⟨g.efix, g.kids, rfl, by simpa using h⟩
  | cons e P ih =>
    intro g K S h hn hS
    rw [List.nodup_cons] at hn
    obtain ⟨fx, ks, h1, h2⟩ := ih (unlinkKid g e) K (fun x => S x ∧ x ≠ e)
      (moving_unlink h e (hS e (by simp))) hn.2
      (fun x hx => ⟨hS x (by simp [hx]), by intro h; subst h; exact hn.1 hx⟩)
    refine ⟨fx, ks, ?_, ?_⟩
    · rw [List.foldl_cons, h1]; rfl
    · rw [List.foldl_cons]
      have : (fun x => S x ∧ x ∉ e :: P) = (fun x => (S x ∧ x ≠ e) ∧ x ∉ P) := by
        funext x; simp [and_assoc]
      rw [this]; exact h2

theorem foldl_move (r : Nat) (P : List Nat) : ∀ (g : G σ) (K : Nat → List Nat) (S : Nat → Prop),
    Moving g K S → P.Nodup → (∀ e, e ∈ P → ¬ S e) → (∀ e, e ∈ P → g.es e ≠ r) →
    ∃ fx tx ks, P.foldl (fun g e => addArc { g with ed := upd g.ed e r } e) g =
        { g with
          ed := fun e => if e ∈ P then r else g.ed e, par := upd g.par r (g.par r ++ P)
          efix := fx, etix := tx, kids := ks } ∧
      Moving (P.foldl (fun g e => addArc { g with ed := upd g.ed e r } e) g) K
        (fun x => S x ∨ x ∈ P) := by
  induction P with
  | nil =>
    intro g K S h _ _ _
    refine ⟨g.efix, g.etix, g.kids, ?_, by simpa using h⟩
    simp only [List.foldl_nil, List.append_nil, List.not_mem_nil, if_false]
    have : upd g.par r (g.par r) = g.par := by
      funext i; rw [upd_apply]; split
      · rename_i h; rw [h]
      · rfl
    rw [this]
  | cons e P ih =>
    intro g K S h hn hS hes
    rw [List.nodup_cons] at hn
    have hae : addArc { g with ed := upd g.ed e r } e = { g with
        ed := upd g.ed e r
        efix := upd g.efix e (g.kids (g.es e)).length
        kids := upd g.kids (g.es e) (g.kids (g.es e) ++ [e])
        etix := upd g.etix e (g.par r).length
        par := upd g.par r (g.par r ++ [e]) } := by
      rw [addArc_eq]
      · simp
      · simpa using hes e (by simp)
    obtain ⟨fx, tx, ks, h1, h2⟩ := ih (addArc { g with ed := upd g.ed e r } e) K (fun x => S x ∨ x = e)
      (by
        apply moving_add h e (hS e (by simp))
        · rw [hae]
        · rw [hae]
        · rw [hae]) hn.2
      (by
        rintro x hx (a | a)
        · exact hS x (by simp [hx]) a
        · subst a; exact hn.1 hx)
      (by intro x hx; rw [hae]; exact hes x (by simp [hx]))
    refine ⟨fx, tx, ks, ?_, ?_⟩
    · rw [List.foldl_cons, h1, hae]
      have e1 : (fun x => if x ∈ P then r else upd g.ed e r x) =
          (fun x => if x ∈ e :: P then r else g.ed x) := by
        funext x
        simp only [List.mem_cons, upd_apply]
        by_cases hx : x = e
        · subst hx; simp
        · simp [hx]
      have e2 : upd (upd g.par r (g.par r ++ [e])) r ((upd g.par r (g.par r ++ [e])) r ++ P) =
          upd g.par r (g.par r ++ e :: P) := by
        funext i; simp only [upd_apply]; split <;> simp
      simp only [e1, e2]
    · rw [List.foldl_cons]
      have : (fun x => S x ∨ x ∈ e :: P) = (fun x => (S x ∨ x = e) ∨ x ∈ P) := by
        funext x; simp [or_assoc]
      rw [this]; exact h2

/-- Net effect of `transferArcs` on a donor without children: exactly the arcs into `d` now
enter `r`, at the end of its parent list; every child list is what it was. -/
theorem transferArcs_eq (g : G σ) (d r : Nat) (hdr : d ≠ r) (hn : (g.par d).Nodup)
    (hkd : g.kids d = []) (hsd : ∀ e, e ∈ g.par d → g.es e ≠ d) (hsr : ∀ e, e ∈ g.par d → g.es e ≠ r) :
    ∃ fx tx, transferArcs g d r = { g with
      ed := fun e => if e ∈ g.par d then r else g.ed e
      par := upd (upd g.par r (g.par r ++ g.par d)) d []
      efix := fx, etix := tx } := by
  have hm0 : Moving g g.kids (fun _ => False) := fun f =>
    ⟨[], by simp, by simp, by simp, by simp⟩
  obtain ⟨fx1, tx1, ks1, h1, hm1⟩ := foldl_move r (g.par d) g g.kids (fun _ => False) hm0 hn (by simp) hsr
  have hm1' := hm1
  rw [h1] at hm1'
  have hk1 : ks1 d = [] := by
    obtain ⟨T, a, _, c, _⟩ := hm1' d
    have : T = [] := by
      rw [List.eq_nil_iff_forall_not_mem]
      intro e he
      obtain ⟨x, y⟩ := (c e).1 he
      simp only [false_or] at x
      exact hsd e x y
    simpa [this, hkd] using a
  unfold transferArcs
  simp only [h1, hk1, List.foldl_nil]
  unfold disconnect
  have hp : (upd g.par r (g.par r ++ g.par d)) d = g.par d := upd_ne _ _ hdr
  simp only [hp]
  obtain ⟨fx2, ks2, h2, hm2⟩ := foldl_unlinkKid (g.par d) _ g.kids _ hm1' hn (fun e he => Or.inr he)
  have hm2' := hm2
  rw [h2] at hm2'
  have hks2 : ks2 = g.kids := by
    funext f
    obtain ⟨T, a, _, c, _⟩ := hm2' f
    have : T = [] := by
      rw [List.eq_nil_iff_forall_not_mem]
      intro e he
      obtain ⟨⟨x, y⟩, _⟩ := (c e).1 he
      simp only [false_or] at x
      exact y x
    simpa [this] using a
  rw [h2]
  simp only [hks2, hkd, List.foldl_nil]
  have e3 : upd g.kids d [] = g.kids := by
    funext i; rw [upd_apply]; split
    · rename_i h; rw [h, hkd]
    · rfl
  rw [e3]
  exact ⟨_, _, rfl⟩

end Verif.DD
