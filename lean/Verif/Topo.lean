import Verif.DD
/-!
# The degree heap of `computeBest`/`computeBestBackward` produces a topological order
-/
namespace Verif.DD
open Verif.Heap (WF Ordered Live SWO)

theorem dord_swo : SWO dord :=
  ⟨fun a b h => by simp [dord] at *; omega, fun a b c h1 h2 => by simp [dord] at *; omega⟩

/-- Order in which the nodes leave the heap; `outs n` are the nodes whose degree is decreased when
`n` leaves. -/
def topoSeq (nl : Nat → Option Nat) (outs : Nat → List Nat) : Nat → DH → Option (List Nat)
  | 0, _ => some []
  | k + 1, h =>
    let x := Heap.extractMax dord h
    match topoDec nl (outs x.2.1) x.1 with
    | none => none
    | some h1 => (topoSeq nl outs k h1).map (x.2.1 :: ·)

/-- No node depends on itself or on a later one. -/
def TopoL (outs : Nat → List Nat) : List Nat → Prop
  | [] => True
  | n :: ns => (∀ d, n ∈ outs d → d ∉ n :: ns) ∧ TopoL outs ns

/-- Heap content: exactly the nodes `R`, with degree `deg`. -/
structure Has (nl : Nat → Option Nat) (R : List Nat) (deg : Nat → Nat) (h : DH) : Prop where
  wf : WF h
  nd : R.Nodup
  at_ : h.at_ = R.length + 1
  loc : ∀ n, n ∈ R → ∃ l, nl n = some l ∧ Live h l ∧ h.val l = (n, deg n)
  live : ∀ l, Live h l → ∃ n, n ∈ R ∧ nl n = some l

theorem Has.uniq {nl : Nat → Option Nat} {R : List Nat} {deg : Nat → Nat} {h : DH} (H : Has nl R deg h)
    {a b l : Nat} (ha : a ∈ R) (hb : b ∈ R) (h1 : nl a = some l) (h2 : nl b = some l) : a = b := by
  obtain ⟨x, x1, _, x3⟩ := H.loc a ha
  obtain ⟨y, y1, _, y3⟩ := H.loc b hb
  rw [h1] at x1; rw [h2] at y1
  simp at x1 y1
  subst x1; subst y1
  rw [x3] at y3
  simp at y3; exact y3.1

theorem topoFill_has (deg : Nat → Nat) : ∀ (ns R : List Nat) (h : DH) (nl : Nat → Option Nat),
    Has nl R deg h → (R ++ ns).Nodup → Has (topoFill deg ns h nl).2 (R ++ ns) deg (topoFill deg ns h nl).1 := by
  intro ns
  induction ns with
  | nil => intro R h nl H _; simpa [topoFill] using H
  | cons n ns ih =>
    intro R h nl H hnd
    have hnR : n ∉ R := by
      intro hh
      have := (List.nodup_append.1 hnd).2.2 n hh n (by simp)
      exact this rfl
    obtain ⟨w, nf, lv, vn, vo, at_, _, _⟩ := Heap.insert_spec H.wf (n, deg n)
    unfold topoFill
    dsimp only
    have hnd' : (R ++ [n] ++ ns).Nodup := by simpa using hnd
    have := ih (R ++ [n]) (Heap.insert h (n, deg n)).1 (upd nl n (some (Heap.insert h (n, deg n)).2)) ?_ hnd'
    · simpa using this
    · refine ⟨w, (List.nodup_append.1 hnd').1, by rw [at_, H.at_]; simp, ?_, ?_⟩
      · intro k hk
        by_cases hkn : k = n
        · subst hkn
          exact ⟨_, upd_same _ _ _, (lv _).2 (Or.inr rfl), vn⟩
        · have hk : k ∈ R := by simpa [hkn] using hk
          obtain ⟨l, l1, l2, l3⟩ := H.loc k hk
          exact ⟨l, by rw [upd_ne _ _ hkn]; exact l1, (lv l).2 (Or.inl l2), by rw [vo l l2]; exact l3⟩
      · intro l hl
        rcases (lv l).1 hl with x | x
        · obtain ⟨k, k1, k2⟩ := H.live l x
          have hkn : k ≠ n := fun hh => hnR (hh ▸ k1)
          exact ⟨k, by simp [k1], by rw [upd_ne _ _ hkn]; exact k2⟩
        · exact ⟨n, by simp, by rw [x, upd_same]⟩

theorem Has.build {nl : Nat → Option Nat} {R : List Nat} {deg : Nat → Nat} {h : DH} (H : Has nl R deg h) :
    Has nl R deg (Heap.buildHeap dord h) ∧ Ordered dord (Heap.buildHeap dord h) := by
  obtain ⟨s, o⟩ := Heap.buildHeap_spec dord_swo H.wf
  refine ⟨⟨s.wf, H.nd, by rw [s.at_eq]; exact H.at_, ?_, ?_⟩, o⟩
  · intro n hn
    obtain ⟨l, l1, l2, l3⟩ := H.loc n hn
    exact ⟨l, l1, (s.live l).2 l2, by rw [s.val]; exact l3⟩
  · intro l hl
    exact H.live l ((s.live l).1 hl)

theorem topoDec_has {nl : Nat → Option Nat} {R : List Nat} : ∀ (ks : List Nat) (deg : Nat → Nat) (h : DH),
    Has nl R deg h → Ordered dord h → (∀ n, n ∈ ks → n ∈ R) → (∀ n, n ∈ R → ks.count n ≤ deg n) →
    ∃ h', topoDec nl ks h = some h' ∧ Has nl R (fun n => deg n - ks.count n) h' ∧ Ordered dord h' := by
  intro ks
  induction ks with
  | nil => intro deg h H o _ _; exact ⟨h, rfl, by simpa using H, o⟩
  | cons k ks ih =>
    intro deg h H o hR hc
    have hkR := hR k (by simp)
    obtain ⟨l, l1, l2, l3⟩ := H.loc k hkR
    have hdk := hc k hkR
    simp only [List.count_cons_self] at hdk
    have hdd : ddec (h.val l) = (k, deg k - 1) := by
      rw [l3]; unfold ddec; dsimp only; rw [if_neg (by omega)]
    obtain ⟨w, o', lv, vv, at_⟩ := Heap.decrease_spec dord_swo ddec H.wf o l2 (by
      rw [hdd, l3]; simp [dord])
    unfold topoDec
    rw [l1]
    dsimp only
    have H' : Has nl R (fun n => if n = k then deg n - 1 else deg n) (Heap.decrease dord ddec h l) := by
      refine ⟨w, H.nd, by rw [at_]; exact H.at_, ?_, ?_⟩
      · intro n hn
        obtain ⟨l', x1, x2, x3⟩ := H.loc n hn
        refine ⟨l', x1, (lv l').2 x2, ?_⟩
        rw [vv, upd_apply]
        by_cases hnk : n = k
        · subst hnk
          rw [l1] at x1; simp at x1; subst x1
          simp [hdd]
        · rw [if_neg, x3, if_neg hnk]
          intro hh; subst hh
          exact hnk (H.uniq hn hkR x1 l1)
      · intro l' hl'
        exact H.live l' ((lv l').1 hl')
    obtain ⟨h', a, b, c⟩ := ih _ _ H' o' (fun n hn => hR n (by simp [hn])) (fun n hn => by
      have := hc n hn
      simp only [List.count_cons] at this
      by_cases hnk : n = k
      · subst hnk; simp at this ⊢; omega
      · simp [hnk, Ne.symm hnk] at this ⊢; exact this)
    refine ⟨h', a, ?_, c⟩
    have : (fun n => (if n = k then deg n - 1 else deg n) - List.count n ks) = fun n => deg n - List.count n (k :: ks) := by
      funext n
      simp only [List.count_cons]
      by_cases hnk : n = k
      · subst hnk; simp; omega
      · simp [hnk, Ne.symm hnk]
    rw [← this]; exact b

theorem exists_min (ρ : Nat → Nat) : ∀ (R : List Nat), R ≠ [] → ∃ n, n ∈ R ∧ ∀ k, k ∈ R → ρ n ≤ ρ k := by
  intro R
  induction R with
  | nil => intro h; exact absurd rfl h
  | cons a R ih =>
    intro _
    by_cases hR : R = []
    · subst hR; exact ⟨a, by simp, by intro k hk; simp at hk; rw [hk]; exact Nat.le_refl _⟩
    · obtain ⟨n, h1, h2⟩ := ih hR
      by_cases hle : ρ a ≤ ρ n
      · exact ⟨a, by simp, fun k hk => by
          rcases List.mem_cons.1 hk with x | x
          · rw [x]; exact Nat.le_refl _
          · have := h2 k x; omega⟩
      · exact ⟨n, by simp [h1], fun k hk => by
          rcases List.mem_cons.1 hk with x | x
          · rw [x]; omega
          · exact h2 k x⟩

/-- Starting from the in-degrees among `R`, the heap yields all of `R` in topological order and
never meets a null location. -/
theorem topoSeq_spec {nl : Nat → Option Nat} {outs : Nat → List Nat} {ρ : Nat → Nat}
    (hρ : ∀ a b, b ∈ outs a → ρ a < ρ b) : ∀ (k : Nat) (R : List Nat) (h : DH), R.length = k →
    Has nl R (fun n => (R.flatMap outs).count n) h → Ordered dord h → (∀ p, p ∈ R → ∀ n, n ∈ outs p → n ∈ R) →
    ∃ π, topoSeq nl outs k h = some π ∧ π.Perm R ∧ TopoL outs π := by
  intro k
  induction k with
  | zero =>
    intro R h hk _ _ _
    have : R = [] := List.length_eq_zero_iff.1 hk
    subst this
    exact ⟨[], rfl, List.Perm.refl _, trivial⟩
  | succ k ih =>
    intro R h hk H o hcl
    have hne : R ≠ [] := by intro hh; rw [hh] at hk; simp at hk
    obtain ⟨n0, hn0, hmin⟩ := exists_min ρ R hne
    have hat := H.at_
    obtain ⟨w, o', l, lv, hx, hbest, lv', hval, at'⟩ := Heap.extractMax_spec dord_swo H.wf o (by omega)
    obtain ⟨n, hnR, hnl⟩ := H.live l lv
    obtain ⟨l2, y1, _, y3⟩ := H.loc n hnR
    rw [hnl] at y1; simp at y1; subst y1
    -- the extracted degree is zero
    have hz0 : (R.flatMap outs).count n0 = 0 := by
      rw [List.count_eq_zero]
      intro hm
      obtain ⟨p, p1, p2⟩ := List.mem_flatMap.1 hm
      have := hρ p n0 p2
      have := hmin p p1
      omega
    have hz : (R.flatMap outs).count n = 0 := by
      obtain ⟨l0, z1, z2, z3⟩ := H.loc n0 hn0
      have := hbest l0 z2
      rw [z3, y3] at this
      simp only [dord, decide_eq_true_eq] at this
      omega
    have hnd : ∀ p, p ∈ R → n ∉ outs p := by
      intro p hp hm
      rw [List.count_eq_zero] at hz
      exact hz (List.mem_flatMap.2 ⟨p, hp, hm⟩)
    have hx1 : (Heap.extractMax dord h).2.1 = n := by rw [hx, y3]
    have hperm : R.Perm (n :: R.erase n) := List.perm_cons_erase hnR
    have hnd' := H.nd
    have hmem : ∀ k, k ∈ R.erase n ↔ k ≠ n ∧ k ∈ R := fun k => hnd'.mem_erase_iff
    have hcnt : ∀ k, (R.flatMap outs).count k = (outs n).count k + ((R.erase n).flatMap outs).count k := by
      intro k
      rw [(hperm.flatMap_right outs).count_eq, List.flatMap_cons, List.count_append]
    have H1 : Has nl (R.erase n) (fun k => (R.flatMap outs).count k) (Heap.extractMax dord h).1 := by
      refine ⟨w, hnd'.erase n, ?_, ?_, ?_⟩
      · rw [at', hat, List.length_erase_of_mem hnR]
        have : R.length ≠ 0 := by omega
        omega
      · intro k hk
        obtain ⟨k1, k2⟩ := (hmem k).1 hk
        obtain ⟨l3, z1, z2, z3⟩ := H.loc k k2
        refine ⟨l3, z1, (lv' l3).2 ⟨z2, ?_⟩, by rw [hval]; exact z3⟩
        intro hh; subst hh
        exact k1 (H.uniq k2 hnR z1 hnl)
      · intro l3 hl3
        obtain ⟨a, b⟩ := (lv' l3).1 hl3
        obtain ⟨k, k1, k2⟩ := H.live l3 a
        refine ⟨k, (hmem k).2 ⟨?_, k1⟩, k2⟩
        intro hh; subst hh
        rw [hnl] at k2; simp at k2; exact b k2.symm
    obtain ⟨h1, d1, d2, d3⟩ := topoDec_has (outs n) _ _ H1 o' (fun k hk => (hmem k).2
      ⟨fun hh => hnd n hnR (hh ▸ hk), hcl n hnR k hk⟩) (fun k _ => by rw [hcnt]; omega)
    have d2' : Has nl (R.erase n) (fun k => ((R.erase n).flatMap outs).count k) h1 := by
      have : (fun k => (R.flatMap outs).count k - (outs n).count k) = fun k => ((R.erase n).flatMap outs).count k := by
        funext k; rw [hcnt]; omega
      rw [← this]; exact d2
    obtain ⟨π, e1, e2, e3⟩ := ih (R.erase n) h1 (by rw [List.length_erase_of_mem hnR]; omega) d2' d3
      (fun p hp k hk => by
        have hp' := ((hmem p).1 hp).2
        exact (hmem k).2 ⟨fun hh => hnd p hp' (hh ▸ hk), hcl p hp' k hk⟩)
    refine ⟨n :: π, ?_, (List.Perm.cons n e2).trans hperm.symm, ?_, e3⟩
    · unfold topoSeq
      dsimp only
      rw [hx1, d1]
      dsimp only
      rw [e1]; rfl
    · intro d hd hdm
      have : d ∈ R := by
        rcases List.mem_cons.1 hdm with x | x
        · rw [x]; exact hnR
        · exact ((hmem d).1 (e2.mem_iff.1 x)).2
      exact hnd d this hd

/-- The whole pass: fill, build, extract. -/
theorem topo_spec {outs : Nat → List Nat} {ρ : Nat → Nat} (hρ : ∀ a b, b ∈ outs a → ρ a < ρ b)
    (deg : Nat → Nat) (an : List Nat) (hnd : an.Nodup)
    (hdeg : ∀ n, n ∈ an → deg n = (an.flatMap outs).count n)
    (hcl : ∀ p, p ∈ an → ∀ n, n ∈ outs p → n ∈ an) :
    ∃ π, topoSeq (topoFill deg an (Heap.mk' (0, 0) 1000) (fun _ => none)).2 outs an.length
        (Heap.buildHeap dord (topoFill deg an (Heap.mk' (0, 0) 1000) (fun _ => none)).1) = some π ∧
      π.Perm an ∧ TopoL outs π := by
  have H0 : Has (fun _ => none) [] deg (Heap.mk' (0, 0) 1000) :=
    ⟨Heap.WF_mk _ _ (by omega), by simp, rfl, by simp, by
      rintro l ⟨i, h1, h2, _⟩
      have h2 : i < 1 := h2
      omega⟩
  have H1 := topoFill_has deg an [] _ _ H0 (by simpa using hnd)
  simp only [List.nil_append] at H1
  have H2 : Has (topoFill deg an (Heap.mk' (0, 0) 1000) (fun _ => none)).2 an (fun n => (an.flatMap outs).count n)
      (topoFill deg an (Heap.mk' (0, 0) 1000) (fun _ => none)).1 :=
    { H1 with
      loc := fun n hn => by
        obtain ⟨l, l1, l2, l3⟩ := H1.loc n hn
        exact ⟨l, l1, l2, by rw [l3, hdeg n hn]⟩ }
  obtain ⟨H3, o⟩ := H2.build
  exact topoSeq_spec hρ an.length an _ rfl H3 o hcl

end Verif.DD
