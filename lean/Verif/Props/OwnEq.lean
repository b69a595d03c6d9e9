import Verif.Props.Same
import Verif.Props.Wide
import Verif.Props.GrulerMidlb
/-!
# Searches under an equality that tells apart only what decisions reach (C111)

Merged states that the program's equality takes for one another need not be interchangeable
(`gruler_equality_false`).  What remains: with such an equality the search is sound and ends, and where nothing is
merged it is right.
-/
namespace Verif.DD
set_option linter.unusedSectionVars false
variable {σ : Type} {m : Mdl σ} {rank : σ → Nat} {prim : Int}

/-- The model with all merging refused. -/
def Mdl.noMerge (m : Mdl σ) : Mdl σ := { m with smf := fun _ _ => none }

theorem Path.noMerge {s t : σ} {ls : List Int} {c : Int} : Path m.noMerge s ls c t ↔ Path m s ls c t := by
  constructor
  · intro h
    induction h with
    | nil s => exact Path.nil s
    | cons hs _ ih => exact Path.cons hs ih
  · intro h
    induction h with
    | nil s => exact Path.nil s
    | cons hs _ ih => exact Path.cons (m := m.noMerge) hs ih

theorem homR_noMerge (m : Mdl σ) : HomR id m.noMerge m where
  sense := rfl
  sti := rfl
  stt := rfl
  lgf := fun _ => rfl
  stf := fun s l => by show m.stf s l = (m.stf s l).map id; simp
  stc := fun _ _ => rfl
  eqs := fun _ => rfl
  loc := by show m.loc = m.loc.map _; cases m.loc <;> rfl
  sdom := by show m.sdom = m.sdom.map _; cases m.sdom <;> rfl

theorem Room.noMerge {s0 : σ} {w : Nat} (h : Room m rank s0 w) : Room m.noMerge rank s0 w := by
  intro k L hn hL
  refine h k L hn fun s hs => ?_
  obtain ⟨a, b, ls, c, hp⟩ := hL s hs
  exact ⟨a, b, ls, c, Path.noMerge.1 hp⟩

theorem Room.of_path {s0 s1 : σ} {w : Nat} {ls : List Int} {c : Int} (h : Room m rank s0 w) (hp : Path m s0 ls c s1) : Room m rank s1 w := by
  intro k L hn hL
  refine h k L hn fun s hs => ?_
  obtain ⟨a, b, ls', c', hp'⟩ := hL s hs
  exact ⟨a, b, _, _, hp.trans hp'⟩

theorem Room.mono {s0 : σ} {w w' : Nat} (h : Room m rank s0 w) (hw : w ≤ w') : Room m rank s0 w' :=
  fun k L hn hL => Nat.le_trans (h k L hn hL) hw

section
variable [Same σ] {Vl : σ → Int → Prop} {k : Mdl σ} {r : Src σ}

/-- Where nothing needs merging, the merge function does not matter. -/
theorem relLoop_room (H : LayeredV Vl m rank r.st r.bound) (hk : HomR id m k) {w : Nat} (hR : Room m rank r.st w) :
    ∀ (f : Nat) (g : G σ) (q : LQ) (d p : Nat), q.rest = [] → Inv Vl m rank r prim true g d [] q.next p [] → AnOK g 1 → g.exact = true →
      relLoop k prim w f g q = relLoop m prim w f g q := by
  intro f
  induction f with
  | zero => intros; rfl
  | succ f ih =>
    intro g q d p hr h ha hx
    unfold relLoop
    obtain ⟨w1, w2, w3⟩ := pull_inv H w hr h ha
    have hsort : relSort k g q.next = relSort m g q.next := relSort_map hk g q.next
    have hle : (relSort m g q.next).length ≤ w := by
      rw [(relSort_perm (m := m) g q.next).length_eq]; exact h.fits H hR hx
    have hpk : q.pull k w g = q.pull m w g := by
      unfold LQ.pull
      rw [hsort, mergeLayer_small g hle, mergeLayer_small g hle]
    have hpull : (q.pull m w g).1 = g := by
      unfold LQ.pull
      rw [mergeLayer_small g hle, hr]
    rw [hpk]
    split
    · rfl
    · dsimp only
      rw [w3]
      have hn : relNodes k prim (q.pull m w g).2.1 (q.pull m w g).1 ⟨[], []⟩ = relNodes m prim (q.pull m w g).2.1 (q.pull m w g).1 ⟨[], []⟩ :=
        relNodes_map (f := id) (fun _ _ => rfl) hk prim _ _ _
      rw [hn]
      generalize hv : relNodes m prim (q.pull m w g).2.1 (q.pull m w g).1 ⟨[], []⟩ = v
      obtain ⟨g1, q1⟩ := v
      obtain ⟨x1, ⟨p', x2⟩, x3, x4⟩ := relNodes_inv H _ _ _ p rfl w1.shift w2 g1 q1 hv
      have hx1 : g1.exact = true := by
        have := relNodes_exact (m := m) (prim := prim) (q.pull m w g).2.1 (q.pull m w g).1 ⟨[], []⟩
        rw [hv, hpull] at this
        exact this.trans hx
      exact ih g1 q1 (d + 1) p' x1 x2 x3 hx1

theorem relaxed_noMerge (H : LayeredV Vl m rank r.st r.bound) (hk : HomR id m k) {w f : Nat} (hR : Room m rank r.st w) :
    relaxed k prim w f r = relaxed m prim w f r := by
  have hS : ∀ a b : σ, Same.same (id a) (id b) = Same.same a b := fun _ _ => rfl
  have h0 : start2 k r = start2 m r := start2_map hS hk r
  obtain ⟨i1, i2, _⟩ := start2_inv (prim := prim) (rel := true) H
  have hl : relLoop k prim w f (start2 m r) ⟨[0], []⟩ = relLoop m prim w f (start2 m r) ⟨[0], []⟩ := by
    cases f with
    | zero => rfl
    | succ f =>
      unfold relLoop
      have hp : ∀ m' : Mdl σ, LQ.pull m' w (start2 m r) ⟨[0], []⟩ = (start2 m r, [0], ⟨[], []⟩) := by
        intro m'
        unfold LQ.pull
        have : relSort m' (start2 m r) [0] = [0] := rfl
        rw [this, mergeLayer_single]
      rw [hp, hp]
      dsimp only
      have hn : relNodes k prim [0] (start2 m r) ⟨[], []⟩ = relNodes m prim [0] (start2 m r) ⟨[], []⟩ :=
        relNodes_map (f := id) hS hk prim [0] (start2 m r) ⟨[], []⟩
      rw [hn]
      generalize hv : relNodes m prim [0] (start2 m r) ⟨[], []⟩ = v
      obtain ⟨g2, q1⟩ := v
      obtain ⟨x1, ⟨p', x2⟩, x3, x4⟩ := relNodes_inv H _ _ _ 0 rfl i1 i2 g2 q1 hv
      have hx2 := relNodes_exact (m := m) (prim := prim) [0] (start2 m r) ⟨[], []⟩
      rw [hv] at hx2
      rw [relLoop_room H hk hR f g2 q1 0 p' x1 x2 x3 (hx2.trans start2_exact)]
  unfold relaxed
  rw [h0]
  dsimp only
  rw [i1.root]
  have e : LQ.enQueue (start2 m r) ⟨[], []⟩ 0 = ⟨[0], []⟩ := rfl
  rw [e, hl]
  congr 1
  funext g
  have h1 : tighten k g g.trg = tighten m g g.trg := tighten_map hk g g.trg
  rw [h1]
  have h2 := computeBestBackward_map hk (tighten m g g.trg)
  refine h2.trans ?_
  cases computeBestBackward m (tighten m g g.trg) <;> rfl

end

/-! ### The hypotheses without merging -/

/-- What `LayeredV` says about the states that decisions reach from `s0`. -/
structure LayP (Vl : σ → Int → Prop) (m : Mdl σ) (rank : σ → Nat) (s0 : σ) (v0 : Int) : Prop where
  sink : m.eqs m.stt = true
  ends : Closed Vl m
  src : m.eqs s0 = false
  range : ∀ s ls c, Path m s0 ls c s → m.sense.better (v0 + c) m.sense.best0 = true
  step : ∀ s ls c l s', Path m s0 ls c s → Step m s l s' → m.eqs s' = true ∨ rank s' = rank s + 1
  local_ : ∀ f, m.loc = some f → ∀ s ls v x c, Path m s0 ls v s → Vl s c → m.sense.betterEQ (f s x) c = true
  dom : ∀ f, m.sdom = some f → ∀ a b la lb va vb, Path m s0 la va a → Path m s0 lb vb b → m.eqs a = false →
    (m.eqs b = false ∧ rank a = rank b ∨ ∃ p lp vp l, Path m s0 lp vp p ∧ Step m p l b ∧ m.eqs b = true ∧ rank a = rank p + 1) →
    f a b = true → CoverV Vl m a b ∧ b ≠ m.stt

/-- What `FamV` says about them. -/
structure FamP (Vl : σ → Int → Prop) (Wl : Int → σ → Int → Prop) (m : Mdl σ) (rank : σ → Nat) (M : Int → Mdl σ) : Prop where
  same : ∀ p, M p = { m with lgf := (M p).lgf, loc := (M p).loc }
  sub : ∀ p s l, l ∈ (M p).lgf s → l ∈ m.lgf s
  keep : ∀ p s ls v c, Path m m.sti ls v s → Vl s c → m.sense.better (v + c) p = true → Wl p s c
  back : ∀ p s c, Wl p s c → Vl s c
  lay : ∀ p s ls v, Path m m.sti ls v s → m.eqs s = false → LayP (Wl p) (M p) rank s v

section
variable [Same σ] {Vl : σ → Int → Prop}

theorem LayeredV.toP {s0 : σ} {v0 : Int} (H : LayeredV Vl m rank s0 v0) : LayP Vl m rank s0 v0 where
  sink := H.sink
  ends := H.ends
  src := H.src
  range := fun _ _ _ hp => H.range _ _ (hp.relx Relx.root)
  step := fun _ _ _ _ _ hp hs => H.step _ _ _ _ (hp.relx Relx.root) hs
  local_ := fun f hf _ _ _ _ _ hp hv => H.local_ f hf _ _ _ _ (hp.relx Relx.root) hv
  dom := fun f hf _ _ _ _ _ _ ha hb hq hor hd => H.dom f hf _ _ _ _ (ha.relx Relx.root) (hb.relx Relx.root) hq
    (hor.imp id fun ⟨p, _, _, l, h1, h2, h3⟩ => ⟨p, _, l, h1.relx Relx.root, h2, h3⟩) hd

theorem FamV.toP {Wl : Int → σ → Int → Prop} {M : Int → Mdl σ} (F : FamV Vl Wl m rank M) : FamP Vl Wl m rank M where
  same := F.same
  sub := F.sub
  keep := F.keep
  back := F.back
  lay := fun p s ls v hp hq => (F.lay p s ls v hp hq).toP

/-- States that decisions and swaps alone produce are reached by decisions, at that cost. -/
theorem relx_noMerge {s0 s : σ} {v0 v : Int} (hU : Uniq m s0) (h : Relx m.noMerge rank s0 v0 s v) :
    ∃ ls c, Path m s0 ls c s ∧ v = v0 + c := by
  induction h with
  | root => exact ⟨[], 0, Path.nil _, by omega⟩
  | @step s s' l v _ hs ih =>
    obtain ⟨ls, c, hp, rfl⟩ := ih
    exact ⟨_, _, hp.trans (Path.cons (m := m) hs (Path.nil _)), by show _ + m.stc s l = _; omega⟩
  | mergeL _ _ _ _ _ hm => cases hm
  | mergeR _ _ _ _ _ hm => cases hm
  | swap _ _ hs i1 i2 =>
    obtain ⟨la, ca, pa, _⟩ := i1
    obtain ⟨lb, cb, pb, e⟩ := i2
    obtain rfl := hU.uniq _ _ _ _ _ _ pa pb hs
    exact ⟨lb, cb, pb, e⟩

/-- If the equality tells apart what decisions reach, the model without merging meets all hypotheses of the engine. -/
theorem LayP.own {s0 : σ} {v0 : Int} (hU : Uniq m s0) (H : LayP Vl m rank s0 v0) : LayeredV Vl m.noMerge rank s0 v0 where
  sink := H.sink
  ends := H.ends
  src := H.src
  range := by
    intro s v h
    obtain ⟨ls, c, hp, rfl⟩ := relx_noMerge hU h
    exact H.range _ _ _ hp
  step := by
    intro s v l s' h hs
    obtain ⟨ls, c, hp, rfl⟩ := relx_noMerge hU h
    exact H.step _ _ _ _ _ hp hs
  merge := by intro a b c va vb _ _ _ _ _ hm; cases hm
  local_ := by
    intro f hf s v x c h hv
    obtain ⟨ls, c', hp, rfl⟩ := relx_noMerge hU h
    exact H.local_ f hf _ _ _ _ _ hp hv
  dom := by
    intro f hf a b va vb ha hb hq hor hd
    obtain ⟨la, ca, pa, rfl⟩ := relx_noMerge hU ha
    obtain ⟨lb, cb, pb, rfl⟩ := relx_noMerge hU hb
    refine H.dom f hf _ _ _ _ _ _ pa pb hq ?_ hd
    rcases hor with x | ⟨p, vp, l, h1, h2, h3⟩
    · exact .inl x
    · obtain ⟨lp, cp, pp, rfl⟩ := relx_noMerge hU h1
      exact .inr ⟨p, _, _, l, pp, h2, h3⟩
  fair := {
    refl := hU.refl
    symm := hU.symm
    like := by
      intro a b va vb ha hb hs
      obtain ⟨la, ca, pa, rfl⟩ := relx_noMerge hU ha
      obtain ⟨lb, cb, pb, rfl⟩ := relx_noMerge hU hb
      obtain rfl := hU.uniq _ _ _ _ _ _ pa pb hs
      exact ⟨rfl, rfl, CoverV.refl _ _, fun _ => rfl⟩
    sink := by
      intro b vb hb hs
      obtain ⟨lb, cb, pb, rfl⟩ := relx_noMerge hU hb
      exact hU.sink _ _ _ pb hs
    uniq := fun a b la lb ca cb ha hb => hU.uniq a b la lb ca cb (Path.noMerge.1 ha) (Path.noMerge.1 hb) }

/-- The same for a family of models. -/
theorem FamP.own {Wl : Int → σ → Int → Prop} {M : Int → Mdl σ} (hU : Uniq m m.sti) (F : FamP Vl Wl m rank M) :
    FamV Vl Wl m.noMerge rank (fun p => (M p).noMerge) where
  same := fun p => congrArg Mdl.noMerge (F.same p)
  sub := F.sub
  keep := fun p s ls v c hp => F.keep p s ls v c (Path.noMerge.1 hp)
  back := F.back
  lay := fun p s ls v hp hq => by
    have hp := Path.noMerge.1 hp
    refine LayP.own ?_ (F.lay p s ls v hp hq)
    have hsub : ∀ {x y : σ} {ls c}, Path (M p) x ls c y → Path m x ls c y := fun h => path_sub (F.same p) (F.sub p) h
    refine ⟨hU.refl, hU.symm, fun b lb cb hb hs => ?_, fun a b la lb ca cb ha hb hs => hU.uniq _ _ _ _ _ _ (hp.trans (hsub ha)) (hp.trans (hsub hb)) hs⟩
    have e : (M p).stt = m.stt := by rw [F.same p]
    rw [e] at hs ⊢
    exact hU.sink _ _ _ (hp.trans (hsub hb)) hs

end
end Verif.DD

namespace Verif.BB
open Verif.DD
set_option linter.unusedSectionVars false
variable {τ : Type} {m : Mdl τ} {rank : τ → Nat} {Vl : τ → Int → Prop} {Wl : Nat → Int → τ → Int → Prop}

section
variable [Same τ] {M : Int → Mdl τ}

theorem cutStep_wrel (m : Mdl τ) (lc : Option (τ → Ctx → Int)) (g : G τ) (cur : Nat) (s : BS τ) (n : Nat) : s.wrel ≤ (cutStep m lc g cur s n).wrel := by
  have hd : ∀ (s : BS τ) x b, (domStep m s x b).2.wrel = s.wrel := by
    intro s x b
    unfold domStep
    split <;> rfl
  unfold cutStep
  dsimp only
  generalize hs : (if n = g.root then { s with wrel := s.wrel + 1 } else s) = s1
  have h1 : s.wrel ≤ s1.wrel := by
    rw [← hs]
    split
    · exact Nat.le_succ _
    · exact Nat.le_refl _
  split
  · have h2 := hd s1 (g.st n) (g.bound n)
    generalize domStep m s1 (g.st n) (g.bound n) = D at *
    obtain ⟨b, s2⟩ := D
    dsimp only at h2
    cases b with
    | true => show s.wrel ≤ s2.wrel; omega
    | false =>
      dsimp only
      split
      · show s.wrel ≤ s2.wrel; omega
      · split <;> (show s.wrel ≤ s2.wrel; omega)
  · exact h1

theorem cutFold_wrel (m : Mdl τ) (lc : Option (τ → Ctx → Int)) (g : G τ) (cur : Nat) : ∀ (cs : List Nat) (s : BS τ),
    s.wrel ≤ (cs.foldl (cutStep m lc g cur) s).wrel
  | [], _ => Nat.le_refl _
  | n :: cs, s => Nat.le_trans (cutStep_wrel m lc g cur s n) (cutFold_wrel m lc g cur cs _)

/-- The width of the relaxed diagrams never shrinks. -/
theorem expandP_wrel {lc : Int → Option (τ → Ctx → Int)} {wres fuel : Nat} {s s' : BS τ} {cur : Nat} (h : expandP m M lc wres fuel s cur = some s') :
    s.wrel ≤ s'.wrel := by
  unfold expandP at h
  simp only [Option.bind_eq_some_iff] at h
  obtain ⟨g, _, h⟩ := h
  split at h
  · obtain ⟨s1, hs1⟩ : ∃ s1, s1 = if g.exact = true then setPrimal m s (g.bound g.trg) (g.lab g.trg) else s := ⟨_, rfl⟩
    rw [← hs1] at h
    have h1 : s1.wrel = s.wrel := by rw [hs1]; split <;> rfl
    simp only [Option.bind_eq_some_iff] at h
    obtain ⟨r, _, h⟩ := h
    obtain ⟨s2, hs2⟩ : ∃ s2, s2 = if m.sense.better (r.bound r.trg) s1.primal = true then setPrimal m s1 (r.bound r.trg) (r.lab r.trg) else s1 := ⟨_, rfl⟩
    rw [← hs2] at h
    have h2 : s2.wrel = s1.wrel := by rw [hs2]; split <;> rfl
    split at h
    · simp only [Option.map_eq_some_iff] at h
      obtain ⟨cs, _, rfl⟩ := h
      have := cutFold_wrel m (lc s2.primal) g cur cs s2
      omega
    · simp at h; subst h; omega
  · simp at h; subst h; exact Nat.le_refl _

/-- With room for every layer the merge functions do not matter to the search. -/
theorem loopP_room {T K : Nat → Int → Mdl τ} {k : Mdl τ} {lc : Nat → Int → Option (τ → Ctx → Int)} (F : ∀ i, FamV Vl (Wl i) m rank (T i))
    (hk : HomR id m k) (hK : ∀ i p, HomR id (T i p) (K i p)) {p0 : Int} (hp0 : m.sense.betterEQ p0 m.sense.best0 = true)
    {w wres dfuel : Nat} {lim : Nat → Bool} (hR : Room m rank m.sti w) :
    ∀ (f i : Nat) (s : BS τ), PInv m s → TInv m p0 s → w ≤ s.wrel → loopP k K lc wres dfuel lim f i s = loopP m T lc wres dfuel lim f i s := by
  intro f
  induction f with
  | zero => intros; rfl
  | succ f ih =>
    intro i s hP hT hw
    unfold loopP
    rw [show qord k = qord m by unfold qord; rw [hk.sense], hk.sense]
    by_cases h1 : Heap.empty s.pq = true
    · rw [if_pos h1, if_pos h1]
    · rw [if_neg h1, if_neg h1]
      dsimp only
      obtain ⟨a1, a2, _⟩ := hP.extract (by simpa using h1)
      have hT1 : TInv m p0 { s with pq := (Heap.extractMax (qord m) s.pq).1 } := hT.congr ⟨rfl, rfl, rfl, rfl⟩
      by_cases h2 : lim i = true
      · rw [if_pos h2, if_pos h2]
      · rw [if_neg h2, if_neg h2]
        split
        · obtain ⟨hgen, hopen⟩ := a1.gen _ a2
          have hX := relaxed_noMerge (prim := s.primal) (f := dfuel) (r := BS.src { s with pq := (Heap.extractMax (qord m) s.pq).1 } (Heap.extractMax (qord m) s.pq).2.1)
            ((F i).lay s.primal _ _ _ hgen hopen) (hK i s.primal) ((fam_room (F i) (hR.of_path hgen)).mono hw)
          have key : expandP k (K i) (lc i) wres dfuel { s with pq := (Heap.extractMax (qord m) s.pq).1 } (Heap.extractMax (qord m) s.pq).2.1 =
              expandP m (T i) (lc i) wres dfuel { s with pq := (Heap.extractMax (qord m) s.pq).1 } (Heap.extractMax (qord m) s.pq).2.1 := by
            have e := expandP_mapR (f := id) (fun _ _ => rfl) hk (hK i) (lc := lc i) (lc' := lc i) (fun p => by cases lc i p <;> rfl) wres dfuel
              { s with pq := (Heap.extractMax (qord m) s.pq).1 } (Heap.extractMax (qord m) s.pq).2.1
              (hX.trans (by cases relaxed (T i s.primal) s.primal s.wrel dfuel _ <;> rfl))
            refine Eq.trans e ?_
            cases expandP m (T i) (lc i) wres dfuel { s with pq := (Heap.extractMax (qord m) s.pq).1 } (Heap.extractMax (qord m) s.pq).2.1 <;> rfl
          rw [key]
          cases hx : expandP m (T i) (lc i) wres dfuel { s with pq := (Heap.extractMax (qord m) s.pq).1 } (Heap.extractMax (qord m) s.pq).2.1 with
          | none => rfl
          | some s' =>
            obtain ⟨b1, b2, _⟩ := expand_inv (F i) hp0 a1 hT1 a2 hx
            exact ih _ _ b1 b2 (Nat.le_trans hw (by have := expandP_wrel hx; exact this))
        · exact ih _ _ a1 hT1 hw

theorem searchT_noMerge {T K : Nat → Int → Mdl τ} {k : Mdl τ} {lc : Nat → Int → Option (τ → Ctx → Int)} (F : ∀ i, FamV Vl (Wl i) m rank (T i))
    (H : LayeredV Vl m rank m.sti 0) (hk : HomR id m k) (hK : ∀ i p, HomR id (T i p) (K i p)) {p0 : Int} (hp0 : m.sense.betterEQ p0 m.sense.best0 = true)
    {w dfuel fuel : Nat} {lim : Nat → Bool} (hR : Room m rank m.sti w) :
    searchT k K lc w dfuel lim fuel p0 = searchT m T lc w dfuel lim fuel p0 := by
  unfold searchT
  obtain ⟨h1, h2, _⟩ := init_inv H.src H.fair.toUniq w p0
  have e : init k w p0 = init m w p0 := by
    have hl : k.loc = m.loc := by rw [hk.loc]; cases k.loc <;> rfl
    have hs : k.sti = m.sti := hk.sti
    simp only [init, hk.sense, hl, hs, show qord k = qord m by unfold qord; rw [hk.sense]]
  rw [e]
  exact loopP_room F hk hK hp0 hR fuel 0 _ h1 h2 (Nat.le_refl _)

/-- `searchP_ownEq` for the completions the model keeps (`FamP`). -/
theorem searchV_ownEq (hU : Uniq m m.sti) {Wl : Int → τ → Int → Prop} (F : FamP Vl Wl m rank M) (H : LayP Vl m rank m.sti 0) {p0 : Int}
    (hp0 : m.sense.betterEQ p0 m.sense.best0 = true) (hW : m.loc = none → ∀ c, Vl m.sti c → m.sense.betterEQ m.sense.worst0 c = true)
    {w dfuel fuel : Nat} (hR : Room m rank m.sti w) {lim : Nat → Bool} {s : BS τ}
    (h : searchP m M w dfuel lim fuel p0 = some s) (hns : s.stopped = false) :
    (∀ c, Vl m.sti c → m.sense.betterEQ s.primal c = true) ∧
    (Sol m s.inc s.primal ∨ (s.primal = p0 ∧ ∀ c, Vl m.sti c → m.sense.better c p0 = false)) := by
  have F' := F.own hU
  have H' := H.own hU
  have e := searchT_noMerge (T := fun _ p => (M p).noMerge) (K := fun _ => M) (lc := fun _ p => (M p).loc) (fun _ => F') H' (homR_noMerge m)
    (fun _ p => homR_noMerge (M p)) hp0 (w := w) (dfuel := dfuel) (fuel := fuel) (lim := lim) hR.noMerge
  unfold searchP at h
  rw [e] at h
  obtain ⟨x, y⟩ := searchV_room (T := fun _ p => (M p).noMerge) (fun _ => F') H' hp0 hW hR.noMerge h hns
  exact ⟨x, y.imp (fun hs => Path.noMerge.1 hs) id⟩

/-- C111.  The search uses whatever equality the program provides; `hU` says it tells apart the states that decisions reach.
Nothing is asked of merging, nor of merged states, which the equality may confuse.  With a width no layer exceeds, a search that is
not stopped ends with the optimum. -/
theorem searchP_ownEq (hU : Uniq m m.sti) (F : FamP (Val m) (fun p => Val (M p)) m rank M) (H : LayP (Val m) m rank m.sti 0) {p0 : Int}
    (hp0 : m.sense.betterEQ p0 m.sense.best0 = true) (hW : m.loc = none → ∀ ls c, Sol m ls c → m.sense.betterEQ m.sense.worst0 c = true)
    {w dfuel fuel : Nat} (hR : Room m rank m.sti w) {lim : Nat → Bool} {s : BS τ}
    (h : searchP m M w dfuel lim fuel p0 = some s) (hns : s.stopped = false) :
    (∀ ls c, Sol m ls c → m.sense.betterEQ s.primal c = true) ∧
    (Sol m s.inc s.primal ∨ (s.primal = p0 ∧ ∀ ls c, Sol m ls c → m.sense.better c p0 = false)) := by
  obtain ⟨x, y⟩ := searchV_ownEq hU F H hp0 (fun hl c ⟨ls, hc⟩ => hW hl ls c hc) hR h hns
  exact ⟨fun ls c hc => x c ⟨ls, hc⟩, y.imp id fun ⟨a, b⟩ => ⟨a, fun ls c hc => b c ⟨ls, hc⟩⟩⟩

end
end Verif.BB

namespace Verif.Ex
open Verif.DD

/-! ### The rulers -/

variable (t : Gol)

/-- An equality that compares at least what `equal_to<SGRuler>` compares. -/
structure GolEq (S : Same GolS) : Prop where
  refl : ∀ a, S.same a a = true
  symm : ∀ a b, S.same a b = true → S.same b a = true
  eqC : ∀ a b, S.same a b = true → a.eqC b = true

/-- The program's own. -/
theorem gruSame_ok : GolEq gruSame where
  refl := by intro a; show (a.eqC a && _) = true; simp [GolS.eqC]
  symm := by
    intro a b h
    have h : (a.eqC b && a.hash.toNat % 200191 == b.hash.toNat % 200191) = true := h
    show (b.eqC a && b.hash.toNat % 200191 == a.hash.toNat % 200191) = true
    simp [GolS.eqC] at h ⊢
    exact ⟨⟨⟨h.1.1.1.symm, h.1.1.2.symm⟩, h.1.2.symm⟩, h.2.symm⟩
  eqC := by
    intro a b h
    exact (Bool.and_eq_true _ _ ▸ h : _ ∧ _).1

theorem Gol.relxS {S : Same GolS} (hS : GolEq S) {ub : Option Int} {x s0 : GolS} {v v0 : Int} (h0 : t.Ok s0 v0)
    (h : @Relx GolS S (t.mdl ub) t.rank s0 v0 x v) : t.Ok x v := by
  induction h with
  | root => exact h0
  | step _ hs ih => exact ih.step t hs
  | mergeL _ _ q1 q2 _ hm ih1 ih2 =>
    obtain ⟨e1, e2, rfl⟩ := t.smf_some hm
    exact .inr (ih1.open t q1)
  | mergeR _ _ q1 q2 _ hm ih1 ih2 =>
    obtain ⟨e1, e2, rfl⟩ := t.smf_some hm
    obtain ⟨b1, b2, b3, b4⟩ := ih2.open t q2
    rw [← e1] at b1 b2
    rw [← e2] at b3 b4
    exact .inr ⟨b1, b2, b3, b4⟩
  | swap _ _ hs i1 i2 =>
    have he := hS.eqC _ _ hs
    simp only [GolS.eqC, Bool.and_eq_true, decide_eq_true_iff] at he
    obtain ⟨⟨h1, h2⟩, h3⟩ := he
    rcases i1 with ⟨rfl, _⟩ | ⟨a1, a2, a3, a4⟩
    · rcases i2 with ⟨_, b⟩ | ⟨_, b, _⟩
      · exact .inl ⟨rfl, b⟩
      · rw [← h1] at b; simp [Gol.target] at b
    · rcases i2 with ⟨e, b⟩ | ⟨_, _, b, _⟩
      · rw [e] at h1; simp [Gol.target] at h1; omega
      · exact .inr ⟨a1, a2, by rw [h2]; exact b, a4⟩

/-- What the engine theorems that ask nothing of completions need, for any generator that shows no more than all marks. -/
theorem Gol.layeredS {S : Same GolS} (hS : GolEq S) (hn : 2 ≤ t.n) (hL : t.L < 2147483646) {k : Mdl GolS} (hk : k = { t.full with lgf := k.lgf, loc := k.loc })
    (hs : ∀ s l, l ∈ k.lgf s → l ∈ t.full.lgf s) (hl : k.loc = none) {s0 : GolS} {ls : List Int} {v0 : Int} (hp : Path t.full t.full.sti ls v0 s0)
    (hq : t.full.eqs s0 = false) : @LayeredV GolS S (fun _ _ => False) k t.rank s0 v0 := by
  have h0 := (t.reach hn hp).1
  have e1 : k.eqs = t.full.eqs := by rw [hk]
  have e2 : k.stt = t.full.stt := by rw [hk]
  have e3 : k.sense = t.full.sense := by rw [hk]
  have e4 : k.smf = t.full.smf := by rw [hk]
  have e5 : k.sdom = none := by rw [hk]; rfl
  have ok : ∀ s v, @Relx GolS S k t.rank s0 v0 s v → t.Ok s v := fun s v h => t.relxS hS (ub := none) h0 (@relx_sub GolS t.rank S _ _ hk hs _ _ _ _ h)
  have hto : ∀ {s v}, t.Ok s v → t.full.eqs s = true → s = t.target := by
    intro s v h hq
    rcases h with ⟨h, _⟩ | ⟨_, h, _⟩
    · exact h
    · simp [Gol.full, Gol.mdl] at hq; omega
  have key : ∀ a b va vb, t.Ok a va → t.Ok b vb → S.same a b = true → t.full.eqs a = t.full.eqs b ∧ t.rank a = t.rank b := by
    intro a b va vb _ _ h
    have he := hS.eqC _ _ h
    simp only [GolS.eqC, Bool.and_eq_true, decide_eq_true_iff] at he
    refine ⟨?_, he.1.1⟩
    show decide (a.k = t.n) = decide (b.k = t.n)
    rw [he.1.1]
  exact {
    sink := by rw [e1, e2]; simp [Gol.full, Gol.mdl, Gol.target]
    ends := fun _ _ h => h.elim
    src := by rw [e1]; exact hq
    range := by
      intro s v h
      have : v < 2147483647 := by
        rcases ok s v h with ⟨_, _, h2⟩ | ⟨_, h2, h3, h4⟩ <;> omega
      rw [e3]
      simp only [Gol.full, Gol.mdl, Sense.better, Sense.best0]; simpa using this
    step := by
      intro s v l s' h hst
      have hst := step_sub hk hs hst
      obtain ⟨_, h2, _, _⟩ := (ok s v h).open t (ub := none) hst.1
      obtain ⟨c, rfl, _, _, _, a⟩ := (t.step_iff h2).1 hst
      rw [a, e1]
      unfold Gol.next
      by_cases hn : s.k + 1 = t.n
      · left; rw [if_pos hn]; simp [Gol.full, Gol.mdl, Gol.target]
      · right; rw [if_neg hn]; rfl
    merge := by
      intro a b c va vb h1 h2 q1 q2 hr hm
      rw [e4] at hm
      rw [e1] at q1 ⊢
      obtain ⟨_, _, rfl⟩ := t.smf_some (ub := none) hm
      exact ⟨q1, rfl, fun _ h => h.elim, fun _ h => h.elim⟩
    local_ := by intro f hf; rw [hl] at hf; cases hf
    dom := by intro f hf; rw [e5] at hf; cases hf
    fair := {
      refl := hS.refl
      symm := hS.symm
      like := by
        intro a b va vb ha hb h
        rw [e1]
        have ha := ok a va ha
        have hb := ok b vb hb
        obtain ⟨k1, k2⟩ := key a b va vb ha hb h
        refine ⟨k1, k2, fun _ h => h.elim, fun hx => ?_⟩
        rw [hto ha hx, hto hb (k1 ▸ hx)]
      sink := by
        intro b vb hb h
        have hb := ok b vb hb
        have he := hS.eqC _ _ h
        rw [e2] at he ⊢
        refine hto hb ?_
        simp only [GolS.eqC, Bool.and_eq_true, decide_eq_true_iff] at he
        show decide (b.k = t.n) = true
        rw [← he.1.1]; simp [Gol.full, Gol.mdl, Gol.target]
      uniq := fun a b la lb ca cb ha hb h => gruler_eq t hn (hp.trans (path_sub hk hs ha)) (hp.trans (path_sub hk hs hb)) (hS.eqC _ _ h) } }

/-- Generators the rulers use: they show some of the marks, depending on the primal bound. -/
structure Gol.Gen (K : Int → Mdl GolS) : Prop where
  same : ∀ p, K p = { t.full with lgf := (K p).lgf }
  sub : ∀ p s l, l ∈ (K p).lgf s → l ∈ t.full.lgf s

theorem Gol.gen_gruler : t.Gen t.fam := ⟨fun _ => rfl, t.fam_sub⟩
theorem Gol.gen_mid : t.Gen t.mid := ⟨fun _ => rfl, fun p s l h => by rw [t.mid_eq] at h; exact (List.mem_filter.1 h).1⟩

theorem Gol.famS {S : Same GolS} (hS : GolEq S) (hn : 2 ≤ t.n) (hL : t.L < 2147483646) {K : Int → Mdl GolS} (hK : t.Gen K) :
    @FamV GolS S (fun _ _ => False) (fun _ _ _ => False) t.full t.rank K where
  same := fun p => (hK.same p).trans (by rw [hK.same p])
  sub := hK.sub
  keep := fun _ _ _ _ _ _ h => h.elim
  back := fun _ _ _ h => h.elim
  lay := fun p s ls v hp hq => t.layeredS hS hn hL ((hK.same p).trans (by rw [hK.same p])) (hK.sub p) (by rw [hK.same p]; rfl) hp hq

theorem Gol.rootS {S : Same GolS} (hS : GolEq S) (hn : 2 ≤ t.n) (hL : t.L < 2147483646) :
    @LayeredV GolS S (fun _ _ => False) t.full t.rank t.full.sti 0 :=
  t.layeredS hS hn hL rfl (fun _ _ h => h) rfl (Path.nil _) (by simp [Gol.full, Gol.mdl]; omega)

/-- C111: with the program's own equality, whatever the width, everything the search reports is a ruler with `n` marks whose
length is the reported value.  Nothing is asked of the table. -/
theorem gruler_ownEq_sound {S : Same GolS} (hS : GolEq S) (hn : 2 ≤ t.n) (hL : t.L < 2147483646) {K : Int → Mdl GolS} (hK : t.Gen K) {w dfuel fuel : Nat} {lim : Nat → Bool} {s : BB.BS GolS}
    (h : @BB.searchP GolS S t.full K w dfuel lim fuel 2147483647 = some s) :
    ∀ x, x ∈ s.sols → ∃ ms : List Nat, x.2 = ms.map (fun i : Nat => (i : Int)) ∧ Golomb (0 :: ms) ∧ ms.length + 1 = t.n ∧
      x.1 = ((ms.getLast?.getD 0 : Nat) : Int) := by
  intro x hx
  obtain ⟨ms, h1, h2, h3, h4, _⟩ := (gruler_sol t hn _ _).1
    ((@BB.searchT_sound GolS t.full t.rank (fun _ => K) _ _ _ S (fun _ => t.famS hS hn hL hK) (t.rootS hS hn hL) _ rfl _ _ _ _ _ h).1 x hx)
  exact ⟨ms, h1, h2, h3, h4⟩

/-- C111: with the program's own equality the search ends. -/
theorem gruler_ownEq_ends {S : Same GolS} (hS : GolEq S) (hn : 2 ≤ t.n) (hL : t.L < 2147483646) {K : Int → Mdl GolS} (hK : t.Gen K) (w : Nat) {dfuel : Nat} (hf : t.n + 2 ≤ dfuel)
    (lim : Nat → Bool) : ∃ N, ∀ fuel, N < fuel → ∃ s, @BB.searchP GolS S t.full K w dfuel lim fuel 2147483647 = some s ∧
      (s.stopped = true ∨ Heap.empty s.pq = true) := by
  have hb : @RankBound GolS S t.full t.rank t.full.sti 0 t.n := by
    intro s v h _
    rcases t.relxS hS (ub := none) (t.ok_root hn) h with ⟨h, _⟩ | ⟨_, h, _⟩
    · rw [h]; exact Nat.le_refl _
    · exact Nat.le_of_lt h
  exact @BB.searchT_ends GolS t.full t.rank (fun _ => K) (fun _ p => (K p).loc) _ _ S (fun _ => t.famS hS hn hL hK) (t.rootS hS hn hL) _ rfl _ hb w _ hf lim

theorem Gol.uniqS {S : Same GolS} (hS : GolEq S) (hn : 2 ≤ t.n) (hL : t.L < 2147483646) : @Uniq GolS S t.full t.full.sti :=
  @Fair.toUniq GolS S _ _ _ _ _ (@LayeredV.fair GolS S _ _ _ _ _ (t.rootS hS hn hL))

/-- C111: with the program's own equality and a width no layer exceeds, the search of gruler ends with the shortest ruler,
or nothing when that is longer than `L + 1`. -/
theorem gruler_ownEq_room {S : Same GolS} (hS : GolEq S) (hn : 2 ≤ t.n) (hL : t.L < 2147483646) (hopt : t.OptOk) {w dfuel fuel : Nat} (hR : Room t.full t.rank t.full.sti w)
    {lim : Nat → Bool} {s : BB.BS GolS} (h : @BB.searchP GolS S t.full t.fam w dfuel lim fuel 2147483647 = some s) (hns : s.stopped = false) :
    (∃ q : Nat, s.primal = q ∧ Shortest t.n q ∧ ∃ ms : List Nat, s.inc = ms.map (fun i : Nat => (i : Int)) ∧ Golomb (0 :: ms) ∧
      ms.length + 1 = t.n ∧ ms.getLast?.getD 0 = q) ∨
    (s.primal = 2147483647 ∧ ∀ ms : List Nat, Golomb (0 :: ms) → ms.length + 1 = t.n → t.L + 1 < ms.getLast?.getD 0) := by
  obtain ⟨h1, h2⟩ := @BB.searchP_ownEq GolS _ t.rank S _ (t.uniqS hS hn hL) (@FamV.toP GolS _ _ instSameEq _ _ _ (t.fam_ok hn hL hopt)) (@LayeredV.toP GolS _ _ instSameEq _ _ _ (t.layered_root hn hL)) _ rfl (fun _ ls c hs => by
    have := t.sol_nonneg hn hs
    simp [Gol.full, Gol.mdl, Sense.betterEQ, Sense.worst0]; omega) _ _ _ hR _ _ h hns
  exact t.answer hn hL h1 h2

/-- C111, the same for gruler_mid. -/
theorem gruler_mid_ownEq_room {S : Same GolS} (hS : GolEq S) (hn : 2 ≤ t.n) (hL : t.L < 2147483646) (hopt : t.OptOk) {w dfuel fuel : Nat} (hR : Room t.full t.rank t.full.sti w)
    {lim : Nat → Bool} {s : BB.BS GolS} (h : @BB.searchP GolS S t.full t.mid w dfuel lim fuel 2147483647 = some s) (hns : s.stopped = false) :
    (∃ q : Nat, s.primal = q ∧ Shortest t.n q ∧ ∃ ms : List Nat, s.inc = ms.map (fun i : Nat => (i : Int)) ∧ Golomb (0 :: ms) ∧
      ms.length + 1 = t.n ∧ ms.getLast?.getD 0 = q) ∨
    (s.primal = 2147483647 ∧ ∀ ms : List Nat, Golomb (0 :: ms) → ms.length + 1 = t.n → t.L + 1 < ms.getLast?.getD 0) := by
  obtain ⟨Q, hQ, hcov⟩ := t.mid_covers hn hopt
  obtain ⟨h1, h2⟩ := @BB.searchV_ownEq GolS _ t.rank _ S _ (t.uniqS hS hn hL) _ (@FamV.toP GolS _ _ instSameEq _ _ _ (t.mid_ok hn hL hopt hQ)) (@LayeredV.toP GolS _ _ instSameEq _ _ _ (t.can_layered hn hL Q)) _ rfl (fun _ c hs => by
    have := t.can_nonneg hn hs
    simp [Gol.full, Gol.mdl, Sense.betterEQ, Sense.worst0]; omega) _ _ _ hR _ _ h hns
  exact t.mid_answer hn hL hcov h1 h2

/-! ### The rulers of gruler_midlb -/

/-- An equality that compares at least what `equal_to<SGRuler>` of gruler_midlb compares. -/
structure GolBEq (S : Same GolB) : Prop where
  refl : ∀ a, S.same a a = true
  symm : ∀ a b, S.same a b = true → S.same b a = true
  eqC : ∀ a b, S.same a b = true → a.eqC b = true

/-- What lookups of gruler_midlb do: `equal_to` (examples/gruler_midlb.cpp:28-33) in the bucket of `hash`
(examples/gruler_midlb.cpp:35-43), over tables for 200000 entries (src/dd.hpp:351, 560). -/
@[reducible] def midlbSame : Same GolB := tabSame 200191 GolB.eqC (fun a => a.hash.toNat)

theorem midlbSame_ok : GolBEq midlbSame where
  refl := by intro a; show (a.eqC a && _) = true; simp [GolB.eqC, GolS.eqC]
  symm := by
    intro a b h
    have h : (a.eqC b && a.hash.toNat % 200191 == b.hash.toNat % 200191) = true := h
    show (b.eqC a && b.hash.toNat % 200191 == a.hash.toNat % 200191) = true
    simp [GolB.eqC, GolS.eqC] at h ⊢
    exact ⟨⟨⟨h.1.1.1.symm, h.1.1.2.symm⟩, h.1.2.symm⟩, h.2.symm⟩
  eqC := by
    intro a b h
    exact (Bool.and_eq_true _ _ ▸ h : _ ∧ _).1

/-- States relaxation can reach under such an equality. -/
def Gol.OkB (x : GolB) (v : Int) : Prop := t.Ok x.g v ∧ 1 ≤ x.sm ∧ (x.g.k = t.n → x = t.targetB)

theorem Gol.okB_root (hn : 2 ≤ t.n) : t.OkB t.fullB.sti 0 :=
  ⟨t.ok_root hn, Nat.le_refl 1, fun h => by simp [Gol.fullB, Gol.mdlB] at h; omega⟩

theorem Gol.OkB.step {P : Nat → Int → Bool} {x x' : GolB} {v l : Int} (h : t.OkB x v) (hs : Step (t.subB P) x l x') :
    t.OkB x' (v + (t.subB P).stc x l) := by
  obtain ⟨a, b⟩ := t.stepB_proj h.2.1 hs
  refine ⟨h.1.step t (ub := none) ((t.sub_step).1 a).1, b, fun hk => ?_⟩
  obtain ⟨hx, c, rfl, _, _, _, _, rfl⟩ := (t.stepB_iff).1 hs
  unfold Gol.nextB at hk ⊢
  by_cases hn : x.g.k + 1 = t.n
  · rw [if_pos hn]
  · rw [if_neg hn] at hk; exact absurd hk hn

theorem Gol.relxBS {S : Same GolB} (hS : GolBEq S) {P : Nat → Int → Bool} {x s0 : GolB} {v v0 : Int} (h0 : t.OkB s0 v0)
    (h : @Relx GolB S (t.subB P) t.rankB s0 v0 x v) : t.OkB x v := by
  have hq : ∀ a : GolB, (t.subB P).eqs a = false → a.g.k ≠ t.n := fun a h => by simpa [Gol.subB, Gol.mdlB] using h
  induction h with
  | root => exact h0
  | step _ hs ih => exact ih.step t hs
  | mergeL _ _ q1 q2 _ hm ih1 ih2 =>
    obtain ⟨e1, e2, rfl⟩ := t.smfB_some hm
    refine ⟨.inr (ih1.1.open t (ub := none) q1), ?_, fun hk => absurd hk (hq _ q1)⟩
    have := ih1.2.1; have := ih2.2.1
    show 1 ≤ min _ _
    omega
  | mergeR _ _ q1 q2 _ hm ih1 ih2 =>
    obtain ⟨e1, e2, rfl⟩ := t.smfB_some hm
    obtain ⟨b1, b2, b3, b4⟩ := ih2.1.open t (ub := none) q2
    rw [← e1] at b1 b2
    rw [← e2] at b3 b4
    refine ⟨.inr ⟨b1, b2, b3, b4⟩, ?_, fun hk => absurd hk (hq _ q1)⟩
    have := ih1.2.1; have := ih2.2.1
    show 1 ≤ min _ _
    omega
  | swap _ _ hs i1 i2 =>
    have he := hS.eqC _ _ hs
    simp only [GolB.eqC, GolS.eqC, Bool.and_eq_true, decide_eq_true_iff] at he
    obtain ⟨⟨h1, h2⟩, h3⟩ := he
    refine ⟨?_, i1.2⟩
    rcases i1.1 with ⟨e, _⟩ | ⟨a1, a2, a3, a4⟩
    · rcases i2.1 with ⟨_, b⟩ | ⟨_, b, _⟩
      · exact .inl ⟨e, b⟩
      · rw [← h1, e] at b; simp [Gol.target] at b
    · rcases i2.1 with ⟨e, b⟩ | ⟨_, _, b, _⟩
      · rw [e] at h1; simp [Gol.target] at h1; omega
      · exact .inr ⟨a1, a2, by rw [h2]; exact b, a4⟩

theorem Gol.reachB (hn : 2 ≤ t.n) {s : GolB} {ls : List Int} {v : Int} (h : Path t.fullB t.fullB.sti ls v s) : t.OkB s v := by
  have key : ∀ {x y : GolB} {ls : List Int} {c v : Int}, Path t.fullB x ls c y → t.OkB x v → t.OkB y (v + c) := by
    intro x y ls c v h
    rw [t.fullB_eq] at h
    induction h generalizing v with
    | nil => intro h; simpa using h
    | cons hs _ ih =>
      intro h
      rw [← Int.add_assoc]
      exact ih (h.step t hs)
  have := key h (t.okB_root hn)
  rwa [Int.zero_add] at this

theorem Gol.layeredBS {S : Same GolB} (hS : GolBEq S) (hn : 2 ≤ t.n) (hL : t.L < 2147483646) (P : Nat → Int → Bool) {s0 : GolB} {ls : List Int} {v0 : Int}
    (hp : Path t.fullB t.fullB.sti ls v0 s0) (hq : t.fullB.eqs s0 = false) : @LayeredV GolB S (fun _ _ => False) (t.subB P) t.rankB s0 v0 := by
  have h0 := t.reachB hn hp
  have ok : ∀ s v, @Relx GolB S (t.subB P) t.rankB s0 v0 s v → t.OkB s v := fun s v h => t.relxBS hS h0 h
  have hto : ∀ {s v}, t.OkB s v → t.fullB.eqs s = true → s = t.targetB := fun h hq => h.2.2 (by simpa [Gol.fullB, Gol.mdlB] using hq)
  have hsub : ∀ {x y : GolB} {ls : List Int} {c : Int}, Path (t.subB P) x ls c y → Path t.fullB x ls c y := by
    intro x y ls c h
    rw [t.fullB_eq]
    exact path_sub rfl (t.subB_le fun _ _ _ => rfl) h
  exact {
    sink := by simp [Gol.subB, Gol.mdlB, Gol.targetB, Gol.target]
    ends := fun _ _ h => h.elim
    src := hq
    range := by
      intro s v h
      have : v < 2147483647 := by
        rcases (ok s v h).1 with ⟨_, _, h2⟩ | ⟨_, h2, h3, h4⟩ <;> omega
      simp only [Gol.subB, Gol.mdlB, Sense.better, Sense.best0]; simpa using this
    step := by
      intro s v l s' h hst
      obtain ⟨_, c, rfl, _, _, _, _, rfl⟩ := (t.stepB_iff).1 hst
      unfold Gol.nextB
      by_cases hn : s.g.k + 1 = t.n
      · left; rw [if_pos hn]; simp [Gol.subB, Gol.mdlB, Gol.targetB, Gol.target]
      · right; rw [if_neg hn]; rfl
    merge := by
      intro a b c va vb h1 h2 q1 q2 hr hm
      obtain ⟨_, _, rfl⟩ := t.smfB_some hm
      exact ⟨q1, rfl, fun _ h => h.elim, fun _ h => h.elim⟩
    local_ := by intro f hf; simp [Gol.subB, Gol.mdlB] at hf
    dom := by intro f hf; simp [Gol.subB, Gol.mdlB] at hf
    fair := {
      refl := hS.refl
      symm := hS.symm
      like := by
        intro a b va vb ha hb h
        have ha := ok a va ha
        have hb := ok b vb hb
        have he := hS.eqC _ _ h
        simp only [GolB.eqC, GolS.eqC, Bool.and_eq_true, decide_eq_true_iff] at he
        have k1 : t.fullB.eqs a = t.fullB.eqs b := by
          show decide (a.g.k = t.n) = decide (b.g.k = t.n)
          rw [he.1.1]
        exact ⟨k1, he.1.1, fun _ h => h.elim, fun hx => by rw [hto ha hx, hto hb (k1 ▸ hx)]⟩
      sink := by
        intro b vb hb h
        have hb := ok b vb hb
        have he := hS.eqC _ _ h
        refine hto hb ?_
        simp only [GolB.eqC, GolS.eqC, Bool.and_eq_true, decide_eq_true_iff] at he
        show decide (b.g.k = t.n) = true
        rw [← he.1.1]; simp [Gol.subB, Gol.mdlB, Gol.targetB, Gol.target]
      uniq := fun a b la lb ca cb ha hb h => midlb_eq t hn (hp.trans (hsub ha)) (hp.trans (hsub hb)) (hS.eqC _ _ h) } }

theorem Gol.rootBS {S : Same GolB} (hS : GolBEq S) (hn : 2 ≤ t.n) (hL : t.L < 2147483646) :
    @LayeredV GolB S (fun _ _ => False) t.fullB t.rankB t.fullB.sti 0 := by
  have h := t.layeredBS hS hn hL (fun _ _ => true) (Path.nil _) (by simp [Gol.fullB, Gol.mdlB]; omega)
  rwa [← t.fullB_eq] at h

theorem Gol.famBS {S : Same GolB} (hS : GolBEq S) (hn : 2 ≤ t.n) (hL : t.L < 2147483646) :
    @FamV GolB S (fun _ _ => False) (fun _ _ _ => False) t.fullB t.rankB t.midB where
  same := fun _ => rfl
  sub := by
    intro p s l h
    rw [t.midB_eq] at h
    rw [t.fullB_eq]
    exact t.subB_le (fun _ _ _ => rfl) s l h
  keep := fun _ _ _ _ _ _ h => h.elim
  back := fun _ _ _ h => h.elim
  lay := fun p s ls v hp hq => by
    rw [t.midB_eq]
    exact t.layeredBS hS hn hL _ hp hq

/-- C111 for gruler_midlb: everything reported is a ruler. -/
theorem midlb_ownEq_sound {S : Same GolB} (hS : GolBEq S) (hn : 2 ≤ t.n) (hL : t.L < 2147483646) {w dfuel fuel : Nat} {lim : Nat → Bool} {s : BB.BS GolB}
    (h : @BB.searchP GolB S t.fullB t.midB w dfuel lim fuel 2147483647 = some s) :
    ∀ x, x ∈ s.sols → ∃ ms : List Nat, x.2 = ms.map (fun i : Nat => (i : Int)) ∧ Golomb (0 :: ms) ∧ ms.length + 1 = t.n ∧
      x.1 = ((ms.getLast?.getD 0 : Nat) : Int) := by
  intro x hx
  obtain ⟨ms, h1, h2, h3, h4, _⟩ := (midlb_sol t hn _ _).1
    ((@BB.searchT_sound GolB t.fullB t.rankB (fun _ => t.midB) _ _ _ S (fun _ => t.famBS hS hn hL) (t.rootBS hS hn hL) _ rfl _ _ _ _ _ h).1 x hx)
  exact ⟨ms, h1, h2, h3, h4⟩

/-- C111 for gruler_midlb: the search ends. -/
theorem midlb_ownEq_ends {S : Same GolB} (hS : GolBEq S) (hn : 2 ≤ t.n) (hL : t.L < 2147483646) (w : Nat) {dfuel : Nat} (hf : t.n + 2 ≤ dfuel)
    (lim : Nat → Bool) : ∃ N, ∀ fuel, N < fuel → ∃ s, @BB.searchP GolB S t.fullB t.midB w dfuel lim fuel 2147483647 = some s ∧
      (s.stopped = true ∨ Heap.empty s.pq = true) := by
  have hb : @RankBound GolB S t.fullB t.rankB t.fullB.sti 0 t.n := by
    intro s v h _
    rw [t.fullB_eq] at h
    rcases (t.relxBS hS (t.okB_root hn) h).1 with ⟨h, _⟩ | ⟨_, h, _⟩
    · show s.g.k ≤ t.n
      rw [h]; exact Nat.le_refl _
    · exact Nat.le_of_lt h
  exact @BB.searchT_ends GolB t.fullB t.rankB (fun _ => t.midB) (fun _ p => (t.midB p).loc) _ _ S (fun _ => t.famBS hS hn hL) (t.rootBS hS hn hL) _ rfl _ hb w _ hf lim

/-- C111 for gruler_midlb: with room for every layer the answer is right. -/
theorem midlb_ownEq_room {S : Same GolB} (hS : GolBEq S) (hn : 2 ≤ t.n) (hL : t.L < 2147483646) (hopt : t.OptOk) {w dfuel fuel : Nat}
    (hR : Room t.fullB t.rankB t.fullB.sti w)
    {lim : Nat → Bool} {s : BB.BS GolB} (h : @BB.searchP GolB S t.fullB t.midB w dfuel lim fuel 2147483647 = some s) (hns : s.stopped = false) :
    (∃ q : Nat, s.primal = q ∧ Shortest t.n q ∧ ∃ ms : List Nat, s.inc = ms.map (fun i : Nat => (i : Int)) ∧ Golomb (0 :: ms) ∧
      ms.length + 1 = t.n ∧ ms.getLast?.getD 0 = q) ∨
    (s.primal = 2147483647 ∧ ∀ ms : List Nat, Golomb (0 :: ms) → ms.length + 1 = t.n → t.L + 1 < ms.getLast?.getD 0) := by
  obtain ⟨Q, hQ, hcov⟩ := t.midB_covers hn hopt
  have hU := @Fair.toUniq GolB S _ _ _ _ _ (@LayeredV.fair GolB S _ _ _ _ _ (t.rootBS hS hn hL))
  obtain ⟨h1, h2⟩ := @BB.searchV_ownEq GolB _ t.rankB _ S _ hU _ (@FamV.toP GolB _ _ instSameEq _ _ _ (t.midB_ok hn hL hopt hQ))
    (@LayeredV.toP GolB _ _ instSameEq _ _ _ (t.canB_layered hn hL Q)) _ rfl (fun _ c hs => by
    have := t.canB_nonneg hn hs
    simp [Gol.fullB, Gol.mdlB, Sense.betterEQ, Sense.worst0]; omega) _ _ _ hR _ _ h hns
  exact t.midB_answer hn hL hcov h1 h2

/-! ### Cases -/

/-- gruler over its own tables: four marks within length 9, width 3. -/
example : ∃ s, @BB.searchP GolS gruSame (⟨4, 8, optTable⟩ : Gol).full (⟨4, 8, optTable⟩ : Gol).fam 3 20 (fun _ => false) 20 2147483647 = some s ∧
    s.primal = 6 ∧ s.sols.length = 1 ∧ Golomb [0, 1, 4, 6] := by
  have hv : (@BB.searchP GolS gruSame (⟨4, 8, optTable⟩ : Gol).full (⟨4, 8, optTable⟩ : Gol).fam 3 20 (fun _ => false) 20 2147483647).map
      (fun s => (s.primal, s.sols)) = some (6, [(6, [1, 4, 6])]) := by decide +kernel
  simp only [Option.map_eq_some_iff] at hv
  obtain ⟨s, h1, h2⟩ := hv
  simp at h2
  obtain ⟨ms, a, b, _⟩ := gruler_ownEq_sound ⟨4, 8, optTable⟩ gruSame_ok (by decide) (by decide) (Gol.gen_gruler _) h1 (6, [1, 4, 6]) (by rw [h2.2]; simp)
  have e : ms = [1, 4, 6] := by
    have : [1, 4, 6].map (fun i : Nat => (i : Int)) = ms.map (fun i : Nat => (i : Int)) := a
    exact ((List.map_inj_right (fun x y h => Int.ofNat.inj h)).1 this).symm
  rw [e] at b
  exact ⟨s, h1, h2.1, by rw [h2.2]; rfl, b⟩

/-- Room for every layer: three marks within length 4. -/
example : ∃ s, @BB.searchP GolS gruSame (⟨3, 3, optTable⟩ : Gol).full (⟨3, 3, optTable⟩ : Gol).fam 60 20 (fun _ => false) 20 2147483647 = some s ∧
    s.primal = 3 ∧ Shortest 3 3 := by
  have hv : (@BB.searchP GolS gruSame (⟨3, 3, optTable⟩ : Gol).full (⟨3, 3, optTable⟩ : Gol).fam 60 20 (fun _ => false) 20 2147483647).map
      (fun s => (s.primal, s.stopped)) = some (3, false) := by decide +kernel
  simp only [Option.map_eq_some_iff] at hv
  obtain ⟨s, h1, h2⟩ := hv
  simp at h2
  rcases gruler_ownEq_room ⟨3, 3, optTable⟩ gruSame_ok (by decide) (by decide) (gruler_table (by decide) 3) (w := 60)
    (BB.room_level (Gol.layered_root ⟨3, 3, optTable⟩ (by decide) (by decide)) (Gol.rankBound ⟨3, 3, optTable⟩ (by decide)) (fun d hd => by
      have : ∀ d, d < 4 → (BB.level (⟨3, 3, optTable⟩ : Gol).full d).length ≤ 60 := by decide +kernel
      exact this d (by simp only at hd; omega))) h1 h2.2 with ⟨q, a, b, _⟩ | ⟨a, _⟩
  · have e : q = 3 := by omega
    subst e
    exact ⟨s, h1, h2.1, b⟩
  · omega

/-- gruler_midlb over its own tables, with room for every layer. -/
example : ∃ s, @BB.searchP GolB midlbSame (⟨3, 3, optTable19⟩ : Gol).fullB (⟨3, 3, optTable19⟩ : Gol).midB 60 20 (fun _ => false) 20 2147483647 = some s ∧
    s.primal = 3 ∧ Shortest 3 3 := by
  have hv : (@BB.searchP GolB midlbSame (⟨3, 3, optTable19⟩ : Gol).fullB (⟨3, 3, optTable19⟩ : Gol).midB 60 20 (fun _ => false) 20 2147483647).map
      (fun s => (s.primal, s.stopped)) = some (3, false) := by decide +kernel
  simp only [Option.map_eq_some_iff] at hv
  obtain ⟨s, h1, h2⟩ := hv
  simp at h2
  rcases midlb_ownEq_room ⟨3, 3, optTable19⟩ midlbSame_ok (by decide) (by decide) (gruler_table19 (by decide) 3) (w := 60)
    (BB.room_level (Gol.canB_layered ⟨3, 3, optTable19⟩ (by decide) (by decide) 0) (Gol.rankBoundB ⟨3, 3, optTable19⟩ (by decide)) (fun d hd => by
      have : ∀ d, d < 4 → (BB.level (⟨3, 3, optTable19⟩ : Gol).fullB d).length ≤ 60 := by decide +kernel
      exact this d (by simp only at hd; omega))) h1 h2.2 with ⟨q, a, b, _⟩ | ⟨a, _⟩
  · have e : q = 3 := by omega
    subst e
    exact ⟨s, h1, h2.1, b⟩
  · omega

end Verif.Ex
