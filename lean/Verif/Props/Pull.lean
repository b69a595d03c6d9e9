import Verif.Props.BB
import Verif.Props.Wide
/-!
# Models whose equality is finer than what their states stand for

`f` forgets part of a state on which the user's functions do not depend, but which the program's equality or hash
may look at.  The hypotheses of the search theorems are pulled back along `f`.
-/
namespace Verif.DD
variable {σ κ : Type}

/-- On the states satisfying `P`, which the functions of `m` keep, `f` commutes with the functions of the two models;
for transitions only on labels that are offered. -/
structure Over (P : σ → Prop) (f : σ → κ) (m : Mdl σ) (k : Mdl κ) : Prop where
  p0 : P m.sti
  pt : P m.stt
  ps : ∀ s l t, P s → l ∈ m.lgf s → m.stf s l = some t → P t
  pm : ∀ a b c, P a → P b → m.smf a b = some c → P c
  sense : k.sense = m.sense
  sti : k.sti = f m.sti
  stt : k.stt = f m.stt
  lgf : ∀ s, P s → k.lgf (f s) = m.lgf s
  stf : ∀ s l, P s → l ∈ m.lgf s → k.stf (f s) l = (m.stf s l).map f
  stc : ∀ s l, P s → l ∈ m.lgf s → k.stc (f s) l = m.stc s l
  smf : ∀ a b, P a → P b → k.smf (f a) (f b) = (m.smf a b).map f
  eqs : ∀ s, P s → k.eqs (f s) = m.eqs s
  loc : m.loc = k.loc.map (fun h s c => h (f s) c)
  sdom : m.sdom = k.sdom.map (fun h a b => h (f a) (f b))
  /-- Terminal states are told apart by what they stand for. -/
  ends : ∀ a b, P a → P b → m.eqs a = true → f a = f b → a = b

variable {P : σ → Prop} {f : σ → κ} {m : Mdl σ} {k : Mdl κ}

theorem Over.step (h : Over P f m k) {s s' : σ} {l : Int} (hp : P s) (hs : Step m s l s') : Step k (f s) l (f s') ∧ P s' :=
  ⟨⟨by rw [h.eqs _ hp]; exact hs.1, by rw [h.lgf _ hp]; exact hs.2.1, by rw [h.stf _ _ hp hs.2.1, hs.2.2]; rfl⟩, h.ps _ _ _ hp hs.2.1 hs.2.2⟩

theorem Over.lift (h : Over P f m k) {s : σ} {x : κ} {l : Int} (hp : P s) (hs : Step k (f s) l x) : ∃ s', Step m s l s' ∧ f s' = x := by
  obtain ⟨h1, h2, h3⟩ := hs
  rw [h.eqs _ hp] at h1
  rw [h.lgf _ hp] at h2
  rw [h.stf _ _ hp h2] at h3
  obtain ⟨s', h4, h5⟩ := Option.map_eq_some_iff.1 h3
  exact ⟨s', ⟨h1, h2, h4⟩, h5⟩

theorem Over.path (h : Over P f m k) {s t : σ} {ls : List Int} {c : Int} (hp : Path m s ls c t) : P s → Path k (f s) ls c (f t) ∧ P t := by
  induction hp with
  | nil s => exact fun hs => ⟨.nil _, hs⟩
  | @cons s s' t l ls c hs _ ih =>
    intro hP
    obtain ⟨h1, h2⟩ := h.step hP hs
    rw [← h.stc _ _ hP hs.2.1]
    exact ⟨.cons h1 (ih h2).1, (ih h2).2⟩

theorem Over.lift_path (h : Over P f m k) : ∀ {s : σ} {x z : κ} {ls : List Int} {c : Int}, Path k x ls c z → P s → x = f s → ∃ t, Path m s ls c t ∧ f t = z := by
  intro s x z ls c hp
  induction hp generalizing s with
  | nil x => intro _ e; exact ⟨s, .nil s, e.symm⟩
  | @cons x x' z l ls c hs _ ih =>
    intro hP e
    subst e
    obtain ⟨s', h1, h2⟩ := h.lift hP hs
    obtain ⟨t, h3, h4⟩ := ih (h.step hP h1).2 h2.symm
    exact ⟨t, by rw [h.stc _ _ hP h1.2.1]; exact .cons h1 h3, h4⟩

theorem Over.sink (h : Over P f m k) (hsink : k.eqs k.stt = true) : m.eqs m.stt = true := by
  rw [← h.eqs _ h.pt, ← h.stt]; exact hsink

theorem Over.path_iff (h : Over P f m k) (hsink : k.eqs k.stt = true) {s : σ} (hP : P s) (ls : List Int) (c : Int) :
    Path m s ls c m.stt ↔ Path k (f s) ls c k.stt := by
  constructor
  · intro hp; rw [h.stt]; exact (h.path hp hP).1
  · intro hp
    obtain ⟨t, h1, h2⟩ := h.lift_path hp hP rfl
    rw [h.stt] at h2
    have := h.ends _ _ h.pt (h.path h1 hP).2 (h.sink hsink) h2.symm
    rwa [← this] at h1

theorem Over.val (h : Over P f m k) (hsink : k.eqs k.stt = true) {s : σ} (hP : P s) (c : Int) : Val m s c ↔ Val k (f s) c :=
  ⟨fun ⟨ls, hp⟩ => ⟨ls, (h.path_iff hsink hP ls c).1 hp⟩, fun ⟨ls, hp⟩ => ⟨ls, (h.path_iff hsink hP ls c).2 hp⟩⟩

theorem Over.sol (h : Over P f m k) (hsink : k.eqs k.stt = true) (ls : List Int) (c : Int) : Sol m ls c ↔ Sol k ls c := by
  unfold Sol
  rw [h.path_iff hsink h.p0, h.sti]

theorem Over.cover (h : Over P f m k) (hsink : k.eqs k.stt = true) {a b : σ} (ha : P a) (hb : P b) (hc : Cover k (f a) (f b)) : Cover m a b := by
  intro c hv
  obtain ⟨c', h1, h2⟩ := hc c ((h.val hsink hb c).1 hv)
  exact ⟨c', (h.val hsink ha c').2 h1, by rw [← h.sense]; exact h2⟩

/-- The program's equality is at least as fine as what states stand for; what decisions alone reach is told apart. -/
structure Own [Same σ] (P : σ → Prop) (f : σ → κ) (m : Mdl σ) : Prop where
  refl : ∀ a : σ, Same.same a a = true
  symm : ∀ a b : σ, Same.same a b = true → Same.same b a = true
  fine : ∀ a b : σ, P a → P b → Same.same a b = true → f a = f b
  uniq : ∀ a b la lb ca cb, Path m m.sti la ca a → Path m m.sti lb cb b → f a = f b → a = b

theorem Over.room {rank : κ → Nat} (h : Over P f m k) (hu : ∀ a b la lb ca cb, Path m m.sti la ca a → Path m m.sti lb cb b → f a = f b → a = b)
    {w : Nat} (H : Room k rank k.sti w) : Room m (fun s => rank (f s)) m.sti w := by
  intro d L hn hL
  have hn' : (L.map f).Nodup := by
    rw [List.Nodup, List.pairwise_map]
    refine List.Pairwise.imp_of_mem (fun {a b} ha hb hab he => ?_) hn
    obtain ⟨_, _, la, ca, pa⟩ := hL a ha
    obtain ⟨_, _, lb, cb, pb⟩ := hL b hb
    exact hab (hu a b _ _ _ _ pa pb he)
  have := H d (L.map f) hn' (fun x hx => by
    obtain ⟨s, h1, rfl⟩ := List.mem_map.1 hx
    obtain ⟨h2, h3, ls, c, hp⟩ := hL s h1
    obtain ⟨q1, q2⟩ := h.path hp h.p0
    exact ⟨by rw [h.eqs _ q2]; exact h2, h3, ls, c, by rw [h.sti]; exact q1⟩)
  rwa [List.length_map] at this

variable [Same σ] [DecidableEq κ] {rank : κ → Nat}

theorem Over.relx (h : Over P f m k) (ho : Own P f m) {v0 : Int} {s : σ} {v : Int} (hr : Relx m (fun s => rank (f s)) m.sti v0 s v) :
    Relx k rank k.sti v0 (f s) v ∧ P s := by
  induction hr with
  | root => exact ⟨by rw [h.sti]; exact .root, h.p0⟩
  | step _ hs ih =>
    obtain ⟨ih, hp⟩ := ih
    rw [← h.stc _ _ hp hs.2.1]
    exact ⟨ih.step (h.step hp hs).1, (h.step hp hs).2⟩
  | mergeL _ _ h1 h2 h3 h4 ia ib =>
    exact ⟨ia.1.mergeL ib.1 (by rw [h.eqs _ ia.2]; exact h1) (by rw [h.eqs _ ib.2]; exact h2) h3 (by rw [h.smf _ _ ia.2 ib.2, h4]; rfl), h.pm _ _ _ ia.2 ib.2 h4⟩
  | mergeR _ _ h1 h2 h3 h4 ia ib =>
    exact ⟨ia.1.mergeR ib.1 (by rw [h.eqs _ ia.2]; exact h1) (by rw [h.eqs _ ib.2]; exact h2) h3 (by rw [h.smf _ _ ia.2 ib.2, h4]; rfl), h.pm _ _ _ ia.2 ib.2 h4⟩
  | swap _ _ h1 ia ib => exact ⟨by rw [ho.fine _ _ ia.2 ib.2 h1]; exact ib.1, ia.2⟩

/-- The hypotheses of the search theorems hold for `m` with its own equality if they hold for `k` with true equality. -/
theorem Over.layered (h : Over P f m k) (ho : Own P f m) {v0 : Int} (H : Layered k rank k.sti v0) : Layered m (fun s => rank (f s)) m.sti v0 where
  sink := h.sink H.sink
  ends := val_closed _
  src := by rw [← h.eqs _ h.p0, ← h.sti]; exact H.src
  range := fun s v hr => by rw [← h.sense]; exact H.range _ _ (h.relx ho hr).1
  step := fun s v l s' hr hs => by
    obtain ⟨r1, r2⟩ := h.relx ho hr
    obtain ⟨s1, s2⟩ := h.step r2 hs
    have := H.step _ _ l _ r1 s1
    rwa [h.eqs _ s2] at this
  merge := fun a b c va vb ha hb h1 h2 h3 h4 => by
    obtain ⟨a1, a2⟩ := h.relx ho ha
    obtain ⟨b1, b2⟩ := h.relx ho hb
    have hc := h.pm _ _ _ a2 b2 h4
    have := H.merge _ _ (f c) _ _ a1 b1 (by rw [h.eqs _ a2]; exact h1) (by rw [h.eqs _ b2]; exact h2) h3 (by rw [h.smf _ _ a2 b2, h4]; rfl)
    rw [h.eqs _ hc] at this
    exact ⟨this.1, this.2.1, h.cover H.sink hc a2 this.2.2.1, h.cover H.sink hc b2 this.2.2.2⟩
  local_ := fun g hg s v x c hr hv => by
    rw [h.loc] at hg
    obtain ⟨g', e1, e2⟩ := Option.map_eq_some_iff.1 hg
    subst e2
    obtain ⟨r1, r2⟩ := h.relx ho hr
    rw [← h.sense]
    exact H.local_ g' e1 _ _ x c r1 ((h.val H.sink r2 c).1 hv)
  dom := fun g hg a b va vb ha hb h1 h2 h3 => by
    rw [h.sdom] at hg
    obtain ⟨g', e1, e2⟩ := Option.map_eq_some_iff.1 hg
    subst e2
    obtain ⟨a1, a2⟩ := h.relx ho ha
    obtain ⟨b1, b2⟩ := h.relx ho hb
    have := H.dom g' e1 _ _ _ _ a1 b1 (by rw [h.eqs _ a2]; exact h1) (by
      rcases h2 with ⟨h2, h4⟩ | ⟨p, vp, l, h5, h6, h7, h8⟩
      · exact .inl ⟨by rw [h.eqs _ b2]; exact h2, h4⟩
      · obtain ⟨p1, p2⟩ := h.relx ho h5
        exact .inr ⟨_, _, l, p1, (h.step p2 h6).1, by rw [h.eqs _ b2]; exact h7, h8⟩) h3
    exact ⟨h.cover H.sink a2 b2 this.1, fun hb => this.2 (by rw [h.stt, hb])⟩
  fair := {
    refl := ho.refl
    symm := ho.symm
    like := fun a b _ _ ha hb hs => by
      obtain ⟨_, a2⟩ := h.relx ho ha
      obtain ⟨_, b2⟩ := h.relx ho hb
      have e := ho.fine a b a2 b2 hs
      exact ⟨by rw [← h.eqs _ a2, ← h.eqs _ b2, e], by show rank _ = rank _; rw [e], h.cover H.sink a2 b2 (e ▸ CoverV.refl k (f a)),
        fun ht => h.ends a b a2 b2 ht e⟩
    sink := fun b _ hb hs => by
      obtain ⟨_, b2⟩ := h.relx ho hb
      exact (h.ends _ _ h.pt b2 (h.sink H.sink) (ho.fine _ _ h.pt b2 hs)).symm
    uniq := fun a b la lb ca cb ha hb hs => ho.uniq a b la lb ca cb ha hb (ho.fine a b (h.path ha h.p0).2 (h.path hb h.p0).2 hs) }

theorem Over.rankBound (h : Over P f m k) (ho : Own P f m) {v0 : Int} {N : Nat} (H : RankBound k rank k.sti v0 N) :
    RankBound m (fun s => rank (f s)) m.sti v0 N :=
  fun s v hr he => H _ v (h.relx ho hr).1 (by rw [h.eqs _ (h.relx ho hr).2]; exact he)

end Verif.DD
