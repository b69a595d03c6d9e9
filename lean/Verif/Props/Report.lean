import Verif.Report
import Verif.Props.BB
/-!
# C130: the counters, the progress lines and the final report of the search
-/
namespace Verif.BB
open Verif.DD
set_option linter.unusedSectionVars false
variable {σ : Type} {m : Mdl σ} {rank : σ → Nat} {M : Int → Mdl σ} {T : Nat → Int → Mdl σ} {lc : Nat → Int → Option (σ → Ctx → Int)} {Vl : σ → Int → Prop}
  {Wl : Nat → Int → σ → Int → Prop} [Same σ]

/-! ### Printing does not change the search -/

theorem cutFoldR_fst {l : Option (σ → Ctx → Int)} {g : G σ} {cur : Nat} : ∀ (cs : List Nat) (s : BS σ) (r : Rep),
    (cs.foldl (fun b n => (cutStep m l g cur b.1 n, cutCount m g b.1 b.2 n)) (s, r)).1 = cs.foldl (cutStep m l g cur) s := by
  intro cs
  induction cs with
  | nil => intro s r; rfl
  | cons n cs ih => intro s r; exact ih _ _

theorem expandR_fst {l : Int → Option (σ → Ctx → Int)} {wres fuel : Nat} {s : BS σ} {r : Rep} {cur : Nat} :
    (expandR m M l wres fuel (s, r) cur).map (·.1) = expandP m M l wres fuel s cur := by
  unfold expandR expandP
  dsimp only
  cases relaxed (M s.primal) s.primal s.wrel fuel (s.src cur) with
  | none => rfl
  | some g =>
    simp only [Option.bind_some]
    split
    · generalize (if g.exact = true then setPrimal m s (g.bound g.trg) (g.lab g.trg) else s) = s1
      cases restricted (M s1.primal) s1.primal wres fuel (s1.src cur) with
      | none => rfl
      | some q =>
        simp only [Option.bind_some]
        split
        · cases cutSet g with
          | none => rfl
          | some cs => simp only [Option.map_some, cutFoldR_fst]
        · rfl
    · rfl

theorem loopR_fst {wres dfuel : Nat} {lim tick : Nat → Bool} : ∀ (f k : Nat) (s : BS σ) (r : Rep),
    (loopR m T lc wres dfuel lim tick f k (s, r)).map (·.1) = loopP m T lc wres dfuel lim f k s := by
  intro f
  induction f with
  | zero => intro k s r; rfl
  | succ f ih =>
    intro k s r
    unfold loopR loopP
    dsimp only
    split
    · rfl
    · split
      · rfl
      · split
        · rw [← expandR_fst (r := { turn (tick k) (Heap.extractMax (qord m) s.pq).2.2 s.primal r with
              nNode := (turn (tick k) (Heap.extractMax (qord m) s.pq).2.2 s.primal r).nNode + 1 })]
          generalize expandR m (T k) (lc k) wres dfuel _ _ = o
          cases o with
          | none => rfl
          | some a => exact ih _ _ _
        · exact ih _ _ _

/-- C130: whatever is printed, and however much time passes, the search is the same. -/
theorem report_search {w dfuel : Nat} {lim tick : Nat → Bool} {fuel : Nat} {p0 : Int} :
    (searchRT m T lc w dfuel lim tick fuel p0).map (·.1) = searchT m T lc w dfuel lim fuel p0 := loopR_fst _ _ _ _

theorem report_fst {w dfuel : Nat} {lim tick : Nat → Bool} {fuel : Nat} {p0 : Int} {s : BS σ} {r : Rep}
    (h : searchRT m T lc w dfuel lim tick fuel p0 = some (s, r)) : searchT m T lc w dfuel lim fuel p0 = some s := by
  rw [← report_search, h]; rfl

theorem report_some {w dfuel : Nat} {lim tick : Nat → Bool} {fuel : Nat} {p0 : Int} {s : BS σ} (h : searchT m T lc w dfuel lim fuel p0 = some s) :
    ∃ r, searchRT m T lc w dfuel lim tick fuel p0 = some (s, r) := by
  rw [← report_search (tick := tick)] at h
  simp only [Option.map_eq_some_iff] at h
  obtain ⟨⟨a, r⟩, h1, rfl⟩ := h
  exact ⟨r, h1⟩

/-! ### The counters -/

/-- Was put into the queue. -/
def Fate.isQueued : Fate → Bool
  | .queued => true
  | _ => false

/-- Was dropped because a queue node dominates it. -/
def Fate.isDominated : Fate → Bool
  | .dominated => true
  | _ => false

/-- Was dropped because its state was seen before. -/
def Fate.isSeen : Fate → Bool
  | .deduped _ => true
  | _ => false

/-- How many cut-set nodes met this fate. -/
def BS.fates (s : BS σ) (p : Fate → Bool) : Nat := s.log.countP (fun x => p x.2.2)

/-- The counters agree with what happened; `out` is the number of nodes taken from the queue. -/
structure Tally (s : BS σ) (r : Rep) (out : Nat) : Prop where
  queue : out + r.pruned + Heap.size s.pq = 1 + s.fates Fate.isQueued
  dom : r.insDom = s.fates Fate.isDominated
  seen : r.seen = s.fates Fate.isSeen
  pool : 1 + s.fates Fate.isQueued ≤ s.pn

theorem domStep_count {s : BS σ} (h : PInv m s) (st : σ) (bd : Int) :
    (domStep m s st bd).2.pq.at_ + domCount m s st bd = s.pq.at_ ∧ (domStep m s st bd).2.log = s.log ∧ (domStep m s st bd).2.pn = s.pn := by
  unfold domStep domCount
  cases hs : m.sdom with
  | none => exact ⟨rfl, rfl, rfl⟩
  | some sd =>
    dsimp only
    obtain ⟨a1, a2, a3, a4⟩ := domScan_spec m sd s st bd (Heap.locs s.pq) [] (by simpa using Heap.nodup_locs h.wf) (by simp)
    obtain ⟨h', b1, b2, b3, b4, b5, b6⟩ := removes m _ s.pq h.wf h.ord a1 (fun l hl => (Heap.mem_locs l).1 (by simpa using a2 l hl))
    rw [b1]
    refine ⟨?_, rfl, rfl⟩
    have hle : (domScan m sd s st bd (Heap.locs s.pq) []).2.length ≤ (Heap.locs s.pq).length :=
      nodup_inj_le id a1 (fun _ _ _ _ h => h) (fun x hx => by simpa using a2 x hx)
    have hll : (Heap.locs s.pq).length = s.pq.at_ - 1 := by simp [Heap.locs, Heap.size]
    have := h.wf.one_le
    rw [b6]; omega

theorem fates_append (s : BS σ) (p : Fate → Bool) (x : Nat × Nat × Fate) :
    (s.log ++ [x]).countP (fun y => p y.2.2) = s.fates p + if p x.2.2 = true then 1 else 0 := by
  rw [List.countP_append, List.countP_singleton]
  rfl

theorem cutStep_tally {l : Option (σ → Ctx → Int)} {g : G σ} {cur : Nat} {s0 : BS σ} {r : Rep} {n out : Nat} (h : PInv m s0)
    (hp : Path m m.sti (g.lab n) (g.bound n) (g.st n)) (hq : m.eqs (g.st n) = false) (ht : Tally s0 r out) :
    Tally (cutStep m l g cur s0 n) (cutCount m g s0 r n) out ∧ (cutCount m g s0 r n).ttl = r.ttl ∧ (cutCount m g s0 r n).nNode = r.nNode ∧
      (cutCount m g s0 r n).lines = r.lines := by
  obtain ⟨t1, t2, t3, t4⟩ := ht
  have hone := h.wf.one_le
  unfold cutStep cutCount
  dsimp only
  generalize hs : (if n = g.root then { s0 with wrel := s0.wrel + 1 } else s0) = s
  have hP : PInv m s := by
    rw [← hs]; split
    · exact ⟨h.wf, h.ord, h.pos, h.root, h.idx, h.gen, h.inj, h.uq⟩
    · exact h
  have f3 : s.primal = s0.primal := by rw [← hs]; split <;> rfl
  have f4 : s.pn = s0.pn := by rw [← hs]; split <;> rfl
  have f5 : s.pq = s0.pq := by rw [← hs]; split <;> rfl
  have f6 : s.log = s0.log := by rw [← hs]; split <;> rfl
  have f7 : ∀ p, s.fates p = s0.fates p := by intro p; unfold BS.fates; rw [f6]
  have hds : (domStep m s0 (g.st n) (g.bound n)).1 = (domStep m s (g.st n) (g.bound n)).1 ∧
      findPool (domStep m s0 (g.st n) (g.bound n)).2 (g.st n) = findPool (domStep m s (g.st n) (g.bound n)).2 (g.st n) ∧
      domCount m s0 (g.st n) (g.bound n) = domCount m s (g.st n) (g.bound n) := by
    rw [← hs]; split
    · rw [domStep_wrel s0 (s0.wrel + 1)]
      refine ⟨rfl, rfl, ?_⟩
      unfold domCount
      cases m.sdom with
      | none => rfl
      | some sd =>
        have hds : ∀ (ls acc : List Nat), domScan m sd { s0 with wrel := s0.wrel + 1 } (g.st n) (g.bound n) ls acc = domScan m sd s0 (g.st n) (g.bound n) ls acc := by
          intro ls
          induction ls with
          | nil => intro acc; rfl
          | cons l ls ih => intro acc; simp only [domScan, ih]
        dsimp only
        rw [hds]
    · exact ⟨rfl, rfl, rfl⟩
  rw [f3]
  split
  · obtain ⟨q', d1, d2, d3, d4, d5, d6, _, _, _⟩ := domStep_spec hP (g.st n) (g.bound n)
    obtain ⟨k1, k2, k3⟩ := domStep_count hP (g.st n) (g.bound n)
    have hP1 := hP.sub d2 d3 d4 d6
    rw [hds.2.2]
    generalize hD0 : domStep m s0 (g.st n) (g.bound n) = D0 at *
    generalize hdd : domStep m s (g.st n) (g.bound n) = D at *
    obtain ⟨b0, u⟩ := D0
    obtain ⟨b, s1⟩ := D
    dsimp only at d1 hds k1 k2 k3
    obtain ⟨rfl, hfp, _⟩ := hds
    subst d1
    dsimp only at k1
    have hq1 := d2.one_le
    have hsz : Heap.size q' + domCount m s (g.st n) (g.bound n) = Heap.size s0.pq := by
      unfold Heap.size; rw [f5] at k1; omega
    cases b0 with
    | true =>
      dsimp only
      refine ⟨⟨?_, ?_, ?_, ?_⟩, rfl, rfl, rfl⟩
      · unfold BS.fates; dsimp only
        rw [fates_append, f7]; simp only [Fate.isQueued]; simp; omega
      · unfold BS.fates; dsimp only
        rw [fates_append, f7]; simp only [Fate.isDominated]; simp [t2]
      · unfold BS.fates; dsimp only
        rw [fates_append, f7]; simp only [Fate.isSeen]; simp [t3]
      · unfold BS.fates; dsimp only
        rw [fates_append, f7]; simp only [Fate.isQueued]; simp; omega
    | false =>
      dsimp only
      rw [hfp]
      cases hf : findPool { s with pq := q' } (g.st n) with
      | some o =>
        dsimp only
        refine ⟨⟨?_, ?_, ?_, ?_⟩, rfl, rfl, rfl⟩
        · unfold BS.fates; dsimp only
          rw [fates_append, f7]; simp only [Fate.isQueued]; simp; omega
        · unfold BS.fates; dsimp only
          rw [fates_append, f7]; simp only [Fate.isDominated]; simp [t2]
        · unfold BS.fates; dsimp only
          rw [fates_append, f7]; simp only [Fate.isSeen]; simp [t3]
        · unfold BS.fates; dsimp only
          rw [fates_append, f7]; simp only [Fate.isQueued]; simp; omega
      | none =>
        dsimp only
        have hP2 := hP1.clone (g.bb n) hp hq (findPool_none hP.uq hf)
        have hl2 : (clone { s with pq := q' } (g.st n) (g.lab n) (g.bound n) (g.bb n)).log = s.log := rfl
        split
        · have hat := (Heap.insertHeap_spec (qord_swo m) hP2.wf hP2.ord (s.pn, insKey l g n)).2.2.2.2.2.2
          have hat' : (Heap.insertHeap (qord m) q' (s.pn, insKey l g n)).1.at_ = q'.at_ + 1 := hat
          refine ⟨⟨?_, ?_, ?_, ?_⟩, rfl, rfl, rfl⟩
          · unfold BS.fates; dsimp only
            rw [hl2, fates_append, f7]; simp only [Fate.isQueued]
            show out + _ + Heap.size (Heap.insertHeap (qord m) q' (s.pn, insKey l g n)).1 = _
            unfold Heap.size at hsz t1 ⊢
            rw [hat']; simp; omega
          · unfold BS.fates; dsimp only
            rw [hl2, fates_append, f7]; simp only [Fate.isDominated]; simp [t2]
          · unfold BS.fates; dsimp only
            rw [hl2, fates_append, f7]; simp only [Fate.isSeen]; simp [t3]
          · unfold BS.fates; dsimp only
            rw [hl2, fates_append, f7]; simp only [Fate.isQueued]
            show _ ≤ s.pn + 1
            simp; omega
        · refine ⟨⟨?_, ?_, ?_, ?_⟩, rfl, rfl, rfl⟩
          · unfold BS.fates; dsimp only
            rw [hl2, fates_append, f7]; simp only [Fate.isQueued]
            show out + _ + Heap.size q' = _
            simp; omega
          · unfold BS.fates; dsimp only
            rw [hl2, fates_append, f7]; simp only [Fate.isDominated]; simp [t2]
          · unfold BS.fates; dsimp only
            rw [hl2, fates_append, f7]; simp only [Fate.isSeen]; simp [t3]
          · unfold BS.fates; dsimp only
            rw [hl2, fates_append, f7]; simp only [Fate.isQueued]
            show _ ≤ s.pn + 1
            simp; omega
  · refine ⟨⟨?_, ?_, ?_, ?_⟩, rfl, rfl, rfl⟩
    · unfold BS.fates; dsimp only
      rw [fates_append, f7, f5]; simp only [Fate.isQueued]; simp; omega
    · unfold BS.fates; dsimp only
      rw [fates_append, f7]; simp only [Fate.isDominated]; simp [t2]
    · unfold BS.fates; dsimp only
      rw [fates_append, f7]; simp only [Fate.isSeen]; simp [t3]
    · unfold BS.fates; dsimp only
      rw [fates_append, f7]; simp only [Fate.isQueued]; simp; omega

/-- What an expansion does: new primal bounds, then perhaps a loop over nodes reached from `cur`. -/
theorem expandR_shape {l : Int → Option (σ → Ctx → Int)} {Wl : Int → σ → Int → Prop} (F : FamV Vl Wl m rank M) {wres fuel : Nat}
    {s s' : BS σ} {r r' : Rep} {cur : Nat} (hP : PInv m s) (hc : cur < s.pn) (h : expandR m M l wres fuel (s, r) cur = some (s', r')) :
    ∃ s2 pb, PInv m s2 ∧ s2.pq = s.pq ∧ s2.log = s.log ∧ s2.pn = s.pn ∧ s2.pst = s.pst ∧ s2.pbound = s.pbound ∧
      ((s', r') = (s2, { r with primalBetter := pb }) ∨
      ∃ (g : G σ) (cs : List Nat) (p : Int), (s', r') = cs.foldl (fun b n => (cutStep m (l p) g cur b.1 n, cutCount m g b.1 b.2 n)) (s2, { r with primalBetter := pb }) ∧
        ∀ n, n ∈ cs → m.eqs (g.st n) = false ∧ ∃ ls c, g.lab n = s.plab cur ++ ls ∧ g.bound n = s.pbound cur + c ∧ Path m (s.pst cur) ls c (g.st n)) := by
  obtain ⟨hgen, hopen⟩ := hP.gen cur hc
  unfold expandR at h
  dsimp only at h
  simp only [Option.bind_eq_some_iff] at h
  obtain ⟨g, hg, h⟩ := h
  split at h
  · obtain ⟨s1, hs1⟩ : ∃ s1, s1 = if g.exact = true then setPrimal m s (g.bound g.trg) (g.lab g.trg) else s := ⟨_, rfl⟩
    rw [← hs1] at h
    have h1 : PInv m s1 ∧ s1.pst = s.pst ∧ s1.pbound = s.pbound ∧ s1.pn = s.pn ∧ s1.pq = s.pq ∧ s1.log = s.log := by
      rw [hs1]
      split
      · exact ⟨hP.set _ _, rfl, rfl, rfl, rfl, rfl⟩
      · exact ⟨hP, rfl, rfl, rfl, rfl, rfl⟩
    obtain ⟨hP1, e1, e3, e5, e6, e7⟩ := h1
    simp only [Option.bind_eq_some_iff] at h
    obtain ⟨q, hq, h⟩ := h
    obtain ⟨s2, hs2⟩ : ∃ s2, s2 = if m.sense.better (q.bound q.trg) s1.primal = true then setPrimal m s1 (q.bound q.trg) (q.lab q.trg) else s1 := ⟨_, rfl⟩
    rw [← hs2] at h
    have h2 : PInv m s2 ∧ s2.pst = s.pst ∧ s2.pbound = s.pbound ∧ s2.pn = s.pn ∧ s2.pq = s.pq ∧ s2.log = s.log := by
      rw [hs2]
      split
      · exact ⟨hP1.set _ _, e1, e3, e5, e6, e7⟩
      · exact ⟨hP1, e1, e3, e5, e6, e7⟩
    obtain ⟨hP2, i1, i2, i3, i4, i5⟩ := h2
    refine ⟨s2, m.sense.better (q.bound q.trg) s1.primal, hP2, i4, i5, i3, i1, i2, ?_⟩
    split at h
    · right
      simp only [Option.map_eq_some_iff] at h
      obtain ⟨cs, hcs, h⟩ := h
      obtain ⟨_, cs', hcs', _, hk, _⟩ := cut_factsP F (r := s.src cur) hgen hopen hg
      rw [hcs] at hcs'
      simp at hcs'
      subst hcs'
      refine ⟨g, cs, s2.primal, h.symm, ?_⟩
      intro n hn
      obtain ⟨b1, b2, _⟩ := hk n hn
      exact ⟨b1, b2⟩
    · left
      simpa using h.symm
  · simp at h
    exact ⟨s, r.primalBetter, hP, rfl, rfl, rfl, rfl, rfl, Or.inl (by rw [← h.1, ← h.2])⟩

theorem cutFold_tally {l : Option (σ → Ctx → Int)} {g : G σ} {cur out : Nat} : ∀ (cs : List Nat) {s0 : BS σ} {r : Rep}, PInv m s0 →
    (∀ n, n ∈ cs → Path m m.sti (g.lab n) (g.bound n) (g.st n) ∧ m.eqs (g.st n) = false) → Tally s0 r out →
    ∀ {s' : BS σ} {r' : Rep}, (s', r') = cs.foldl (fun b n => (cutStep m l g cur b.1 n, cutCount m g b.1 b.2 n)) (s0, r) →
    Tally s' r' out ∧ r'.ttl = r.ttl ∧ r'.nNode = r.nNode ∧ r'.lines = r.lines := by
  intro cs
  induction cs with
  | nil => intro s0 r _ _ h s' r' he; cases he; exact ⟨h, rfl, rfl, rfl⟩
  | cons n cs ih =>
    intro s0 r hP hc h s' r' he
    obtain ⟨a1, a2, a3, a4⟩ := cutStep_tally (l := l) (cur := cur) hP (hc n (by simp)).1 (hc n (by simp)).2 h
    obtain ⟨b1, _⟩ := cutStep_inv (lc := l) (cur := cur) hP (hc n (by simp)).1 (hc n (by simp)).2
    obtain ⟨c1, c2, c3, c4⟩ := ih b1 (fun k hk => hc k (by simp [hk])) a1 he
    exact ⟨c1, c2.trans a2, c3.trans a3, c4.trans a4⟩

theorem Tally.congr {s s' : BS σ} {r r' : Rep} {out : Nat} (h : Tally s r out) (h1 : s'.pq = s.pq) (h2 : s'.log = s.log) (h3 : s'.pn = s.pn)
    (h4 : r'.pruned = r.pruned) (h5 : r'.insDom = r.insDom) (h6 : r'.seen = r.seen) : Tally s' r' out := by
  have hf : ∀ p, s'.fates p = s.fates p := by intro p; unfold BS.fates; rw [h2]
  exact ⟨by rw [h1, h4, hf]; exact h.queue, by rw [h5, hf]; exact h.dom, by rw [h6, hf]; exact h.seen, by rw [h3, hf]; exact h.pool⟩

theorem loopR_tally (F : ∀ k, FamV Vl (Wl k) m rank (T k)) {p0 : Int} (hp0 : m.sense.betterEQ p0 m.sense.best0 = true)
    {wres dfuel : Nat} {lim tick : Nat → Bool} : ∀ (f k : Nat) (s s' : BS σ) (r r' : Rep), PInv m s → TInv m p0 s → s.stopped = false → Tally s r r.ttl → r.nNode ≤ r.ttl →
      loopR m T lc wres dfuel lim tick f k (s, r) = some (s', r') →
      Tally s' r' (if s'.stopped = true then r'.ttl + 1 else r'.ttl) ∧ r'.nNode ≤ r'.ttl := by
  intro f
  induction f with
  | zero => intro k s s' r r' _ _ _ _ _ h; simp [loopR] at h
  | succ f ih =>
    intro k s s' r r' hP hT hst ht hn h
    unfold loopR at h
    dsimp only at h
    by_cases he : Heap.empty s.pq = true
    · rw [if_pos he] at h
      simp at h
      obtain ⟨rfl, rfl⟩ := h
      rw [if_neg (by rw [hst]; simp)]
      exact ⟨ht, hn⟩
    · rw [if_neg he] at h
      obtain ⟨a1, a2, _, a4, _⟩ := hP.extract (by simpa using he)
      have hT1 : TInv m p0 { s with pq := (Heap.extractMax (qord m) s.pq).1 } := hT.congr ⟨rfl, rfl, rfl, rfl⟩
      have hq1 := a1.wf.one_le
      dsimp only at hq1
      have ht1 : Tally { s with pq := (Heap.extractMax (qord m) s.pq).1 } r (r.ttl + 1) := by
        refine ⟨?_, ht.dom, ht.seen, ht.pool⟩
        have := ht.queue
        unfold Heap.size at this ⊢
        show _ = 1 + s.fates Fate.isQueued
        dsimp only
        omega
      by_cases hl : lim k = true
      · rw [if_pos hl] at h
        simp at h
        obtain ⟨rfl, rfl⟩ := h
        rw [if_pos rfl]
        exact ⟨ht1.congr rfl rfl rfl rfl rfl rfl, hn⟩
      · rw [if_neg hl] at h
        split at h
        · simp only [Option.bind_eq_some_iff] at h
          obtain ⟨⟨s2, r2⟩, h2, h3⟩ := h
          have h2' : expandP m (T k) (lc k) wres dfuel { s with pq := (Heap.extractMax (qord m) s.pq).1 } (Heap.extractMax (qord m) s.pq).2.1 = some s2 := by
            rw [← expandR_fst, h2]; rfl
          obtain ⟨b1, b2, b3, _, _⟩ := expand_inv (F k) hp0 a1 hT1 a2 h2'
          obtain ⟨u, pb, hPu, u1, u2, u3, u4, u5, hu⟩ := expandR_shape (F k) a1 a2 h2
          refine ih _ _ _ _ _ b1 b2 (b3.trans hst) ?_ ?_ h3 <;>
          · rcases hu with hu | ⟨g, cs, p, hu, hcs⟩
            · cases hu
              first
              | exact ht1.congr u1 u2 u3 rfl rfl rfl
              | exact Nat.succ_le_succ hn
            · obtain ⟨hgen, _⟩ := a1.gen _ a2
              obtain ⟨c1, c2, c3, _⟩ := cutFold_tally cs hPu (out := r.ttl + 1) (by
                intro n hn
                obtain ⟨d1, ls, c, d2, d3, d4⟩ := hcs n hn
                refine ⟨?_, d1⟩
                rw [d2, d3]
                exact hgen.trans d4) (ht1.congr (r' := { turn (tick k) (Heap.extractMax (qord m) s.pq).2.2 s.primal r with
                  nNode := (turn (tick k) (Heap.extractMax (qord m) s.pq).2.2 s.primal r).nNode + 1
                  primalBetter := pb }) u1 u2 u3 rfl rfl rfl) hu
              first
              | (rw [c2]; exact c1)
              | (rw [c2, c3]; exact Nat.succ_le_succ hn)
        · exact ih _ _ _ _ _ a1 hT1 hst (ht1.congr (r' := turn (tick k) (Heap.extractMax (qord m) s.pq).2.2 s.primal r) rfl rfl rfl rfl rfl rfl) (Nat.le_succ_of_le hn) h

/-- C130: the counters of the last line.  Every node that ever entered the queue was taken out, removed as dominated (P), or is
still there; one more was taken out and not counted if the time limit struck.  D counts the new nodes that were dominated, Seen those whose
state was known, and never are more nodes taken out than there are different states in the pool. -/
theorem report_counts (F : ∀ k, FamV Vl (Wl k) m rank (T k)) (H : LayeredV Vl m rank m.sti 0) {p0 : Int} (hp0 : m.sense.betterEQ p0 m.sense.best0 = true)
    {w dfuel fuel : Nat} {lim tick : Nat → Bool} {s : BS σ} {r : Rep} (h : searchRT m T lc w dfuel lim tick fuel p0 = some (s, r)) :
    r.ttl + (if s.stopped = true then 1 else 0) + r.pruned + Heap.size s.pq = 1 + s.fates Fate.isQueued ∧
    r.insDom = s.fates Fate.isDominated ∧ r.seen = s.fates Fate.isSeen ∧ r.nNode ≤ r.ttl ∧ r.ttl ≤ s.pn := by
  obtain ⟨a1, a2, a3, a4, _, _⟩ := init_inv H.src H.fair.toUniq w p0
  obtain ⟨b1, b2⟩ := loopR_tally F hp0 fuel 0 (init m w p0) s {} r a1 a2 rfl
    ⟨by unfold Heap.size; rw [a3]; rfl, rfl, rfl, by rw [a4]; exact Nat.le_refl _⟩ (Nat.le_refl _) h
  obtain ⟨c1, c2, c3, c4⟩ := b1
  refine ⟨?_, c2, c3, b2, ?_⟩
  · rw [← c1]; split <;> omega
  · split at c1 <;> omega

/-- C130: "LIM?" is 0 after a search that was not stopped.  After one that was it is 1 only if nodes were left beside the one that
had just been taken from the queue. -/
theorem report_limit_partial (F : ∀ k, FamV Vl (Wl k) m rank (T k)) (H : LayeredV Vl m rank m.sti 0) {p0 : Int} (hp0 : m.sense.betterEQ p0 m.sense.best0 = true)
    {w dfuel fuel : Nat} {lim tick : Nat → Bool} {s : BS σ} {r : Rep} (h : searchRT m T lc w dfuel lim tick fuel p0 = some (s, r)) :
    (s.limit = true → s.stopped = true) ∧ (s.stopped = true → (s.limit = true ↔ r.ttl + 1 + r.pruned < 1 + s.fates Fate.isQueued)) := by
  obtain ⟨c1, _⟩ := report_counts F H hp0 h
  obtain ⟨a1, a2, a3, a4, _, _⟩ := init_inv H.src H.fair.toUniq w p0
  obtain ⟨_, _, b3⟩ := loop_inv F hp0 fuel 0 _ _ a1 a2 rfl (report_fst h)
  unfold BS.limit
  constructor
  · intro hl
    rcases b3 with x | x
    · exact x
    · have hz : s.pq.at_ = 1 := by simpa [Heap.empty] using x
      have hl : 0 < s.pq.at_ - 1 := of_decide_eq_true hl
      omega
  · intro hs
    rw [if_pos hs] at c1
    simp only [decide_eq_true_eq]
    omega

/-! ### The progress lines -/

/-- The node taken from the queue has the best key. -/
theorem extract_best {s : BS σ} (h : PInv m s) (hne : Heap.empty s.pq = false) {i : Nat} {key : Int} (ho : Opn s i key) :
    m.sense.betterEQ (Heap.extractMax (qord m) s.pq).2.2 key = true := by
  have h2 : 2 ≤ s.pq.at_ := by
    have := h.wf.one_le
    simp [Heap.empty] at hne
    omega
  obtain ⟨_, _, l, _, a4, a5, _⟩ := Heap.extractMax_spec (qord_swo m) h.wf h.ord h2
  obtain ⟨k, k1, k2⟩ := ho
  have := a5 k k1
  rw [k2, ← a4] at this
  have this : ¬ m.sense.better key (Heap.extractMax (qord m) s.pq).2.2 = true := this
  rw [Sense.better_iff] at this
  rw [Sense.betterEQ_iff]
  omega

theorem turn_lines {tick : Bool} {key p : Int} {r : Rep} {l : PLine} (h : l ∈ (turn tick key p r).lines) : l ∈ r.lines ∨ l = ⟨r.nNode, key, p⟩ := by
  unfold turn at h
  dsimp only at h
  split at h
  · simpa using h
  · exact Or.inl h

theorem cutFold_lines {l : Option (σ → Ctx → Int)} {g : G σ} {cur : Nat} : ∀ (cs : List Nat) (b : BS σ × Rep),
    (cs.foldl (fun b n => (cutStep m l g cur b.1 n, cutCount m g b.1 b.2 n)) b).2.lines = b.2.lines := by
  intro cs
  induction cs with
  | nil => intro b; rfl
  | cons n cs ih =>
    intro b
    rw [List.foldl_cons, ih]
    unfold cutCount
    split
    · dsimp only
      split
      · rfl
      · split <;> rfl
    · rfl

theorem expandR_lines {l : Int → Option (σ → Ctx → Int)} {wres fuel : Nat} {a b : BS σ × Rep} {cur : Nat} (h : expandR m M l wres fuel a cur = some b) :
    b.2.lines = a.2.lines := by
  unfold expandR at h
  dsimp only at h
  simp only [Option.bind_eq_some_iff] at h
  obtain ⟨g, _, h⟩ := h
  split at h
  · simp only [Option.bind_eq_some_iff] at h
    obtain ⟨q, _, h⟩ := h
    split at h
    · simp only [Option.map_eq_some_iff] at h
      obtain ⟨cs, _, rfl⟩ := h
      rw [cutFold_lines]
    · simp at h; rw [← h]
  · simp at h; rw [h]

/-- The two numbers of a line enclose this value: what is not yet matched by the primal bound is not better than the dual bound. -/
def PLine.Bounds (m : Mdl σ) (l : PLine) (c : Int) : Prop := m.sense.betterEQ l.primal c = true ∨ m.sense.betterEQ l.key c = true

theorem loopR_bounds (F : ∀ k, FamV Vl (Wl k) m rank (T k)) (V : ∀ k, LcOK Vl m (lc k)) (H : LayeredV Vl m rank m.sti 0) (hD : DomRank m rank) {p0 : Int} (hp0 : m.sense.betterEQ p0 m.sense.best0 = true)
    {wres dfuel : Nat} {lim tick : Nat → Bool} :
    ∀ (f k : Nat) (s s' : BS σ) (r r' : Rep), PInv m s → TInv m p0 s → KeyOK Vl m s → HInv Vl m rank s →
      okLoopT m T lc wres dfuel lim f k s = true → (∀ l, l ∈ r.lines → ∀ c, Vl m.sti c → l.Bounds m c) →
      loopR m T lc wres dfuel lim tick f k (s, r) = some (s', r') → ∀ l, l ∈ r'.lines → ∀ c, Vl m.sti c → l.Bounds m c := by
  intro f
  induction f with
  | zero => intro k s s' r r' _ _ _ _ _ _ h; simp [loopR] at h
  | succ f ih =>
    intro k s s' r r' hP hT hK hH hok hr h
    unfold loopR at h
    unfold okLoopT at hok
    dsimp only at h hok
    by_cases he : Heap.empty s.pq = true
    · rw [if_pos he] at h
      simp at h
      rw [← h.2]; exact hr
    · rw [if_neg he] at h hok
      have he' : Heap.empty s.pq = false := by simpa using he
      obtain ⟨a1, a2, a3, _, a5, a6⟩ := hP.extract he'
      have hT1 : TInv m p0 { s with pq := (Heap.extractMax (qord m) s.pq).1 } := hT.congr ⟨rfl, rfl, rfl, rfl⟩
      have hK1 : KeyOK Vl m { s with pq := (Heap.extractMax (qord m) s.pq).1 } := fun i key ho => hK i key (a6 i key ho)
      have hA : ∀ i, i < s.pn → ∀ c, Vl (s.pst i) c →
          Cov Vl m rank { s with pq := (Heap.extractMax (qord m) s.pq).1 } (rank (s.pst i)) (s.pbound i + c) ∨
          (rank (s.pst i) ≤ rank (s.pst (Heap.extractMax (qord m) s.pq).2.1) ∧
            ∃ c', Vl (s.pst (Heap.extractMax (qord m) s.pq).2.1) c' ∧
              m.sense.betterEQ (s.pbound (Heap.extractMax (qord m) s.pq).2.1 + c') (s.pbound i + c) = true) := by
        intro i hi c hv
        rcases hH i hi c hv with x | ⟨j, key, c', x1, x2, x3, x4⟩
        · exact Or.inl (Or.inl x)
        · rcases a5 j key x1 with y | y
          · exact Or.inl (Or.inr ⟨j, key, c', y, x2, x3, x4⟩)
          · right
            rw [← y]
            exact ⟨x2, c', x3, x4⟩
      have hnew : ∀ l, l ∈ (turn (tick k) (Heap.extractMax (qord m) s.pq).2.2 s.primal r).lines → ∀ c, Vl m.sti c → l.Bounds m c := by
        intro l hl c hv
        rcases turn_lines hl with x | rfl
        · exact hr l x c hv
        · have hv0 : Vl (s.pst 0) c := by rw [hP.root.1]; exact hv
          have := hH 0 hP.pos c hv0
          rw [hP.root.2, Int.zero_add] at this
          rcases this with x | ⟨j, key, c', x1, _, x3, x4⟩
          · exact Or.inl x
          · by_cases hb : m.sense.better (s.pbound j + c') s.primal = true
            · right
              have e1 := hK j key x1 c' x3 hb
              have e2 := extract_best hP he' x1
              rw [Sense.betterEQ_iff] at e1 e2 x4 ⊢
              dsimp only
              omega
            · left
              rw [Sense.better_iff] at hb
              rw [Sense.betterEQ_iff] at x4 ⊢
              dsimp only
              omega
      split at h
      · simp at h
        rw [← h.2]; exact hr
      · rename_i hl
        rw [if_neg hl] at hok
        split at h
        · rename_i hb
          rw [if_pos hb] at hok
          simp only [Option.bind_eq_some_iff] at h
          obtain ⟨⟨s2, r2⟩, h2, h3⟩ := h
          have h2' : expandP m (T k) (lc k) wres dfuel { s with pq := (Heap.extractMax (qord m) s.pq).1 } (Heap.extractMax (qord m) s.pq).2.1 = some s2 := by
            rw [← expandR_fst, h2]; rfl
          simp only [Bool.and_eq_true] at hok
          rw [h2'] at hok
          simp only [Option.map_some, Option.getD_some] at hok
          obtain ⟨b1, b2, _⟩ := expand_inv (F k) hp0 a1 hT1 a2 h2'
          obtain ⟨c1, c2⟩ := expand_cov (F k) (V k) H hD a1 a2 hK1 hA hok.1 h2'
          have hl2 := expandR_lines h2
          dsimp only at hl2
          exact ih _ _ _ _ _ b1 b2 c1 c2 hok.2 (by rw [hl2]; exact hnew) h3
        · rename_i hb
          rw [if_neg hb] at hok
          refine ih _ _ _ _ _ a1 hT1 hK1 ?_ hok hnew h
          intro i hi c hv
          rcases hA i hi c hv with x | ⟨x1, c', x2, x3⟩
          · exact x
          · left
            have hb' : ¬ m.sense.better (Heap.extractMax (qord m) s.pq).2.2 s.primal = true := hb
            show m.sense.betterEQ s.primal _ = true
            rw [Sense.better_iff] at hb'
            rw [Sense.betterEQ_iff] at x3 ⊢
            show m.sense.k (s.pbound i + c) ≤ _
            apply Classical.byContradiction
            intro hh
            have := hK _ _ a3 c' x2 (by rw [Sense.better_iff]; omega)
            rw [Sense.betterEQ_iff] at this
            omega

/-- C130: a search that loses no solution (as in C03) prints valid bounds, at whatever time: every solution is matched by the
primal bound of the line or not better than its dual bound.  Missing: searches that lose solutions; `report_dual_false`. -/
theorem report_dual_partial (F : ∀ k, FamV Vl (Wl k) m rank (T k)) (V : ∀ k, LcOK Vl m (lc k)) (H : LayeredV Vl m rank m.sti 0) (hD : DomRank m rank) {p0 : Int} (hp0 : m.sense.betterEQ p0 m.sense.best0 = true)
    (hW : m.loc = none → ∀ c, Vl m.sti c → m.sense.betterEQ m.sense.worst0 c = true)
    {w dfuel fuel : Nat} {lim tick : Nat → Bool} {s : BS σ} {r : Rep} (h : searchRT m T lc w dfuel lim tick fuel p0 = some (s, r))
    (hok : okLoopT m T lc w dfuel lim fuel 0 (init m w p0) = true) :
    ∀ l, l ∈ r.lines → ∀ c, Vl m.sti c → m.sense.betterEQ l.primal c = true ∨ m.sense.betterEQ l.key c = true := by
  obtain ⟨h1, h2, h3, h4, h5, key, h6⟩ := init_inv H.src H.fair.toUniq w p0
  have hK : KeyOK Vl m (init m w p0) := by
    intro i key ho c hv _
    obtain ⟨a, b⟩ := h5 i key ho
    subst a
    rw [h1.root.2, Int.zero_add, b]
    rw [h1.root.1] at hv
    cases hl : m.loc with
    | none => exact hW hl c hv
    | some f => exact H.local_ f hl _ _ _ _ Relx.root hv
  have hH : HInv Vl m rank (init m w p0) := by
    intro i hi c hv
    have hi : i < 1 := hi
    have : i = 0 := by omega
    subst this
    exact Or.inr ⟨0, key, c, h6, Nat.le_refl _, hv, by rw [Sense.betterEQ_iff]; exact Int.le_refl _⟩
  exact loopR_bounds F V H hD hp0 fuel 0 _ _ _ _ h1 h2 hK hH hok (by simp) h

/-! ### A consistent local bound makes the dual column monotone -/

/-- The local bound of the queue never improves along a transition from a state that a label sequence reaches. -/
def Cons (m : Mdl σ) (f : σ → Ctx → Int) : Prop :=
  ∀ ls c s l s', Path m m.sti ls c s → Step m s l s' → m.eqs s' = false → m.sense.betterEQ (f s .bb) (m.stc s l + f s' .bb) = true

theorem Cons.path {f : σ → Ctx → Int} (C : Cons m f) : ∀ {s t : σ} {ls : List Int} {c : Int}, Path m s ls c t → m.eqs t = false →
    ∀ {ks : List Int} {d : Int}, Path m m.sti ks d s → m.sense.betterEQ (f s .bb) (c + f t .bb) = true := by
  intro s t ls c h
  induction h with
  | nil s => intro _ ks d _; rw [Sense.betterEQ_iff, Int.zero_add]; exact Int.le_refl _
  | @cons s s' t l ls c hs hp ih =>
    intro ht ks d hk
    have hq : m.eqs s' = false := by
      cases hp with
      | nil => exact ht
      | cons x _ => exact x.1
    have a := C _ _ _ _ _ hk hs hq
    have b := ih ht (hk.snoc hs)
    cases hse : m.sense <;> rw [hse] at a b <;> simp [Sense.betterEQ] at a b ⊢ <;> omega

/-- Keys are made of the path cost and the local bound, and none is better than `d`. -/
def KInv (m : Mdl σ) (f : σ → Ctx → Int) (d : Int) (s : BS σ) : Prop :=
  ∀ i key, Opn s i key → key = s.pbound i + f (s.pst i) .bb ∧ m.sense.betterEQ d key = true

theorem cutStep_keys {f : σ → Ctx → Int} {d : Int} {g : G σ} {cur : Nat} {s0 : BS σ} {n : Nat} (h : PInv m s0) (hk : KInv m f d s0)
    (hp : Path m m.sti (g.lab n) (g.bound n) (g.st n)) (hq : m.eqs (g.st n) = false) (hd : m.sense.betterEQ d (g.bound n + f (g.st n) .bb) = true) :
    KInv m f d (cutStep m (some f) g cur s0 n) := by
  unfold cutStep
  dsimp only
  generalize hs : (if n = g.root then { s0 with wrel := s0.wrel + 1 } else s0) = s
  have hP : PInv m s := by
    rw [← hs]; split
    · exact ⟨h.wf, h.ord, h.pos, h.root, h.idx, h.gen, h.inj, h.uq⟩
    · exact h
  have hK : KInv m f d s := by
    rw [← hs]; split
    · exact hk
    · exact hk
  split
  · obtain ⟨q', d1, d2, d3, d4, d5, d6, _, _, _⟩ := domStep_spec hP (g.st n) (g.bound n)
    have hP1 := hP.sub d2 d3 d4 d6
    have hK1 : KInv m f d { s with pq := q' } := by
      rintro i key ⟨l, l1, l2⟩
      dsimp only at l1 l2
      rw [d4] at l2
      exact hK i key ⟨l, d6 l l1, l2⟩
    generalize hdd : domStep m s (g.st n) (g.bound n) = D at *
    obtain ⟨b, s1⟩ := D
    dsimp only at d1
    subst d1
    cases b with
    | true => exact hK1
    | false =>
      dsimp only
      cases hf : findPool { s with pq := q' } (g.st n) with
      | some o => exact hK1
      | none =>
        dsimp only
        have hP2 := hP1.clone (g.bb n) hp hq (findPool_none hP.uq hf)
        have G2 := clone_grow { s with pq := q' } (g.st n) (g.lab n) (g.bound n) (g.bb n)
        have hK2 : KInv m f d (clone { s with pq := q' } (g.st n) (g.lab n) (g.bound n) (g.bb n)) := by
          intro i key ho
          have ho : Opn { s with pq := q' } i key := ho
          have hi := hP1.idx i key ho
          rw [G2.st i hi, G2.bd i hi]
          exact hK1 i key ho
        split
        · intro i key ho
          have ho := (opn_ins hP2 _ i key).1 ho
          rcases ho with x | x
          · exact hK2 i key x
          · simp only [Prod.mk.injEq] at x
            obtain ⟨rfl, rfl⟩ := x
            simp [clone, insKey]
            exact hd
        · exact hK2
  · exact hK

theorem cutFold_keys {f : σ → Ctx → Int} {d : Int} {g : G σ} {cur : Nat} : ∀ (cs : List Nat) {s0 : BS σ} {r : Rep}, PInv m s0 → KInv m f d s0 →
    (∀ n, n ∈ cs → Path m m.sti (g.lab n) (g.bound n) (g.st n) ∧ m.eqs (g.st n) = false ∧ m.sense.betterEQ d (g.bound n + f (g.st n) .bb) = true) →
    ∀ {s' : BS σ} {r' : Rep}, (s', r') = cs.foldl (fun b n => (cutStep m (some f) g cur b.1 n, cutCount m g b.1 b.2 n)) (s0, r) → KInv m f d s' := by
  intro cs
  induction cs with
  | nil => intro s0 r _ hk _ s' r' he; cases he; exact hk
  | cons n cs ih =>
    intro s0 r hP hk hc s' r' he
    obtain ⟨c1, c2, c3⟩ := hc n (by simp)
    exact ih (cutStep_inv (lc := some f) (cur := cur) hP c1 c2).1 (cutStep_keys hP hk c1 c2 c3) (fun k hk => hc k (by simp [hk])) he

theorem loopR_mono {Wl : Nat → Int → σ → Int → Prop} (F : ∀ k, FamV Vl (Wl k) m rank (T k)) {p0 : Int} (hp0 : m.sense.betterEQ p0 m.sense.best0 = true)
    {f : σ → Ctx → Int} (C : Cons m f) {wres dfuel : Nat} {lim tick : Nat → Bool} : ∀ (n k : Nat) (s s' : BS σ) (r r' : Rep) (d : Int), PInv m s → TInv m p0 s → KInv m f d s →
      (∀ l, l ∈ r.lines → m.sense.betterEQ l.key d = true) → r.lines.Pairwise (fun a b => m.sense.betterEQ a.key b.key = true) →
      loopR m T (fun _ _ => some f) wres dfuel lim tick n k (s, r) = some (s', r') →
      r'.lines.Pairwise (fun a b => m.sense.betterEQ a.key b.key = true) := by
  intro n
  induction n with
  | zero => intro k s s' r r' d _ _ _ _ _ h; simp [loopR] at h
  | succ n ih =>
    intro k s s' r r' d hP hT hK hd hl h
    unfold loopR at h
    dsimp only at h
    by_cases he : Heap.empty s.pq = true
    · rw [if_pos he] at h
      simp at h
      rw [← h.2]; exact hl
    · rw [if_neg he] at h
      have he' : Heap.empty s.pq = false := by simpa using he
      obtain ⟨a1, a2, a3, _, _, a6⟩ := hP.extract he'
      have hT1 : TInv m p0 { s with pq := (Heap.extractMax (qord m) s.pq).1 } := hT.congr ⟨rfl, rfl, rfl, rfl⟩
      obtain ⟨kx, kd⟩ := hK _ _ a3
      have hK1 : KInv m f (Heap.extractMax (qord m) s.pq).2.2 { s with pq := (Heap.extractMax (qord m) s.pq).1 } :=
        fun i key ho => ⟨(hK i key (a6 i key ho)).1, extract_best hP he' (a6 i key ho)⟩
      by_cases hlim : lim k = true
      · rw [if_pos hlim] at h
        simp at h
        rw [← h.2]; exact hl
      · rw [if_neg hlim] at h
        have hd1 : ∀ l, l ∈ (turn (tick k) (Heap.extractMax (qord m) s.pq).2.2 s.primal r).lines → m.sense.betterEQ l.key (Heap.extractMax (qord m) s.pq).2.2 = true := by
          intro l hx
          rcases turn_lines hx with x | rfl
          · have := hd l x
            rw [Sense.betterEQ_iff] at this kd ⊢
            omega
          · rw [Sense.betterEQ_iff]; exact Int.le_refl _
        have hl1 : (turn (tick k) (Heap.extractMax (qord m) s.pq).2.2 s.primal r).lines.Pairwise (fun a b => m.sense.betterEQ a.key b.key = true) := by
          unfold turn
          dsimp only
          split
          · rw [List.pairwise_append]
            refine ⟨hl, by simp, ?_⟩
            intro a ha b hb
            simp at hb
            subst hb
            have := hd a ha
            dsimp only
            rw [Sense.betterEQ_iff] at this kd ⊢
            omega
          · exact hl
        split at h
        · simp only [Option.bind_eq_some_iff] at h
          obtain ⟨⟨s2, r2⟩, h2, h3⟩ := h
          have h2' : expandP m (T k) (fun _ => some f) wres dfuel { s with pq := (Heap.extractMax (qord m) s.pq).1 } (Heap.extractMax (qord m) s.pq).2.1 = some s2 := by
            rw [← expandR_fst, h2]; rfl
          obtain ⟨b1, b2, _⟩ := expand_inv (F k) hp0 a1 hT1 a2 h2'
          have hl2 := expandR_lines h2
          dsimp only at hl2
          obtain ⟨u, pb, u1, u2, _, u4, u5, u6, hu⟩ := expandR_shape (F k) a1 a2 h2
          have hKu : KInv m f (Heap.extractMax (qord m) s.pq).2.2 u := by
            intro i key ho
            have ho : Opn { s with pq := (Heap.extractMax (qord m) s.pq).1 } i key := by
              unfold Opn at ho ⊢; rw [u2] at ho; exact ho
            rw [u5, u6]
            exact hK1 i key ho
          have hK2 : KInv m f (Heap.extractMax (qord m) s.pq).2.2 s2 := by
            rcases hu with x | ⟨g, cs, p, x, hc⟩
            · simp at x; rw [x.1]; exact hKu
            · refine cutFold_keys cs u1 hKu ?_ x
              intro j hj
              obtain ⟨y1, ls, c, y2, y3, y4⟩ := hc j hj
              obtain ⟨hgen, _⟩ := hP.gen _ a2
              refine ⟨?_, y1, ?_⟩
              · rw [y2, y3]; exact hgen.trans y4
              · have := C.path y4 y1 hgen
                rw [y3, kx]
                dsimp only
                cases hse : m.sense <;> rw [hse] at this <;> simp [Sense.betterEQ] at this ⊢ <;> omega
          exact ih _ _ _ _ _ _ b1 b2 hK2 (by rw [hl2]; exact hd1) (by rw [hl2]; exact hl1) h3
        · exact ih _ _ _ _ _ _ a1 hT1 hK1 hd1 hl1 h

/-- C130: with a consistent local bound the dual column never gets better again, also in searches that lose solutions or are stopped.
Missing: other local bounds, see `report_mono_false`. -/
theorem report_mono_partial {Wl : Nat → Int → σ → Int → Prop} (F : ∀ k, FamV Vl (Wl k) m rank (T k)) (H : LayeredV Vl m rank m.sti 0) {p0 : Int} (hp0 : m.sense.betterEQ p0 m.sense.best0 = true)
    {f : σ → Ctx → Int} (hf : m.loc = some f) (C : Cons m f)
    {w dfuel fuel : Nat} {lim tick : Nat → Bool} {s : BS σ} {r : Rep} (h : searchRT m T (fun _ _ => some f) w dfuel lim tick fuel p0 = some (s, r)) :
    r.lines.Pairwise (fun a b => m.sense.betterEQ a.key b.key = true) := by
  obtain ⟨h1, h2, h3, h4, h5, key, h6⟩ := init_inv H.src H.fair.toUniq w p0
  refine loopR_mono F hp0 C fuel 0 _ _ _ _ (f m.sti .bb) h1 h2 ?_ (by simp) List.Pairwise.nil h
  intro i key ho
  obtain ⟨a, b⟩ := h5 i key ho
  subst a
  rw [h1.root.1, h1.root.2, Int.zero_add, b, hf]
  exact ⟨rfl, by rw [Sense.betterEQ_iff]; exact Int.le_refl _⟩

/-! ### The gap column -/

/-- C130: with a positive primal bound, a percentage `num / den` that is printed says how far better solutions can be, relative to
the primal bound: `|p - c| / p ≤ num / (100 * den)`. -/
theorem gap_pos {l : PLine} {c num den : Int} (hp : 0 < l.primal) (hg : l.gap = .pct num den)
    (hb : l.Bounds m c) (hc : m.sense.better c l.primal = true) : den = l.primal ∧ 0 ≤ num ∧ num ≤ 100 * den ∧ 100 * (l.primal - c).natAbs ≤ num := by
  unfold PLine.gap at hg
  rw [if_neg (by omega)] at hg
  split at hg
  · simp at hg
  · rename_i hx
    simp only [Gap.pct.injEq] at hg
    obtain ⟨rfl, rfl⟩ := hg
    have hle : ((l.primal - c).natAbs : Int) ≤ (l.primal - l.key).natAbs := by
      unfold PLine.Bounds at hb
      cases hse : m.sense <;> rw [hse] at hb hc <;> simp [Sense.betterEQ, Sense.better] at hb hc <;> omega
    refine ⟨rfl, by omega, by omega, by omega⟩

/-- C130: the percentage is zero only when the two bounds agree, and then no solution is better than the primal bound. -/
theorem gap_zero {l : PLine} {c den : Int} (hg : l.gap = .pct 0 den) (hb : l.Bounds m c) : m.sense.betterEQ l.primal c = true := by
  unfold PLine.gap at hg
  split at hg
  · split at hg <;> simp at hg
  · split at hg
    · simp at hg
    · simp only [Gap.pct.injEq] at hg
      have : l.primal = l.key := by omega
      rcases hb with x | x
      · exact x
      · rw [this]; exact x

end Verif.BB
