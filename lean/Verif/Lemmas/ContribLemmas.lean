import Verif.Lemmas.EstimatorLemmas

/-! What the gradient estimation methods contribute to the surrogate loss. -/

namespace Storch
variable {α : Type _} [ValEq α]

/-- The stochastic tensor lies over plates of the pool. -/
structure ParentOK (pool : List (Plate α)) (t : STen α) : Prop where
  wf : t.WF
  sub : ∀ p ∈ t.plates, p ∈ pool
  closed : ParentClosed t.plates

/-- Reducing the cost keeps the parents of the plates that stay. -/
def KeepsParents (c parent : STen α) : Prop :=
  ∀ p ∈ c.plates, p ∉ missingPlates c parent → ∀ q ∈ p.parents,
    ∃ x ∈ c.plates, x ∉ missingPlates c parent ∧ x.pyEq q = true

/-- The cost as the estimator of `parent` sees it: the plates the stochastic tensor does not have are
averaged out, with detached weights. -/
def seenCost [CommSemiring α] [Autograd α] (c parent : STen α) (ι : String → Nat) : α :=
  weightedTotal Autograd.detach (missingPlates c parent) (fun ι => c.sample ι []) ι

theorem TorchWeights.missing {pool : List (Plate α)} (hw : TorchWeights pool) {c parent : STen α} (hc : CostOK pool c) :
    TorchWeights (missingPlates c parent) :=
  fun p hm => hw p (hc.scalar.sub p (List.mem_filter.1 (List.mem_filter.1 hm).1).1)

/-- The steps before the estimator. -/
theorem before_estimator_torch [CommRing α] [Autograd α] {hook : UnwrapHook α} (hh : PlainHook hook)
    {pool : List (Plate α)} (hp : PoolOK pool) {c parent : STen α}
    (hw : TorchWeights (missingPlates c parent))
    (hc : CostOK pool c) (hg : ParentsAllOrNone c.multiDimPlates) (ht : ParentOK pool parent) :
    ∃ rc np, reducedCost hook c parent = .ok rc ∧ newParent parent rc = .ok np ∧ SameValues np parent ∧
      ScalarOp pool (.st rc false) ∧ (∀ p, p ∈ rc.plates ↔ p ∈ c.plates ∧ p ∉ missingPlates c parent) ∧
      ∀ ι, rc.sample ι [] = seenCost c parent ι := by
  obtain ⟨rc, r1, r2, r3, r4⟩ := reducedCost_torch hh hp hw hc.scalar hg
  obtain ⟨np, n1, n2⟩ := newParent_spec hp ht.wf ht.sub r2.1 (missing_sub hp ht.sub hc.scalar.sub r3)
  exact ⟨rc, np, r1, n1, n2, r2, r3, r4⟩

theorem before_estimator [CommRing α] [Autograd α] {hook : UnwrapHook α} (hh : PlainHook hook)
    {pool : List (Plate α)} (hp : PoolOK pool) (hw : TorchWeights pool) {c parent : STen α}
    (hc : CostOK pool c) (hg : ParentsAllOrNone c.multiDimPlates) (ht : ParentOK pool parent) :
    ∃ rc np, reducedCost hook c parent = .ok rc ∧ newParent parent rc = .ok np ∧ SameValues np parent ∧
      ScalarOp pool (.st rc false) ∧ (∀ p, p ∈ rc.plates ↔ p ∈ c.plates ∧ p ∉ missingPlates c parent) ∧
      ∀ ι, rc.sample ι [] = seenCost c parent ι :=
  before_estimator_torch hh hp (hw.missing hc) hc hg ht

/-- `Reparameterization` contributes nothing. -/
theorem reparam_contributes [CommRing α] [Autograd α] {hook : UnwrapHook α} {pool : List (Plate α)}
    {c t : STen α} : Contributes hook pool c (reparamSampled t) ⟨[], fun _ => 0, none⟩ :=
  Or.inl ⟨rfl, rfl, fun _ => rfl, rfl⟩

/-- `Expect` contributes nothing. -/
theorem expect_contributes [CommRing α] [Autograd α] {hook : UnwrapHook α} (hh : PlainHook hook)
    {pool : List (Plate α)} (hp : PoolOK pool) (hw : TorchWeights pool) {c t : STen α}
    (hc : CostOK pool c) (hg : ParentsAllOrNone c.multiDimPlates) (ht : ParentOK pool t) :
    Contributes hook pool c (expectSampled t) ⟨[], fun _ => 0, none⟩ := by
  obtain ⟨rc, np, r1, n1, _⟩ := before_estimator hh hp hw hc hg ht
  exact Or.inr ⟨rc, np, none, none, r1, n1, rfl, rfl, ⟨rfl, fun _ => rfl⟩, trivial⟩

/-- The log-probability of a sample: the sum over its event. -/
def sumEvent [AddCommMonoid α] (es : List Nat) (G : (String → Nat) → List Nat → α) (ι : String → Nat) : α :=
  ((allIdx es).map (G ι)).sum

theorem opIs_logProb {pool : List (Plate α)} (hp : PoolOK pool) {t lp : STen α} (ht : ParentOK pool t)
    (h1 : ScalarOp pool (.st lp false)) (h2 : ∀ p, p ∈ lp.plates ↔ p ∈ t.plates) {v : (String → Nat) → α}
    (h3 : ∀ ι, lp.sample ι [] = v ι) : OpIs pool (.st lp false) (t.plates.map Plate.name) v := by
  refine ⟨h1, ?_, ?_, h3⟩
  · intro p hm q hq
    obtain ⟨x, hx, he⟩ := ht.closed p ((h2 p).1 hm) q hq
    exact ⟨x, (h2 x).2 hx, he⟩
  · intro p hm
    rw [Operand.plates, h2 p]
    constructor
    · exact fun h' => List.mem_map_of_mem h'
    · intro h'
      obtain ⟨q, hq, he⟩ := List.mem_map.1 h'
      exact pool_eq hp (ht.sub q hq) hm he ▸ hq

/-- `ScoreFunction` without a baseline contributes the log-probability. -/
theorem score_contributes [CommRing α] [Autograd α] {hook : UnwrapHook α} (hh : PlainHook hook)
    {pool : List (Plate α)} (hp : PoolOK pool) (hw : TorchWeights pool) {c t : STen α}
    (hc : CostOK pool c) (hg : ParentsAllOrNone c.multiDimPlates) (ht : ParentOK pool t)
    {logProb : STen α → Except Err (STen α)} {es : List Nat} {G : (String → Nat) → List Nat → α}
    (hl : LogProbOK t logProb es G) (inv : Nat → α) (n : Nat) (name : String) :
    Contributes hook pool c (scoreSampled hook inv logProb n name none t)
      ⟨t.plates.map Plate.name, sumEvent es G, none⟩ := by
  obtain ⟨rc, np, r1, n1, n2, r2, r3, r4⟩ := before_estimator hh hp hw hc hg ht
  obtain ⟨lp0, lp, l1, l2, l3, l4, l5⟩ := score_logProb hh hp ht.sub hl n2
  refine Or.inr ⟨rc, np, some (.st lp false), none, r1, n1, ?_, rfl, opIs_logProb hp ht l3 l4 l5, trivial⟩
  simp only [scoreSampled, scoreEstimator]
  simp only [l1, l2]

/-- `ScoreFunction` with a baseline contributes the log-probability and the control variate
`(1 - magic_box(log_prob)) * baseline`. -/
theorem baseline_contributes_torch [CommRing α] [Autograd α] {hook : UnwrapHook α} (hh : PlainHook hook)
    {pool : List (Plate α)} (hp : PoolOK pool) {c t : STen α} (hw : TorchWeights (missingPlates c t))
    (hc : CostOK pool c) (hg : ParentsAllOrNone c.multiDimPlates) (ht : ParentOK pool t)
    {logProb : STen α → Except Err (STen α)} {es : List Nat} {G : (String → Nat) → List Nat → α}
    (hl : LogProbOK t logProb es G) (inv : Nat → α) (n : Nat) (name : String) (b : Baseline α)
    {ns : List String} {bv : (String → Nat) → α}
    (hb : ∀ rc, ScalarOp pool (.st rc false) →
      (∀ p, p ∈ rc.plates ↔ p ∈ c.plates ∧ p ∉ missingPlates c t) →
      (∀ ι, rc.sample ι [] = seenCost c t ι) →
      ∃ o, computeBaseline hook inv n name rc b = .ok o ∧ OpIs pool o ns bv) :
    Contributes hook pool c (scoreSampled hook inv logProb n name (some b) t)
      ⟨t.plates.map Plate.name, sumEvent es G,
        some (t.plates.map Plate.name ++ ns, fun ι => (1 - boxElt (sumEvent es G ι)) * bv ι)⟩ := by
  obtain ⟨rc, np, r1, n1, n2, r2, r3, r4⟩ := before_estimator_torch hh hp hw hc hg ht
  obtain ⟨lp0, lp, l1, l2, l3, l4, l5⟩ := score_logProb hh hp ht.sub hl n2
  have hlp := opIs_logProb (v := sumEvent es G) hp ht l3 l4 l5
  obtain ⟨o, o1, o2⟩ := hb rc r2 r3 r4
  obtain ⟨bx, b1, b2, b3⟩ := magicBox_is hh hp hlp
  obtain ⟨cv, v1, v2, v3⟩ := opCall_pair hh hp oneMinusElts b2 o2
  have hst : ∃ t s, cv = .st t s := by
    obtain ⟨y, hy⟩ := b3 ⟨_, _, rfl⟩
    obtain ⟨x, hx⟩ := v3 (Or.inl ⟨y, false, hy⟩)
    exact ⟨x, false, hx⟩
  refine Or.inr ⟨rc, np, some (.st lp false), some cv, r1, n1, ?_, rfl, hlp, ⟨v2, hst⟩⟩
  simp only [scoreSampled, scoreEstimator]
  simp only [l1, l2, o1, b1, v1]

theorem baseline_contributes [CommRing α] [Autograd α] {hook : UnwrapHook α} (hh : PlainHook hook)
    {pool : List (Plate α)} (hp : PoolOK pool) (hw : TorchWeights pool) {c t : STen α}
    (hc : CostOK pool c) (hg : ParentsAllOrNone c.multiDimPlates) (ht : ParentOK pool t)
    {logProb : STen α → Except Err (STen α)} {es : List Nat} {G : (String → Nat) → List Nat → α}
    (hl : LogProbOK t logProb es G) (inv : Nat → α) (n : Nat) (name : String) (b : Baseline α)
    {ns : List String} {bv : (String → Nat) → α}
    (hb : ∀ rc, ScalarOp pool (.st rc false) →
      (∀ p, p ∈ rc.plates ↔ p ∈ c.plates ∧ p ∉ missingPlates c t) →
      (∀ ι, rc.sample ι [] = seenCost c t ι) →
      ∃ o, computeBaseline hook inv n name rc b = .ok o ∧ OpIs pool o ns bv) :
    Contributes hook pool c (scoreSampled hook inv logProb n name (some b) t)
      ⟨t.plates.map Plate.name, sumEvent es G,
        some (t.plates.map Plate.name ++ ns, fun ι => (1 - boxElt (sumEvent es G ι)) * bv ι)⟩ :=
  baseline_contributes_torch hh hp (hw.missing hc) hc hg ht hl inv n name b hb

/-- The plates that stay. -/
theorem kept_iff {pool : List (Plate α)} (hp : PoolOK pool) {c t : STen α} (hc : CostOK pool c) {p : Plate α} :
    p ∈ c.plates.filter (fun p => !p.isIn (missingPlates c t)) ↔ p ∈ c.plates ∧ p ∉ missingPlates c t := by
  rw [List.mem_filter]
  refine and_congr_right (fun hpc => ?_)
  simp only [Bool.not_eq_true']
  rw [← Bool.not_eq_true, not_iff_not, Plate.isIn_iff]
  constructor
  · rintro ⟨x, hx, he⟩
    exact pool_eq hp (hc.scalar.sub x (List.mem_filter.1 (List.mem_filter.1 hx).1).1) (hc.scalar.sub p hpc)
      (Plate.pyEq_name he) ▸ hx
  · intro hm; exact ⟨p, hm, Plate.pyEq_refl _⟩

theorem kept_perm {pool : List (Plate α)} (hp : PoolOK pool) {c t rc : STen α} (hc : CostOK pool c)
    (h1 : ScalarOp pool (.st rc false))
    (h2 : ∀ p, p ∈ rc.plates ↔ p ∈ c.plates ∧ p ∉ missingPlates c t) :
    (c.plates.filter (fun p => !p.isIn (missingPlates c t))).Perm rc.plates := by
  apply perm_of_pool hp.names (hc.scalar.nodup.sublist (List.filter_sublist.map _)) h1.nodup
  intro p
  exact (kept_iff hp hc).trans (h2 p).symm

/-- The moving average (which takes the current cost into account). -/
theorem moving_ok_torch [CommRing α] [Autograd α] {hook : UnwrapHook α} (hh : PlainHook hook)
    {pool : List (Plate α)} (hp : PoolOK pool) {c t : STen α} (hw : TorchWeights c.plates)
    (hc : CostOK pool c) (hk : KeepsParents c t) (inv : Nat → α) (n : Nat) (name : String) (decay avg : α)
    (rc : STen α) (h1 : ScalarOp pool (.st rc false))
    (h2 : ∀ p, p ∈ rc.plates ↔ p ∈ c.plates ∧ p ∉ missingPlates c t)
    (h3 : ∀ ι, rc.sample ι [] = seenCost c t ι) :
    ∃ o, computeBaseline hook inv n name rc (.movingAverage decay avg) = .ok o ∧
      OpIs pool o [] (fun _ => decay * avg + (1 - decay) * Autograd.detach
        (weightedTotal Autograd.detach (c.plates.filter (fun p => !p.isIn (missingPlates c t)))
          (seenCost c t) (fun _ => 0))) := by
  have hcl : ParentClosed rc.plates := by
    intro p hm q hq
    obtain ⟨x, x1, x2, x3⟩ := hk p ((h2 p).1 hm).1 ((h2 p).1 hm).2 q hq
    exact ⟨x, (h2 x).2 ⟨x1, x2⟩, x3⟩
  obtain ⟨r, r1, r2, r3, r4, r5⟩ := reduceAll_torch hh Autograd.detach hp (fun p hm => hw p ((h2 p).1 hm).1) h1 hcl
  have hev : r.eventShape = [] := by rw [STen.eventShape, r3]; simp
  have hr : ScalarOp pool (.st r false) := ⟨r4, hev, by rw [r2]; simp⟩
  obtain ⟨d, d1, d2, d3, d4, d5⟩ := opCall_scalar hh hp detachElts (ops := [.st r false]) (by simpa using hr)
  obtain ⟨dt, rfl⟩ := d5 (by simp [stens])
  obtain ⟨m, m1, m2, m3, m4, m5⟩ := opCall_scalar hh hp (movingElts decay avg) (ops := [.st dt false])
    (by simpa using d2)
  obtain ⟨mt, rfl⟩ := m5 (by simp [stens])
  have hpl : mt.plates = [] := by
    rw [List.eq_nil_iff_forall_not_mem]
    intro p hm
    obtain ⟨o, ho, hm⟩ := (m3 p).1 hm
    rw [List.mem_singleton.1 ho] at hm
    obtain ⟨o, ho, hm⟩ := (d3 p).1 hm
    rw [List.mem_singleton.1 ho, Operand.plates, r2] at hm
    cases hm
  have hsh : mt.ten.shape = [] := by
    have := m2.1.shape
    rw [STen.multiDimPlates, hpl, m2.2.1] at this
    exact this
  have hperm := kept_perm hp hc h1 h2
  refine ⟨.torch mt.ten, ?_, hsh, (by intro p hm; cases hm), by intro p _; simp [Operand.plates], ?_⟩
  · rw [computeBaseline, r1]
    simp only [d1, m1]
  · intro ι
    have e1 := m4 (fun _ => 0)
    rw [Operand.at, Operand.sample, sample_noPlates hpl (by rw [m2.2.1]; exact .nil)] at e1
    have e2 := d4 (fun _ => 0)
    have e3 : Operand.at (.st r false) (fun _ => 0) = r.ten.get [] := by
      rw [Operand.at, Operand.sample, sample_noPlates r2 (by rw [hev]; exact .nil)]
    have e4 : Operand.at (.torch mt.ten) ι = mt.ten.get [] := by
      rw [Operand.at, Operand.sample, hsh]; rfl
    rw [e4, e1]
    simp only [List.map_cons, List.map_nil, movingElts]
    rw [e2]
    simp only [List.map_cons, List.map_nil, detachElts]
    rw [e3, r5 (fun _ => 0), weightedTotal_perm Autograd.detach hperm h1.nodup,
      show (fun ι => rc.sample ι []) = seenCost c t from funext h3]

theorem moving_ok [CommRing α] [Autograd α] {hook : UnwrapHook α} (hh : PlainHook hook)
    {pool : List (Plate α)} (hp : PoolOK pool) (hw : TorchWeights pool) {c t : STen α}
    (hc : CostOK pool c) (hk : KeepsParents c t) (inv : Nat → α) (n : Nat) (name : String) (decay avg : α)
    (rc : STen α) (h1 : ScalarOp pool (.st rc false))
    (h2 : ∀ p, p ∈ rc.plates ↔ p ∈ c.plates ∧ p ∉ missingPlates c t)
    (h3 : ∀ ι, rc.sample ι [] = seenCost c t ι) :
    ∃ o, computeBaseline hook inv n name rc (.movingAverage decay avg) = .ok o ∧
      OpIs pool o [] (fun _ => decay * avg + (1 - decay) * Autograd.detach
        (weightedTotal Autograd.detach (c.plates.filter (fun p => !p.isIn (missingPlates c t)))
          (seenCost c t) (fun _ => 0))) :=
  moving_ok_torch hh hp (fun p hm => hw p (hc.scalar.sub p hm)) hc hk inv n name decay avg rc h1 h2 h3

/-- The batch average: the mean of the costs of the other samples. -/
theorem batch_ok [CommRing α] [Autograd α] {hook : UnwrapHook α} (hh : PlainHook hook)
    {pool : List (Plate α)} (hp : PoolOK pool) {c t : STen α}
    (hc : CostOK pool c) (ht : ParentOK pool t) (hk : KeepsParents c t) (inv : Nat → α) {own : Plate α}
    (ho : own ∈ c.plates) (hot : own ∈ t.plates) (hn : 1 < own.n)
    (rc : STen α) (h1 : ScalarOp pool (.st rc false))
    (h2 : ∀ p, p ∈ rc.plates ↔ p ∈ c.plates ∧ p ∉ missingPlates c t)
    (h3 : ∀ ι, rc.sample ι [] = seenCost c t ι) :
    ∃ o, computeBaseline hook inv own.n own.name rc .batchAverage = .ok o ∧
      OpIs pool o ((c.plates.filter (fun p => !p.isIn (missingPlates c t))).map Plate.name)
        (fun ι => ((∑ k ∈ Finset.range own.n, Autograd.detach (seenCost c t (Function.update ι own.name k))) -
          Autograd.detach (seenCost c t ι)) * inv (own.n - 1)) := by
  obtain ⟨d, d1, d2, d3, d4, d5⟩ := opCall_scalar hh hp detachElts (ops := [.st rc false]) (by simpa using h1)
  obtain ⟨dt, rfl⟩ := d5 (by simp [stens])
  have hdp : ∀ p, p ∈ dt.plates ↔ p ∈ rc.plates := by
    intro p
    have := d3 p
    simpa [Operand.plates] using this
  have hown : own ∈ dt.multiDimPlates := by
    refine List.mem_filter.2 ⟨(hdp own).2 ((h2 own).2 ⟨ho, ?_⟩), by simpa using hn⟩
    intro hm
    have := (List.mem_filter.1 hm).2
    have hin : own.isInMethod t.multiDimPlates = true :=
      (isInMethod_pool hp (fun p hp' => ht.sub p (List.mem_filter.1 hp').1) (ht.sub own hot)).2
        (List.mem_filter.2 ⟨hot, by simpa using hn⟩)
    rw [hin] at this
    cases this
  obtain ⟨s, s1, s2, s3, s4, s5⟩ := storchSum_spec hh ⟨d2.1, fun p hp' => hp.plain p (d2.2.2 p hp')⟩ hown
  have hs : ScalarOp pool (.st s false) := by
    refine ⟨s2.wf, by rw [s4]; exact d2.2.1, ?_⟩
    intro p hm
    rw [s3] at hm
    exact d2.2.2 p (List.mem_filter.1 hm).1
  obtain ⟨r, r1, r2, r3, r4, r5⟩ := opCall_scalar hh hp (looElts (inv (own.n - 1)))
    (ops := [.st s false, .st dt false]) (by
      intro o ho
      simp only [List.mem_cons, List.not_mem_nil, or_false] at ho
      rcases ho with rfl | rfl
      exacts [hs, d2])
  have hrp : ∀ p, p ∈ r.plates ↔ p ∈ c.plates ∧ p ∉ missingPlates c t := by
    intro p
    rw [r3 p, ← h2 p, ← hdp p]
    simp only [List.mem_cons, List.not_mem_nil, or_false, exists_eq_or_imp, exists_eq_left, Operand.plates]
    constructor
    · rintro (h | h)
      · rw [s3] at h; exact (List.mem_filter.1 h).1
      · exact h
    · exact Or.inr
  refine ⟨r, ?_, r2, ?_, ?_, ?_⟩
  · rw [computeBaseline, if_neg (by omega)]
    simp only [d1, s1, r1]
  · intro p hm q hq
    obtain ⟨x, x1, x2, x3⟩ := hk p ((hrp p).1 hm).1 ((hrp p).1 hm).2 q hq
    exact ⟨x, (hrp x).2 ⟨x1, x2⟩, x3⟩
  · intro p hm
    rw [hrp p, ← kept_iff hp hc]
    constructor
    · exact fun h' => List.mem_map_of_mem h'
    · intro h'
      obtain ⟨q, hq, he⟩ := List.mem_map.1 h'
      exact pool_eq hp (hc.scalar.sub q (List.mem_filter.1 hq).1) hm he ▸ hq
  · intro ι
    have hd : ∀ ι, dt.sample ι [] = Autograd.detach (seenCost c t ι) := by
      intro ι
      have := d4 ι
      rw [Operand.at, Operand.sample] at this
      rw [this, ← h3 ι]
      rfl
    rw [r4 ι]
    simp only [List.map_cons, List.map_nil, looElts, Operand.at, Operand.sample]
    rw [s5 ι [], hd ι]
    simp only [hd]

end Storch
