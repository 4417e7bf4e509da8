import Verif.Lemmas.ContribLemmas

/-! The surrogate loss when plate weights are storch tensors, as for enumeration and importance sampling.
Reducing such a plate can leave dimensions of size one behind the plates; they are padded away when the
costs are stacked. -/

namespace Storch
variable {α : Type _} [ValEq α]

/-- All weights are well-formed. -/
def Weights (pool : List (Plate α)) : Prop := ∀ p ∈ pool, WeightOK p

omit [ValEq α] in
theorem TorchWeights.weights {pool : List (Plate α)} (h : TorchWeights pool) : Weights pool :=
  fun p hp => (h p hp).1

theorem Reducible.filter {l ps : List (Plate α)} (h : Reducible l ps) (f : Plate α → Bool) :
    Reducible (l.filter f) ps := by
  refine ⟨h.nodup.sublist (List.filter_sublist.map _), fun p hp => h.mem p (List.mem_filter.1 hp).1,
    fun p hp => h.ok p (List.mem_filter.1 hp).1, ?_⟩
  intro l1 p l2 he w names hw q hq
  obtain ⟨a, b, h1, h2, h3⟩ := List.filter_eq_append_iff.1 he
  obtain ⟨b1, b2, h4, h5, _, _⟩ := List.filter_eq_cons_iff.1 h3
  have h5' : b1.filter f = [] := by rw [List.filter_eq_nil_iff]; exact h5
  obtain ⟨x, hx, hxe⟩ := Plate.isIn_iff.1 (h.par (a ++ b1) p b2 (by rw [h1, h4, List.append_assoc]) w names hw q hq)
  refine Plate.isIn_iff.2 ⟨x, ?_, hxe⟩
  obtain ⟨hx1, hx2⟩ := List.mem_filter.1 hx
  refine List.mem_filter.2 ⟨hx1, ?_⟩
  simp only [Bool.not_eq_true', decide_eq_false_iff_not] at hx2 ⊢
  intro hm
  apply hx2
  rw [← h2] at hm
  obtain ⟨y, hy, hye⟩ := List.mem_map.1 hm
  rw [← hye]
  exact List.mem_map_of_mem (List.mem_append.2 (Or.inl (List.mem_filter.1 hy).1))

/-- The reduced cost (inference.py:143-149). -/
theorem reducedCost_any [CommSemiring α] [Autograd α] {hook : UnwrapHook α} (hh : PlainHook hook)
    {pool : List (Plate α)} (hp : PoolOK pool) (hw : Weights pool) {c parent : STen α}
    (hc : CostOK pool c) (hg : ParentsAllOrNone c.multiDimPlates) :
    ∃ rc, reducedCost hook c parent = .ok rc ∧ rc.WF ∧
      (∀ p, p ∈ rc.plates ↔ p ∈ c.plates ∧ p ∉ missingPlates c parent) := by
  have h := hc.scalar
  have hmd : ∀ p ∈ c.multiDimPlates, p ∈ c.plates := fun p h => (List.mem_filter.1 h).1
  have hnd : (c.multiDimPlates.map Plate.name).Nodup :=
    h.1.names.sublist (List.filter_sublist.map _)
  obtain ⟨o, o1, o2, o3⟩ := C11_complete_partial c.multiDimPlates hnd hg
    (hp.acyclic.mono (fun p hp' => h.2.2 p (hmd p hp')))
  have ho : orderPlates c.multiDimPlates true = .ok o.reverse := by
    rw [C10_reverse c.multiDimPlates, o1]; rfl
  have hpc : Proper c := ⟨h.1, fun p hp' => hp.plain p (h.2.2 p hp')⟩
  have hred0 := order_reducible hpc hnd hmd (fun p hp' => hw p (h.2.2 p (hmd p hp')))
    (fun p hp' w names _ q hq => Plate.isIn_iff.2 (hc.closed p (hmd p hp') q hq)) o2 o3
  have hred := hred0.filter (fun p => !p.isInMethod parent.multiDimPlates)
  have hlp : (o.reverse.filter (fun p => !p.isInMethod parent.multiDimPlates)).Perm (missingPlates c parent) :=
    ((List.reverse_perm o).trans o2).filter _
  obtain ⟨r, r1, r2, r3, _⟩ := reduceLoop_spec hh Autograd.detach _ hpc hred
  refine ⟨r, by rw [reducedCost, ho]; simp only; rw [reduceMissing_eq]; exact r1, r2.wf, ?_⟩
  intro p
  rw [r3, dropPlates, List.mem_filter]
  simp only [Bool.not_eq_true', decide_eq_false_iff_not]
  refine and_congr_right (fun hpc' => not_congr ?_)
  rw [(hlp.map Plate.name).mem_iff, List.mem_map]
  constructor
  · rintro ⟨q, hq, he⟩
    exact pool_eq hp (h.2.2 q (hmd q (List.mem_filter.1 hq).1)) (h.2.2 p hpc') he ▸ hq
  · intro hm; exact ⟨p, hm, rfl⟩

/-- The steps before the estimator. -/
theorem before_estimator_any [CommRing α] [Autograd α] {hook : UnwrapHook α} (hh : PlainHook hook)
    {pool : List (Plate α)} (hp : PoolOK pool) (hw : Weights pool) {c parent : STen α}
    (hc : CostOK pool c) (hg : ParentsAllOrNone c.multiDimPlates) (ht : ParentOK pool parent) :
    ∃ rc np, reducedCost hook c parent = .ok rc ∧ newParent parent rc = .ok np ∧ SameValues np parent := by
  obtain ⟨rc, r1, r2, r3⟩ := reducedCost_any hh hp hw (parent := parent) hc hg
  obtain ⟨np, n1, n2⟩ := newParent_spec hp ht.wf ht.sub r2 (missing_sub hp ht.sub hc.scalar.sub r3)
  exact ⟨rc, np, r1, n1, n2⟩

/-- `Expect` contributes nothing. -/
theorem expect_contributes_any [CommRing α] [Autograd α] {hook : UnwrapHook α} (hh : PlainHook hook)
    {pool : List (Plate α)} (hp : PoolOK pool) (hw : Weights pool) {c t : STen α}
    (hc : CostOK pool c) (hg : ParentsAllOrNone c.multiDimPlates) (ht : ParentOK pool t) :
    Contributes hook pool c (expectSampled t) ⟨[], fun _ => 0, none⟩ := by
  obtain ⟨rc, np, r1, n1, _⟩ := before_estimator_any hh hp hw hc hg ht
  exact Or.inr ⟨rc, np, none, none, r1, n1, rfl, rfl, ⟨rfl, fun _ => rfl⟩, trivial⟩

/-- `ScoreFunction` without a baseline contributes the log-probability. -/
theorem score_contributes_any [CommRing α] [Autograd α] {hook : UnwrapHook α} (hh : PlainHook hook)
    {pool : List (Plate α)} (hp : PoolOK pool) (hw : Weights pool) {c t : STen α}
    (hc : CostOK pool c) (hg : ParentsAllOrNone c.multiDimPlates) (ht : ParentOK pool t)
    {logProb : STen α → Except Err (STen α)} {es : List Nat} {G : (String → Nat) → List Nat → α}
    (hl : LogProbOK t logProb es G) (inv : Nat → α) (n : Nat) (name : String) :
    Contributes hook pool c (scoreSampled hook inv logProb n name none t)
      ⟨t.plates.map Plate.name, sumEvent es G, none⟩ := by
  obtain ⟨rc, np, r1, n1, n2⟩ := before_estimator_any hh hp hw hc hg ht
  obtain ⟨lp0, lp, l1, l2, l3, l4, l5⟩ := score_logProb hh hp ht.sub hl n2
  refine Or.inr ⟨rc, np, some (.st lp false), none, r1, n1, ?_, rfl, opIs_logProb hp ht l3 l4 l5, trivial⟩
  simp only [scoreSampled, scoreEstimator]
  simp only [l1, l2]

omit [ValEq α] in
theorem event_noPlates {r : STen α} (h : r.WF) (hp : r.plates = []) : r.eventShape = r.ten.shape := by
  have := h.shape
  rw [STen.multiDimPlates, hp] at this
  exact this.symm

/-- A storch tensor without plates whose only element is `v`. -/
def IsNumber (r : STen α) (v : α) : Prop :=
  r.WF ∧ r.plates = [] ∧ ∃ k, r.ten.shape = List.replicate k 1 ∧ r.ten.get (List.replicate k 0) = v

/-- A torch number, or a storch tensor without plates whose only element is `v`. -/
def OpNumber (o : Operand α) (v : α) : Prop :=
  o = .torch (.scalar v) ∨ ∃ r, o = .st r false ∧ IsNumber r v

theorem inB_ones (k : Nat) : Ten.InB (List.replicate k 0) (List.replicate k 1) := by
  induction k with
  | zero => exact .nil
  | succ k ih => exact .cons (by simp) ih

/-- Adding a number. -/
theorem addNumber [AddCommMonoid α] {hook : UnwrapHook α} (hh : PlainHook hook) {o : Operand α} {v w : α} {f : STen α}
    (ho : OpNumber o v) (hf : IsNumber f w) :
    ∃ r, opCall hook List.sum [o, .st f false] = .ok (.st r false) ∧ IsNumber r (v + w) := by
  obtain ⟨hfw, f2, k, f3, f6⟩ := hf
  have hfe : f.eventShape = List.replicate k 1 := by rw [event_noPlates hfw f2, f3]
  have hb : ∀ (E : Nat), Ten.bshapes [List.replicate E 1, List.replicate E 1] = some (List.replicate E 1) := by
    intro E
    rw [bshapes_eq _ E (by simp)]
    have e2 : Ten.padL E (List.replicate E 1) = List.replicate E 1 := by simp [Ten.padL]
    have e4 := bzip_ones (List.replicate E 1)
    rw [List.length_replicate] at e4
    simp only [List.map_cons, List.map_nil, bfold_cons, e2, e4, Option.bind_some]
    rfl
  have hrep : ∀ a b : Nat, a ≤ b → List.replicate a 1 ++ List.replicate (b - a) 1 = List.replicate b 1 := by
    intro a b h
    rw [List.replicate_append_replicate]
    congr 1
    omega
  rcases ho with rfl | ⟨x, rfl, hxw, x2, j, x3, x6⟩
  · have hmax : maxEv [Operand.torch (.scalar v), .st f false] = k := by
      simp [maxEv, stens, STen.eventDims, hfe]
    obtain ⟨r, r1, r2, r3, r4, r5⟩ := C05_elementwise hook hh List.sum [.torch (.scalar v), .st f false]
      ⟨by simp [stens, hfw], by simp [stens, f2], by simp [stens, f2]⟩ (by simp [stens])
      (by intro t ht; simp at ht; subst ht; simp [Ten.ndim, Ten.scalar]) (List.replicate k 1) (by
        rw [hmax, ← hb k]
        congr 1
        simp [Operand.evShape, Ten.scalar, Ten.ndim, STen.eventDims, hfe])
    have hrp : r.plates = [] := by
      have := r3.sub
      simpa [stens, f2] using this
    refine ⟨r, by rw [opCall, r1], r2, hrp, k, by rw [← r4, event_noPlates r2 hrp], ?_⟩
    have h6 := r5 (fun _ => 0) _ (inB_ones k)
    rw [sample_noPlates hrp (by rw [r4]; exact inB_ones k)] at h6
    rw [h6]
    simp only [List.map_cons, List.map_nil, List.sum_cons, List.sum_nil, add_zero, Operand.sample]
    rw [sample_noPlates f2 (by rw [hfe]; exact inB_ones k), f6]
    simp [Ten.scalar]
  · have hxe : x.eventShape = List.replicate j 1 := by rw [event_noPlates hxw x2, x3]
    have hmax : maxEv [Operand.st x false, .st f false] = max j k := by
      simp [maxEv, stens, STen.eventDims, hfe, hxe]
    obtain ⟨r, r1, r2, r3, r4, r5⟩ := C05_elementwise hook hh List.sum [.st x false, .st f false]
      ⟨by simp [stens, hfw, hxw], by simp [stens, f2, x2], by simp [stens, f2, x2]⟩ (by simp [stens])
      (by intro t ht; simp at ht) (List.replicate (max j k) 1) (by
        rw [hmax, ← hb (max j k)]
        congr 1
        simp only [List.map_cons, List.map_nil, Operand.evShape, STen.eventDims, hfe, hxe, List.length_replicate]
        rw [hrep j _ (le_max_left _ _), hrep k _ (le_max_right _ _)])
    have hrp : r.plates = [] := by
      have := r3.sub
      simpa [stens, f2, x2] using this
    refine ⟨r, by rw [opCall, r1], r2, hrp, max j k, by rw [← r4, event_noPlates r2 hrp], ?_⟩
    have h6 := r5 (fun _ => 0) _ (inB_ones _)
    rw [sample_noPlates hrp (by rw [r4]; exact inB_ones _)] at h6
    rw [h6]
    have hs : ∀ (y : STen α) (i : Nat), y.plates = [] → y.eventShape = List.replicate i 1 → i ≤ max j k →
        y.sample (fun _ => 0) (List.replicate (max j k) 0) = y.ten.get (List.replicate i 0) := by
      intro y i y1 y2 y3
      have : y.sample (fun _ => 0) (List.replicate (max j k) 0) = y.sample (fun _ => 0) (List.replicate i 0) := by
        simp only [STen.sample, y2]
        congr 2
        have hbi : ∀ (i m : Nat), i ≤ m → Ten.bidx (List.replicate i 1) (List.replicate m 0) = List.replicate i 0 := by
          intro i
          induction i with
          | zero => intro m _; simp [Ten.bidx]
          | succ i ih =>
            intro m hm
            obtain ⟨m, rfl⟩ : ∃ m', m = m' + 1 := ⟨m - 1, by omega⟩
            rw [List.replicate_succ, List.replicate_succ, List.replicate_succ]
            simp only [Ten.bidx, List.zipWith_cons_cons]
            have := ih m (by omega)
            simp only [Ten.bidx] at this
            rw [this]
            simp
        rw [hbi i _ y3, hbi i i le_rfl]
      rw [this, sample_noPlates y1 (by rw [y2]; exact inB_ones i)]
    simp only [List.map_cons, List.map_nil, List.sum_cons, List.sum_nil, add_zero, Operand.sample]
    rw [hs f k f2 hfe (le_max_right _ _), hs x j x2 hxe (le_max_left _ _), f6, x6]

/-- Reducing all plates leaves a number. -/
theorem reduceAll_number [CommRing α] {hook : UnwrapHook α} (hh : PlainHook hook)
    {pool : List (Plate α)} (hp : PoolOK pool) (hw : Weights pool) {t : STen α} {s : Bool}
    {ns : List String} {v : (String → Nat) → α} (h : OpIs pool (.st t s) ns v) :
    ∃ r, reduceAllPlates hook (.st t s) = .ok r ∧
      IsNumber r (weightedTotal id (named pool ns) v (fun _ => 0)) := by
  have hr : Reduceable t := ⟨⟨h.scalar.1, fun p hp' => hp.plain p (h.scalar.2.2 p hp')⟩,
    fun p hp' => hw p (h.scalar.2.2 p hp'), h.closed, hp.acyclic.mono h.scalar.2.2⟩
  obtain ⟨f, k, f1, f2, f3, _, f5⟩ := C12_weighted_sum_partial hh id hr s (fun _ => 0)
  rw [h.scalar.2.1, List.nil_append] at f3
  have f6 := f5 [] (by rw [h.scalar.2.1]; exact .nil)
  rw [List.nil_append] at f6
  have hfw : f.WF := by
    obtain ⟨l, r', _, _, q1, q2, _⟩ := reducePlates_spec hh id hr.proper
      (Or.inl ⟨rfl, rfl⟩) hr.proper.wf.names hr.weights hr.par hr.allOrNone hr.acyclic s
    rw [f1] at q1
    cases q1
    exact q2.wf
  have hperm : (named pool ns).Perm t.plates := by
    apply perm_of_pool hp.names (hp.names.sublist (List.filter_sublist.map _)) h.scalar.nodup
    intro p
    simp only [List.mem_filter, decide_eq_true_eq]
    constructor
    · rintro ⟨h1, h2⟩; exact (h.names p h1).2 h2
    · intro hm; exact ⟨h.scalar.sub p hm, (h.names p (h.scalar.sub p hm)).1 hm⟩
  refine ⟨f, by rw [reduceAllPlates, f1], hfw, f2, k, f3, ?_⟩
  rw [f6, weightedTotal_perm id hperm h.scalar.nodup]
  congr 1
  funext ι
  exact h.val ι

/-- `squeeze(0)` keeps numbers (inference.py:197-198). -/
theorem squeeze_number {hook : UnwrapHook α} (hh : PlainHook hook) {f : STen α} {v : α} (hf : IsNumber f v) :
    ∃ r, squeezeScalar hook f = .ok r ∧ IsNumber r v ∧ (f.ten.ndim ≤ 1 → r.ten.shape = []) := by
  obtain ⟨hfw, f2, k, f3, f6⟩ := hf
  have hk : f.ten.ndim = k := by rw [Ten.ndim, f3, List.length_replicate]
  by_cases h1 : k = 1
  · subst h1
    have hcall := handleDet_single hh (t := f) ⟨hfw, by simp [f2]⟩ false true [] [.other 0] [.other 0]
      (fun c m => by simp [collectList, Val.collect]) (fun _ _ _ => rfl) squeeze0Fn
      (.torch ⟨[], fun idx => f.ten.get (0 :: idx)⟩) (by simp only [squeeze0Fn, squeeze0]; rw [f3]; rfl)
    refine ⟨⟨⟨[], fun idx => f.ten.get (0 :: idx)⟩, [], 0⟩, ?_, ⟨⟨List.nodup_nil, by simp,
        by simp [STen.multiDimPlates, STen.eventShape], by simp [STen.multiDimPlates]⟩, rfl, 0, rfl, f6⟩, fun _ => rfl⟩
    rw [squeezeScalar, if_pos hk]
    have : handleDet hook false false {} squeeze0Fn ⟨[.st f false, .other 0], []⟩ = _ := hcall
    rw [this, f2]
    simp [Val.wrapOut, STen.mk', STen.checkPlates, asSt]
  · refine ⟨f, by rw [squeezeScalar, if_neg (by rw [hk]; exact h1)], ⟨hfw, f2, k, f3, f6⟩, ?_⟩
    intro h
    have : k = 0 := by omega
    rw [f3, this]; rfl

/-- The part of the loop body after the estimator. -/
theorem addEstimate_any [CommRing α] [Autograd α] {hook : UnwrapHook α} (hh : PlainHook hook)
    {pool : List (Plate α)} (hp : PoolOK pool) (hw : Weights pool) {a b : Option (Operand α)} {e : Est α}
    (ha : match a with
      | none => e.names = [] ∧ ∀ ι, e.lp ι = 0
      | some g => OpIs pool g e.names e.lp)
    (hb : match b, e.cv with
      | none, none => True
      | some o, some (ns, v) => OpIs pool o ns v ∧ ∃ t s, o = .st t s
      | _, _ => False)
    {l s : Operand α} {ns : List String} {lv : (String → Nat) → α} {sv : α} (hl : OpIs pool l ns lv)
    (hs : OpNumber s sv) :
    ∃ l' s', addEstimate hook (a, b) (l, s) = .ok (l', s') ∧
      OpIs pool l' (ns ++ e.names) (fun ι => lv ι + e.lp ι) ∧
      OpNumber s' (sv + cvTotal pool [e] ns lv) := by
  obtain ⟨l', l1, l2⟩ := gradient_spec hh hp ha hl
  rw [addEstimate_eq, l1]
  simp only
  cases b with
  | none =>
    cases hcv : e.cv with
    | some x => rw [hcv] at hb; exact hb.elim
    | none =>
      refine ⟨l', s, rfl, l2, ?_⟩
      simpa [cvTotal, hcv] using hs
  | some o =>
    cases hcv : e.cv with
    | none => rw [hcv] at hb; exact hb.elim
    | some x =>
      obtain ⟨ns', v⟩ := x
      rw [hcv] at hb
      obtain ⟨hb1, hb2⟩ := hb
      obtain ⟨bx, b1, b2, _⟩ := magicBox_is hh hp l2
      obtain ⟨m, m1, m2, m3⟩ := opCall_pair hh hp List.prod b2 hb1
      obtain ⟨mt, rfl⟩ := m3 (Or.inr hb2)
      obtain ⟨f, f1, f2⟩ := reduceAll_number hh hp hw m2
      obtain ⟨q, q1, q2, _⟩ := squeeze_number hh f2
      obtain ⟨s', s1, s2⟩ := addNumber hh hs q2
      simp only [b1, m1, f1, q1, s1]
      refine ⟨l', _, rfl, l2, Or.inr ⟨s', rfl, ?_⟩⟩
      simpa only [List.sum_cons, List.sum_nil, add_zero, cvTotal, hcv, boxTotal, List.prod_cons, List.prod_nil,
        mul_one] using s2

/-- The loop over the stochastic tensors. -/
theorem parentLoop_any [CommRing α] [Autograd α] {hook : UnwrapHook α} (hh : PlainHook hook)
    {pool : List (Plate α)} (hp : PoolOK pool) (hw : Weights pool) {c : STen α} {parents : List (Sampled α)}
    {ests : List (Est α)} (h : List.Forall₂ (Contributes hook pool c) parents ests) :
    ∀ {l s : Operand α} {ns : List String} {lv : (String → Nat) → α} {sv : α}, OpIs pool l ns lv → OpNumber s sv →
    ∃ l' s', parentLoop hook c parents (l, s) = .ok (l', s') ∧
      OpIs pool l' (ns ++ ests.flatMap Est.names) (fun ι => lv ι + (ests.map (fun e => e.lp ι)).sum) ∧
      OpNumber s' (sv + cvTotal pool ests ns lv) := by
  induction h with
  | nil =>
    intro l s ns lv sv hl hs
    exact ⟨l, s, rfl, by simpa using hl, by simpa [cvTotal] using hs⟩
  | @cons p e ps es he _ ih =>
    intro l s ns lv sv hl hs
    rcases he with ⟨h1, h2, h3, h4⟩ | ⟨rc, np, a, b, h1, h2, h3, h4, h5, h6⟩
    · obtain ⟨l', s', r1, r2, r3⟩ := ih hl hs
      have hz : (fun ι => lv ι + e.lp ι) = lv := by funext ι; rw [h3 ι, add_zero]
      refine ⟨l', s', by rw [parentLoop, h1]; exact r1, ?_, ?_⟩
      · refine ⟨r2.scalar, r2.closed, ?_, ?_⟩
        · intro p hm; rw [r2.names p hm, List.flatMap_cons, h2, List.nil_append]
        · intro ι; rw [r2.val ι, List.map_cons, List.sum_cons, h3 ι, zero_add]
      · simpa only [cvTotal, h4, h2, List.append_nil, zero_add, hz] using r3
    obtain ⟨l1, s1, q1, q2, q3⟩ := addEstimate_any hh hp hw h5 h6 hl hs
    obtain ⟨l', s', r1, r2, r3⟩ := ih q2 q3
    refine ⟨l', s', ?_, ?_, ?_⟩
    · rw [parentLoop, h4]
      simp only [Bool.false_eq_true, if_false, h1, h2, h3, q1]
      exact r1
    · refine ⟨r2.scalar, r2.closed, ?_, ?_⟩
      · intro p hm; rw [r2.names p hm, List.flatMap_cons, List.append_assoc]
      · intro ι; rw [r2.val ι, List.map_cons, List.sum_cons, add_assoc]
    · simpa only [cvTotal, add_zero, add_assoc] using r3

/-- The surrogate loss of one cost. -/
theorem surrogateCost_any [CommRing α] [Autograd α] {hook : UnwrapHook α} (hh : PlainHook hook)
    {pool : List (Plate α)} (hp : PoolOK pool) (hw : Weights pool) {c : STen α} (hc : CostOK pool c)
    {parents : List (Sampled α)} {ests : List (Est α)}
    (h : List.Forall₂ (Contributes hook pool c) parents ests) :
    ∃ r, surrogateCost hook c parents = .ok (.st r false) ∧ IsNumber r (costTotal pool c ests) := by
  obtain ⟨l, s, h1, h2, h3⟩ := parentLoop_any hh hp hw h (opIs_zero pool) (s := .torch (.scalar 0)) (Or.inl rfl)
  obtain ⟨b, b1, b2, _⟩ := magicBox_is hh hp h2
  obtain ⟨m, m1, m2, m3⟩ := opCall_pair hh hp List.prod b2 (opIs_cost hp hc)
  obtain ⟨mt, rfl⟩ := m3 (Or.inr ⟨c, false, rfl⟩)
  obtain ⟨f, f1, f2⟩ := reduceAll_number hh hp hw m2
  obtain ⟨r, r1, r2⟩ := addNumber hh h3 f2
  refine ⟨r, ?_, ?_⟩
  · rw [surrogateCost, h1]
    simp only [b1, m1, f1]
    rw [r1]
  · simpa only [costTotal, boxTotal, zero_add, List.nil_append, List.prod_cons, List.prod_nil, mul_one] using r2

omit [ValEq α] in
theorem cvTotal_none [CommRing α] [Autograd α] (pool : List (Plate α)) {ests : List (Est α)}
    (h : ∀ e ∈ ests, e.cv = none) : ∀ ns l, cvTotal pool ests ns l = 0 := by
  induction ests with
  | nil => intro ns l; rfl
  | cons e es ih =>
    intro ns l
    rw [cvTotal, h e (by simp)]
    simp only [zero_add]
    exact ih (fun e he => h e (List.mem_cons_of_mem _ he)) _ _

/-! ### All costs -/

/-- The sizes of a list of storch tensors without plates. -/
def maxDims (l : List (STen α)) : Nat := (l.map (fun r => r.ten.ndim)).foldr max 0

omit [ValEq α] in
theorem IsNumber.dims {r : STen α} {v : α} (h : IsNumber r v) :
    r.eventDims = r.ten.ndim ∧ r.ten.shape = List.replicate r.ten.ndim 1 ∧
      r.ten.get (List.replicate r.ten.ndim 0) = v := by
  obtain ⟨h1, h2, k, h3, h4⟩ := h
  have hk : r.ten.ndim = k := by rw [Ten.ndim, h3, List.length_replicate]
  exact ⟨by rw [STen.eventDims, event_noPlates h1 h2, Ten.ndim], by rw [hk, h3], by rw [hk, h4]⟩

theorem collect_numbers {l : List (STen α)} (h : ∀ r ∈ l, ∃ v, IsNumber r v) :
    ∀ (c : Coll α) (m : Nat), c.plates = [] → ∃ c', collectList (l.map (fun r => .st r false)) c m =
      (c', max m (maxDims l)) ∧ c'.plates = [] ∧ (c.parents ≠ [] ∨ l ≠ [] → c'.parents ≠ []) := by
  induction l with
  | nil => intro c m hc; exact ⟨c, by simp [collectList, maxDims], hc, by rintro (h | h); exacts [h, absurd rfl h]⟩
  | cons r l ih =>
    intro c m hc
    obtain ⟨v, hv⟩ := h r (by simp)
    rw [List.map_cons, collectList]
    simp only [Val.collect, hv.dims.1]
    obtain ⟨c', q1, q2, q3⟩ := ih (fun x hx => h x (List.mem_cons_of_mem _ hx))
      ⟨c.parents ++ [r], addPlates c.plates r.plates⟩ (max m r.ten.ndim) (by rw [hv.2.1, hc]; rfl)
    refine ⟨c', ?_, q2, fun _ => q3 (Or.inl (by simp))⟩
    rw [q1]
    simp [maxDims, max_assoc]

/-- The unwrapped number: padded on the right with dimensions of size one. -/
def padNumber (E : Nat) (r : STen α) : Ten α :=
  if r.ten.ndim < E then r.ten.noneRight (E - r.ten.ndim) else r.ten

omit [ValEq α] in
theorem padNumber_spec {E : Nat} {r : STen α} {v : α} (h : IsNumber r v) (hE : r.ten.ndim ≤ E) :
    (padNumber E r).shape = List.replicate E 1 ∧ (padNumber E r).get (List.replicate E 0) = v := by
  obtain ⟨_, h2, h3⟩ := h.dims
  rw [padNumber]
  split
  · refine ⟨?_, ?_⟩
    · rw [Ten.noneRight, h2, List.replicate_append_replicate]
      simp
      omega
    · simp only [Ten.noneRight, List.take_replicate, min_eq_left hE]
      exact h3
  · have : E = r.ten.ndim := by omega
    rw [this]
    exact ⟨h2, h3⟩

theorem unwrap_numbers {hook : UnwrapHook α} {E : Nat} {l : List (STen α)} (h : ∀ r ∈ l, ∃ v, IsNumber r v) :
    unwrapList hook {} [] E (l.map (fun r => .st r false)) = .ok (l.map (fun r => .torch (padNumber E r))) := by
  induction l with
  | nil => rfl
  | cons r l ih =>
    obtain ⟨v, hv⟩ := h r (by simp)
    rw [List.map_cons, unwrapList, Val.unwrap, ih (fun x hx => h x (List.mem_cons_of_mem _ hx))]
    simp [unwrapSt, hookLoop, alignTen, swapLoop, unsqLoop, hv.dims.1, padNumber]

/-- A call with numbers in one list. -/
theorem handleDet_numbers {hook : UnwrapHook α} (fn : Fn α) (ls : List (STen α)) (hne : ls ≠ [])
    (hl : ∀ r ∈ ls, ∃ v, IsNumber r v) {t : Ten α}
    (hf : fn ⟨[.lst (ls.map (fun r => .torch (padNumber (maxDims ls) r)))], []⟩ = .ok (.torch t)) :
    asSt (handleDet hook false false {} fn ⟨[.lst (ls.map (fun r => .st r false))], []⟩) = .ok ⟨t, [], 0⟩ := by
  obtain ⟨c, c1, c2, c3⟩ := collect_numbers hl ⟨[], []⟩ 0 rfl
  rw [Nat.zero_max] at c1
  have hca : collectArgs ⟨[.lst (ls.map (fun r => .st r false))], []⟩ = (c, maxDims ls) := by
    simp [collectArgs, collectList, Val.collect, c1]
  have hne' := c3 (Or.inr hne)
  rw [handleDet, prepareArgs]
  simp only [hca, c2, filterPlates, List.filter_nil, applyDim, applyDims, List.map_nil, unwrapList, Val.unwrap,
    unwrap_numbers hl]
  simp [hne', hf, Val.wrapOut, STen.mk', STen.checkPlates, asSt]

theorem surrogateCosts_any [CommRing α] [Autograd α] {hook : UnwrapHook α} (hh : PlainHook hook)
    {pool : List (Plate α)} (hp : PoolOK pool) (hw : Weights pool)
    {costs : List (STen α × List (Sampled α))} {es : List (STen α × List (Est α))}
    (h : List.Forall₂ (CostContributes hook pool) costs es) :
    ∃ ls : List (STen α), surrogateCosts hook costs = .ok (ls.map (fun r => .st r false)) ∧
      List.Forall₂ (fun r (e : STen α × List (Est α)) => IsNumber r (costTotal pool e.1 e.2)) ls es := by
  induction h with
  | nil => exact ⟨[], rfl, .nil⟩
  | @cons c e cs es he _ ih =>
    obtain ⟨c, ps⟩ := c
    obtain ⟨c', es'⟩ := e
    obtain ⟨h1, h2, h3⟩ := he
    simp only at h1 h2 h3
    subst h1
    obtain ⟨r, r1, r2⟩ := surrogateCost_any hh hp hw h2 h3
    obtain ⟨ls, l1, l2⟩ := ih
    refine ⟨r :: ls, ?_, .cons r2 l2⟩
    rw [surrogateCosts]
    simp only [r1, l1, List.map_cons]

theorem allIdx_ones (k : Nat) : allIdx (List.replicate k 1) = [List.replicate k 0] := by
  induction k with
  | zero => rfl
  | succ k ih => simp [List.replicate_succ, allIdx, ih]

omit [ValEq α] in
theorem le_maxDims {l : List (STen α)} {r : STen α} (h : r ∈ l) : r.ten.ndim ≤ maxDims l := by
  induction l with
  | nil => cases h
  | cons x l ih =>
    simp only [maxDims, List.map_cons, List.foldr_cons]
    rcases List.mem_cons.1 h with rfl | h
    · exact le_max_left _ _
    · exact (ih h).trans (le_max_right _ _)

/-- `surrogate_loss` once the single costs are computed. -/
theorem surrogateLoss_numbers [CommRing α] [Autograd α] {hook : UnwrapHook α} (hh : PlainHook hook)
    {pool : List (Plate α)} {costs : List (STen α × List (Sampled α))} {es : List (STen α × List (Est α))} (hne : costs ≠ [])
    (hlen : costs.length = es.length) {ls : List (STen α)} (l1 : surrogateCosts hook costs = .ok (ls.map (fun r => .st r false)))
    (l2 : List.Forall₂ (fun r (e : STen α × List (Est α)) => IsNumber r (costTotal pool e.1 e.2)) ls es) :
    ∃ r, surrogateLoss hook costs = .ok r ∧ r.plates = [] ∧ r.ten.shape = [] ∧ r.ten.get [] = lossTotal pool es := by
  have hall : ∀ r ∈ ls, ∃ v, IsNumber r v := by
    intro r hr
    obtain ⟨e, _, he⟩ := forall₂_mem_left l2 hr
    exact ⟨_, he⟩
  have hval : ls.map (fun r => (padNumber (maxDims ls) r).get (List.replicate (maxDims ls) 0)) =
      es.map (fun x => costTotal pool x.1 x.2) := by
    have hE : ∀ r ∈ ls, r.ten.ndim ≤ maxDims ls := fun r hr => le_maxDims hr
    generalize maxDims ls = E at hE
    clear l1 hall hlen
    induction l2 with
    | nil => rfl
    | cons he _ ih =>
      rw [List.map_cons, List.map_cons, ih (fun r hr => hE r (List.mem_cons_of_mem _ hr)),
        (padNumber_spec he (hE _ (by simp))).2]
  have hlen' : ls ≠ [] := by
    intro e
    subst e
    cases l2
    exact hne (List.length_eq_zero_iff.1 hlen)
  have hshape : ∀ r ∈ ls, (padNumber (maxDims ls) r).shape = List.replicate (maxDims ls) 1 := by
    intro r hr
    obtain ⟨v, hv⟩ := hall r hr
    exact (padNumber_spec hv (le_maxDims hr)).1
  obtain ⟨c, cs, rfl⟩ := List.exists_cons_of_ne_nil hne
  obtain ⟨r, rs, hrs⟩ := List.exists_cons_of_ne_nil hlen'
  set E := maxDims ls with hEdef
  have hmap : (ls.map (fun r => Val.torch (padNumber E r))).mapM Val.asTorch = some (ls.map (padNumber E)) := by
    have := mapM_torch (ls.map (padNumber E))
    rwa [List.map_map] at this
  have hsh : (rs.map (padNumber E)).all (fun u => u.shape == (padNumber E r).shape) = true := by
    rw [List.all_eq_true]
    intro u hu
    obtain ⟨x, hx, rfl⟩ := List.mem_map.1 hu
    rw [hshape x (by rw [hrs]; exact List.mem_cons_of_mem _ hx), hshape r (by rw [hrs]; simp)]
    simp
  have hstack := handleDet_numbers (hook := hook) stackFn ls hlen' hall
    (t := ⟨ls.length :: List.replicate E 1, fun idx =>
      match idx with
      | i :: idx' => ((padNumber E r :: rs.map (padNumber E)).getD i (padNumber E r)).get idx'
      | [] => (padNumber E r).get []⟩) (by
    rw [stackFn]
    simp only [← hEdef, hmap]
    have hr := hshape r (by rw [hrs]; simp)
    rw [hr] at hsh
    clear_value E
    subst hrs
    simp only [List.map_cons, hr, hsh, if_true, List.length_cons, List.length_map]
    rfl)
  have hsum := handleDet_single hh (t := (⟨⟨ls.length :: List.replicate E 1, fun idx =>
      match idx with
      | i :: idx' => ((padNumber E r :: rs.map (padNumber E)).getD i (padNumber E r)).get idx'
      | [] => (padNumber E r).get []⟩, [], 0⟩ : STen α)) ⟨⟨List.nodup_nil, by simp,
        by simp [STen.multiDimPlates, STen.eventShape], by simp [STen.multiDimPlates]⟩, by simp⟩
    false true [] [] [] (fun _ _ => rfl) (fun _ _ _ => rfl) sumAllFn _ rfl
  refine ⟨⟨.scalar ((es.map (fun x => costTotal pool x.1 x.2)).sum), [], 0⟩, ?_, rfl, rfl, rfl⟩
  rw [surrogateLoss]
  simp only [l1]
  have : (List.map (fun r => Operand.st r false) ls).map Operand.val = ls.map (fun r => Val.st r false) := by
    rw [List.map_map]; rfl
  rw [this, hstack]
  simp only
  rw [hsum]
  simp only [List.filter_nil, Val.wrapOut, Bool.false_eq_true, if_false, STen.mk', STen.checkPlates, asSt]
  congr 4
  rw [← hval]
  have h1 : ∀ d, (allIdx (d :: List.replicate E 1)) = (List.range d).map (fun i => i :: List.replicate E 0) := by
    intro d; simp [allIdx, allIdx_ones, List.map_eq_flatMap]
  rw [h1, List.map_map]
  apply List.ext_getElem
  · simp
  · intro i h1 h2
    have h4 : (padNumber E r :: rs.map (padNumber E)) = ls.map (padNumber E) := by rw [hrs]; rfl
    have h3 : i < (ls.map (padNumber E)).length := by simpa using h1
    simp only [List.getElem_map, List.getElem_range, Function.comp]
    rw [h4, List.getD_eq_getElem?_getD, List.getElem?_eq_getElem h3]
    simp only [Option.getD_some, List.getElem_map]

/-- `surrogate_loss` computes the total of all costs, also with storch weights. -/
theorem surrogateLoss_any [CommRing α] [Autograd α] {hook : UnwrapHook α} (hh : PlainHook hook)
    {pool : List (Plate α)} (hp : PoolOK pool) (hw : Weights pool)
    {costs : List (STen α × List (Sampled α))} {es : List (STen α × List (Est α))} (hne : costs ≠ [])
    (h : List.Forall₂ (CostContributes hook pool) costs es) :
    ∃ r, surrogateLoss hook costs = .ok r ∧ r.plates = [] ∧ r.ten.shape = [] ∧ r.ten.get [] = lossTotal pool es := by
  obtain ⟨ls, l1, l2⟩ := surrogateCosts_any hh hp hw h
  exact surrogateLoss_numbers hh hne h.length_eq l1 l2

end Storch
