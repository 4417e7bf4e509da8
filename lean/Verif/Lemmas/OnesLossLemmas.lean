import Verif.Lemmas.OnesLemmas
import Verif.Lemmas.WeightedLemmas

/-! The surrogate loss with control variates that have one number per sample in an event shape of ones, as with rebar. -/

namespace Storch
variable {α : Type _} [ValEq α]

/-- As `Contributes`, with control variates in an event shape of ones. -/
def ContributesOnes [CommRing α] [Autograd α] (hook : UnwrapHook α) (pool : List (Plate α)) (c : STen α)
    (p : Sampled α) (e : Est α) : Prop :=
  (p.pathwise = true ∧ e.names = [] ∧ (∀ ι, e.lp ι = 0) ∧ e.cv = none) ∨
  ∃ rc np a b, reducedCost hook c p.tensor = .ok rc ∧ newParent p.tensor rc = .ok np ∧
    p.estimator np rc = .ok (a, b) ∧ p.pathwise = false ∧
    (match a with
      | none => e.names = [] ∧ ∀ ι, e.lp ι = 0
      | some g => OpIs pool g e.names e.lp) ∧
    (match b, e.cv with
      | none, none => True
      | some o, some (ns, v) => (∃ k, OnesIs pool o k ns v) ∧ ∃ t s, o = .st t s
      | _, _ => False)

theorem Contributes.ones [CommRing α] [Autograd α] {hook : UnwrapHook α} {pool : List (Plate α)} {c : STen α}
    {p : Sampled α} {e : Est α} (h : Contributes hook pool c p e) : ContributesOnes hook pool c p e := by
  rcases h with h | ⟨rc, np, a, b, h1, h2, h3, h4, h5, h6⟩
  · exact Or.inl h
  · refine Or.inr ⟨rc, np, a, b, h1, h2, h3, h4, h5, ?_⟩
    cases b with
    | none =>
      cases hcv : e.cv with
      | none => trivial
      | some x => rw [hcv] at h6; exact h6.elim
    | some o =>
      cases hcv : e.cv with
      | none => rw [hcv] at h6; exact h6.elim
      | some x =>
        rw [hcv] at h6
        exact ⟨⟨0, ones_of_opIs h6.1⟩, h6.2⟩

/-- Reducing all plates leaves a number. -/
theorem reduceAll_ones [CommRing α] {hook : UnwrapHook α} (hh : PlainHook hook)
    {pool : List (Plate α)} (hp : PoolOK pool) (hw : Weights pool) {t : STen α} {s : Bool} {d : Nat}
    {ns : List String} {v : (String → Nat) → α} (h : OnesIs pool (.st t s) d ns v) :
    ∃ r, reduceAllPlates hook (.st t s) = .ok r ∧
      IsNumber r (weightedTotal id (named pool ns) v (fun _ => 0)) := by
  obtain ⟨o1, o2, o3⟩ := h.ones
  have hd : t.eventDims = d := h.ev
  have hes : t.eventShape = List.replicate d 1 := by rw [o2, hd]
  have hr : Reduceable t := ⟨⟨o1, fun p hp' => hp.plain p (o3 p hp')⟩,
    fun p hp' => hw p (o3 p hp'), h.closed, hp.acyclic.mono o3⟩
  obtain ⟨f, k, f1, f2, f3, _, f5⟩ := C12_weighted_sum_partial hh id hr s (fun _ => 0)
  have f6 := f5 (List.replicate d 0) (by rw [hes]; exact inB_ones d)
  rw [List.replicate_append_replicate] at f6
  rw [hes, List.replicate_append_replicate] at f3
  have hfw : f.WF := by
    obtain ⟨l, r', _, _, q1, q2, _⟩ := reducePlates_spec hh id hr.proper
      (Or.inl ⟨rfl, rfl⟩) hr.proper.wf.names hr.weights hr.par hr.allOrNone hr.acyclic s
    rw [f1] at q1
    cases q1
    exact q2.wf
  have hperm : (named pool ns).Perm t.plates := by
    apply perm_of_pool hp.names (hp.names.sublist (List.filter_sublist.map _)) o1.names
    intro p
    simp only [List.mem_filter, decide_eq_true_eq]
    constructor
    · rintro ⟨h1, h2⟩; exact (h.names p h1).2 h2
    · intro hm; exact ⟨o3 p hm, (h.names p (o3 p hm)).1 hm⟩
  refine ⟨f, by rw [reduceAllPlates, f1], hfw, f2, d + k, f3, ?_⟩
  rw [f6, weightedTotal_perm id hperm o1.names]
  congr 1
  funext ι
  rw [← h.val ι, Operand.one, STen.sample, hd, hes, bidx_ones _ _ (by simp)]

/-- The part of the loop body after the estimator. -/
theorem addEstimate_ones [CommRing α] [Autograd α] {hook : UnwrapHook α} (hh : PlainHook hook)
    {pool : List (Plate α)} (hp : PoolOK pool) (hw : Weights pool) {a b : Option (Operand α)} {e : Est α}
    (ha : match a with
      | none => e.names = [] ∧ ∀ ι, e.lp ι = 0
      | some g => OpIs pool g e.names e.lp)
    (hb : match b, e.cv with
      | none, none => True
      | some o, some (ns, v) => (∃ k, OnesIs pool o k ns v) ∧ ∃ t s, o = .st t s
      | _, _ => False)
    {l s : Operand α} {ns : List String} {lv : (String → Nat) → α} {sv : α} (hl : OpIs pool l ns lv)
    (hs : OpNumber s sv) :
    ∃ l' s', addEstimate hook (a, b) (l, s) = .ok (l', s') ∧
      OpIs pool l' (ns ++ e.names) (fun ι => lv ι + e.lp ι) ∧
      OpNumber s' (sv + cvTotal pool [e] ns lv) := by
  obtain ⟨l', l1, l2⟩ := gradient_spec hh hp ha hl
  rw [addEstimate_eq, l1]
  simp only
  cases b with
  | none =>
    cases hcv : e.cv with
    | some x => rw [hcv] at hb; exact hb.elim
    | none =>
      refine ⟨l', s, rfl, l2, ?_⟩
      simpa [cvTotal, hcv] using hs
  | some o =>
    cases hcv : e.cv with
    | none => rw [hcv] at hb; exact hb.elim
    | some x =>
      obtain ⟨ns', v⟩ := x
      rw [hcv] at hb
      obtain ⟨⟨k, hb1⟩, hb2⟩ := hb
      obtain ⟨bx, b1, b2, _⟩ := magicBox_is hh hp l2
      obtain ⟨mt, m1, m2⟩ := ones_pair hh hp List.prod (ones_of_opIs b2) hb1 (Or.inr hb2)
      obtain ⟨f, f1, f2⟩ := reduceAll_ones hh hp hw m2
      obtain ⟨q, q1, q2, _⟩ := squeeze_number hh f2
      obtain ⟨s', s1, s2⟩ := addNumber hh hs q2
      simp only [b1, m1, f1, q1, s1]
      refine ⟨l', _, rfl, l2, Or.inr ⟨s', rfl, ?_⟩⟩
      simpa only [List.sum_cons, List.sum_nil, add_zero, cvTotal, hcv, boxTotal, List.prod_cons, List.prod_nil,
        mul_one] using s2

/-- The loop over the stochastic tensors. -/
theorem parentLoop_ones [CommRing α] [Autograd α] {hook : UnwrapHook α} (hh : PlainHook hook)
    {pool : List (Plate α)} (hp : PoolOK pool) (hw : Weights pool) {c : STen α} {parents : List (Sampled α)}
    {ests : List (Est α)} (h : List.Forall₂ (ContributesOnes hook pool c) parents ests) :
    ∀ {l s : Operand α} {ns : List String} {lv : (String → Nat) → α} {sv : α}, OpIs pool l ns lv → OpNumber s sv →
    ∃ l' s', parentLoop hook c parents (l, s) = .ok (l', s') ∧
      OpIs pool l' (ns ++ ests.flatMap Est.names) (fun ι => lv ι + (ests.map (fun e => e.lp ι)).sum) ∧
      OpNumber s' (sv + cvTotal pool ests ns lv) := by
  induction h with
  | nil =>
    intro l s ns lv sv hl hs
    exact ⟨l, s, rfl, by simpa using hl, by simpa [cvTotal] using hs⟩
  | @cons p e ps es he _ ih =>
    intro l s ns lv sv hl hs
    rcases he with ⟨h1, h2, h3, h4⟩ | ⟨rc, np, a, b, h1, h2, h3, h4, h5, h6⟩
    · obtain ⟨l', s', r1, r2, r3⟩ := ih hl hs
      have hz : (fun ι => lv ι + e.lp ι) = lv := by funext ι; rw [h3 ι, add_zero]
      refine ⟨l', s', by rw [parentLoop, h1]; exact r1, ?_, ?_⟩
      · refine ⟨r2.scalar, r2.closed, ?_, ?_⟩
        · intro p hm; rw [r2.names p hm, List.flatMap_cons, h2, List.nil_append]
        · intro ι; rw [r2.val ι, List.map_cons, List.sum_cons, h3 ι, zero_add]
      · simpa only [cvTotal, h4, h2, List.append_nil, zero_add, hz] using r3
    obtain ⟨l1, s1, q1, q2, q3⟩ := addEstimate_ones hh hp hw h5 h6 hl hs
    obtain ⟨l', s', r1, r2, r3⟩ := ih q2 q3
    refine ⟨l', s', ?_, ?_, ?_⟩
    · rw [parentLoop, h4]
      simp only [Bool.false_eq_true, if_false, h1, h2, h3, q1]
      exact r1
    · refine ⟨r2.scalar, r2.closed, ?_, ?_⟩
      · intro p hm; rw [r2.names p hm, List.flatMap_cons, List.append_assoc]
      · intro ι; rw [r2.val ι, List.map_cons, List.sum_cons, add_assoc]
    · simpa only [cvTotal, add_zero, add_assoc] using r3

/-- The surrogate loss of one cost. -/
theorem surrogateCost_ones [CommRing α] [Autograd α] {hook : UnwrapHook α} (hh : PlainHook hook)
    {pool : List (Plate α)} (hp : PoolOK pool) (hw : Weights pool) {c : STen α} (hc : CostOK pool c)
    {parents : List (Sampled α)} {ests : List (Est α)}
    (h : List.Forall₂ (ContributesOnes hook pool c) parents ests) :
    ∃ r, surrogateCost hook c parents = .ok (.st r false) ∧ IsNumber r (costTotal pool c ests) := by
  obtain ⟨l, s, h1, h2, h3⟩ := parentLoop_ones hh hp hw h (opIs_zero pool) (s := .torch (.scalar 0)) (Or.inl rfl)
  obtain ⟨b, b1, b2, _⟩ := magicBox_is hh hp h2
  obtain ⟨m, m1, m2, m3⟩ := opCall_pair hh hp List.prod b2 (opIs_cost hp hc)
  obtain ⟨mt, rfl⟩ := m3 (Or.inr ⟨c, false, rfl⟩)
  obtain ⟨f, f1, f2⟩ := reduceAll_number hh hp hw m2
  obtain ⟨r, r1, r2⟩ := addNumber hh h3 f2
  refine ⟨r, ?_, ?_⟩
  · rw [surrogateCost, h1]
    simp only [b1, m1, f1]
    rw [r1]
  · simpa only [costTotal, boxTotal, zero_add, List.nil_append, List.prod_cons, List.prod_nil, mul_one] using r2

/-- A cost with the stochastic tensors above it, and what their estimators contribute. -/
def CostContributesOnes [CommRing α] [Autograd α] (hook : UnwrapHook α) (pool : List (Plate α))
    (c : STen α × List (Sampled α)) (e : STen α × List (Est α)) : Prop :=
  c.1 = e.1 ∧ CostOK pool c.1 ∧ List.Forall₂ (ContributesOnes hook pool c.1) c.2 e.2

theorem surrogateCosts_ones [CommRing α] [Autograd α] {hook : UnwrapHook α} (hh : PlainHook hook)
    {pool : List (Plate α)} (hp : PoolOK pool) (hw : Weights pool)
    {costs : List (STen α × List (Sampled α))} {es : List (STen α × List (Est α))}
    (h : List.Forall₂ (CostContributesOnes hook pool) costs es) :
    ∃ ls : List (STen α), surrogateCosts hook costs = .ok (ls.map (fun r => .st r false)) ∧
      List.Forall₂ (fun r (e : STen α × List (Est α)) => IsNumber r (costTotal pool e.1 e.2)) ls es := by
  induction h with
  | nil => exact ⟨[], rfl, .nil⟩
  | @cons c e cs es he _ ih =>
    obtain ⟨c, ps⟩ := c
    obtain ⟨c', es'⟩ := e
    obtain ⟨h1, h2, h3⟩ := he
    simp only at h1 h2 h3
    subst h1
    obtain ⟨r, r1, r2⟩ := surrogateCost_ones hh hp hw h2 h3
    obtain ⟨ls, l1, l2⟩ := ih
    refine ⟨r :: ls, ?_, .cons r2 l2⟩
    rw [surrogateCosts]
    simp only [r1, l1, List.map_cons]

/-- `surrogate_loss` computes the total of all costs. -/
theorem surrogateLoss_ones [CommRing α] [Autograd α] {hook : UnwrapHook α} (hh : PlainHook hook)
    {pool : List (Plate α)} (hp : PoolOK pool) (hw : Weights pool)
    {costs : List (STen α × List (Sampled α))} {es : List (STen α × List (Est α))} (hne : costs ≠ [])
    (h : List.Forall₂ (CostContributesOnes hook pool) costs es) :
    ∃ r, surrogateLoss hook costs = .ok r ∧ r.plates = [] ∧ r.ten.shape = [] ∧ r.ten.get [] = lossTotal pool es := by
  obtain ⟨ls, l1, l2⟩ := surrogateCosts_ones hh hp hw h
  exact surrogateLoss_numbers hh hne h.length_eq l1 l2

end Storch
