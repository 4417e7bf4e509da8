import Verif.Lemmas.RebarContribLemmas
import Verif.Lemmas.ArmRun
import Verif.Model.Dual

/-!
# C43: RELAX and REBAR, and C33 for ARM and RELAX
-/

namespace Storch

/-! ### The samples and weights with rebar -/

section
variable {α : Type _}

/-- C43, weights: for every number of samples and every distribution, a successful call of `sample` with rebar gives a
plate of `3 * n` samples whose weights are `1/n` on the first `n`, zero on the rest, and sum to one. -/
theorem C43_weights [Field α] [LinearOrder α] [IsStrictOrderedRing α] [ValEq α] (name : String) (n : Nat)
    (ctx : List (Plate α)) (params : List (Operand α)) (disc cond : Ten α → Ten α)
    (hd : ∀ t, (disc t).shape = t.shape) (relaxed : Nat → Ten α)
    (hr : (relaxed n).shape.head? = some n) {s : STen α} {p : Plate α}
    (h : relaxSample (fun k => 1 / (k : α)) name n ctx params true disc cond relaxed = .ok (s, p)) :
    1 ≤ n ∧ p.name = name ∧ p.n = 3 * n ∧ p ∈ s.plates ∧ (∀ ι, ι p.name < n → p.weightAt id ι = 1 / (n : α)) ∧
      (∀ ι, n ≤ ι p.name → p.weightAt id ι = 0) ∧
      ∀ ι, ∑ k ∈ Finset.range p.n, p.weightAt id (Function.update ι p.name k) = 1 := by
  have hh : (disc (relaxed n)).shape.headD 0 = n := by
    rw [hd]
    cases hs : (relaxed n).shape with
    | nil => rw [hs] at hr; cases hr
    | cons a l => rw [hs] at hr; simpa using hr
  rw [relaxSample] at h
  split at h
  · cases h
  · rename_i s' p' hm
    have hp' : p'.n = n + n + n ∧ p'.name = name := by
      rw [monteCarlo] at hm
      simp only [relaxTensor, if_true, cat3] at hm
      rw [hh] at hm
      split at hm
      · cases hm
      · split at hm
        · cases hm
        · split at hm
          · cases hm
          · simp only [Except.ok.injEq, Prod.mk.injEq] at hm
            rw [← hm.2]
            exact ⟨rfl, rfl⟩
    have h3 : p'.n / 3 = n := by omega
    rw [relaxWeights, if_pos rfl, h3] at h
    by_cases hn : n = 0
    · rw [if_pos hn] at h; cases h
    · rw [if_neg hn] at h
      simp only [Except.ok.injEq, Prod.mk.injEq] at h
      obtain ⟨rfl, rfl⟩ := h
      have hwt : ∀ ι, (Plate.mk p'.name p'.n (Weight.torch (α := α) ⟨[p'.n], fun idx =>
          if idx.headD 0 < n then 1 / (n : α) else 0⟩) p'.kind p'.parents).weightAt id ι =
            if ι p'.name < n then 1 / (n : α) else 0 := fun ι => rfl
      have hn0 : (n : α) ≠ 0 := by exact_mod_cast hn
      refine ⟨Nat.one_le_iff_ne_zero.2 hn, hp'.2, ?_, List.mem_cons_self .., ?_, ?_, ?_⟩
      · show p'.n = _
        rw [hp'.1]; omega
      · intro ι hι
        rw [hwt, if_pos (by simpa [Plate.name] using hι)]
      · intro ι hι
        rw [hwt, if_neg (by simpa [Plate.name] using hι)]
      · intro ι
        simp only [hwt]
        show ∑ k ∈ Finset.range p'.n, (if Function.update ι p'.name k p'.name < n then 1 / (n : α) else 0) = 1
        rw [hp'.1, Nat.add_assoc]
        simp only [Function.update_self]
        rw [Finset.sum_range_add, Finset.sum_eq_zero (s := Finset.range (n + n))
          (f := fun x => if n + x < n then _ else _) (fun x _ => if_neg (by omega)), add_zero, Finset.sum_congr rfl
          (fun x hx => if_pos (Finset.mem_range.1 hx)), Finset.sum_const, Finset.card_range, nsmul_eq_mul]
        field_simp

/-- C43, samples: with rebar the first `n` rows are the hard samples, the next `n` the relaxed samples they come from,
and the last `n` the conditional samples of those hard samples. -/
theorem C43_rows (disc cond : Ten α → Ten α) (hd : ∀ t, (disc t).shape = t.shape) (z : Ten α) {n : Nat} {es : List Nat}
    (hz : z.shape = n :: es) :
    (relaxTensor true disc cond z).shape = 3 * n :: es ∧ ∀ k e, k < n →
      (relaxTensor true disc cond z).get (k :: e) = (disc z).get (k :: e) ∧
      (relaxTensor true disc cond z).get ((k + n) :: e) = z.get (k :: e) ∧
      (relaxTensor true disc cond z).get ((k + 2 * n) :: e) = (cond (disc z)).get (k :: e) := by
  have hs : (disc z).shape = n :: es := by rw [hd, hz]
  refine ⟨?_, ?_⟩
  · simp only [relaxTensor, if_true, cat3, hs, List.headD_cons, List.tail_cons]
    rw [show n + n + n = 3 * n by omega]
  · intro k e hk
    simp only [relaxTensor, if_true, cat3, hs]
    refine ⟨if_pos hk, (if_neg (show ¬ k + n < n by omega)).trans ((if_pos (show k + n < n + n by omega)).trans ?_),
      (if_neg (show ¬ k + 2 * n < n by omega)).trans ((if_neg (show ¬ k + 2 * n < n + n by omega)).trans ?_)⟩
    · show z.get ((k + n - n) :: e) = _
      rw [Nat.add_sub_cancel]
    · show (cond (disc z)).get ((k + 2 * n - (n + n)) :: e) = _
      rw [show k + 2 * n - (n + n) = k by omega]

end

/-! ### The control variate -/

section
variable {E : Type _} {θ₀ : E}

theorem relaxCv_apply (eta lp z zt : AD E θ₀) (θ : E) : relaxCv eta lp z zt θ =
    eta θ * z θ - eta θ₀ * z θ₀ - eta θ * zt θ + (2 - boxElt lp θ) * (eta θ₀ * zt θ₀) := rfl

theorem relaxCv_val (eta lp z zt : AD E θ₀) : relaxCv eta lp z zt θ₀ = 0 := by
  rw [relaxCv_apply, boxElt_val]; ring

end

section
variable {E : Type _} [NormedAddCommGroup E] [NormedSpace ℝ E] {θ₀ : E}

/-- The derivative of the control variate: of the control network at the relaxed sample, minus that at the conditional
sample, minus the score times the control network at the conditional sample. -/
noncomputable def relaxGrad (eta lp z zt : AD E θ₀) : E →L[ℝ] ℝ :=
  fderiv ℝ (fun θ => eta θ * z θ) θ₀ - fderiv ℝ (fun θ => eta θ * zt θ) θ₀ - (eta θ₀ * zt θ₀) • fderiv ℝ (fun θ => lp θ) θ₀

theorem relaxCv_deriv {eta lp z zt : AD E θ₀} (he : DifferentiableAt ℝ (fun θ => eta θ) θ₀)
    (hl : DifferentiableAt ℝ (fun θ => lp θ) θ₀) (hz : DifferentiableAt ℝ (fun θ => z θ) θ₀)
    (ht : DifferentiableAt ℝ (fun θ => zt θ) θ₀) :
    HasFDerivAt (fun θ => relaxCv eta lp z zt θ) (relaxGrad eta lp z zt) θ₀ := by
  have hb : HasFDerivAt (fun θ => boxElt lp θ) (fderiv ℝ (fun θ => lp θ) θ₀) θ₀ := by
    have := (hl.hasFDerivAt.sub_const (lp θ₀)).exp
    rw [sub_self, Real.exp_zero, one_smul] at this
    exact this
  have h1 := (he.mul hz).hasFDerivAt
  have h2 := (he.mul ht).hasFDerivAt
  have h3 := (hb.const_sub 2).mul_const (eta θ₀ * zt θ₀)
  refine HasFDerivAt.congr_fderiv (((h1.sub_const (eta θ₀ * z θ₀)).sub h2).add h3) ?_
  rw [relaxGrad, smul_neg, sub_eq_add_neg]
  rfl

/-- C43 without rebar: for every cost and every control network with one number per sample, if the log-probability has
event dimensions or there is a single sample, the estimator returns a control variate that is zero in the forward pass
for every sample, and has the derivative `(η c(z))' - (η c(z̃))' - η c(z̃) log_prob'` where `z` is the relaxed and `z̃`
the conditional sample.  Missing: variables without event dimensions, for which it raises (`C43_scalar_refuted`). -/
theorem C43_value_partial {hook : UnwrapHook (AD E θ₀)} (hh : PlainHook hook) {pool : List (Plate (AD E θ₀))}
    (hp : PoolOK pool) {t hard ztilde : STen (AD E θ₀)} (ht : ParentOK pool t)
    {disc cond : STen (AD E θ₀) → Except Err (STen (AD E θ₀))} {cPhi : STen (AD E θ₀) → Except Err (Operand (AD E θ₀))}
    {vz vt : (String → Nat) → AD E θ₀} (hr : RelaxOK pool t hard ztilde disc cond cPhi vz vt)
    {logProb : STen (AD E θ₀) → Except Err (STen (AD E θ₀))} {es : List Nat} {G : (String → Nat) → List Nat → AD E θ₀}
    (hl : LogProbOK hard logProb es G) (hes : es ≠ [] ∨ t.multiDimPlates = []) {own : Plate (AD E θ₀)}
    (ho : own ∈ t.plates) (eta : AD E θ₀) {x : STen (AD E θ₀)} (hx : SameValues x t) (cost : STen (AD E θ₀)) :
    ∃ lp cv, relaxEstimator hook (.torch (.scalar eta)) disc cond cPhi logProb own.name x cost =
        .ok (some (.st lp false), some (.st cv false)) ∧
      (∀ ι, lp.sample ι [] = sumEvent es G ι) ∧
      cv.WF ∧ cv.eventShape = [] ∧ (∀ p ∈ pool, p ∈ cv.plates ↔ p ∈ t.plates) ∧ (∀ ι, (cv.sample ι []).val = 0) ∧
      ∀ ι, DifferentiableAt ℝ (fun θ => eta θ) θ₀ → DifferentiableAt ℝ (fun θ => sumEvent es G ι θ) θ₀ →
        DifferentiableAt ℝ (fun θ => vz ι θ) θ₀ → DifferentiableAt ℝ (fun θ => vt ι θ) θ₀ →
        HasFDerivAt (fun θ => cv.sample ι [] θ) (relaxGrad eta (sumEvent es G ι) (vz ι) (vt ι)) θ₀ := by
  obtain ⟨lp, cv, h1, h2, h3⟩ := relax_estimator hh hp ht hr hl hes ho eta hx cost
  have hv : ∀ ι, cv.sample ι [] = relaxCv eta (sumEvent es G ι) (vz ι) (vt ι) := h3.val
  refine ⟨lp, cv, h1, h2.val, h3.scalar.1, h3.scalar.2.1, ?_, ?_, ?_⟩
  · intro p hm
    rw [← Operand.plates.eq_1 cv false, h3.names p hm]
    constructor
    · intro h'
      obtain ⟨q, hq, he⟩ := List.mem_map.1 h'
      exact pool_eq hp (ht.sub q hq) hm he ▸ hq
    · exact fun h' => List.mem_map_of_mem h'
  · intro ι
    rw [AD.val, hv ι, relaxCv_val]
  · intro ι a b c d
    rw [hv ι]
    exact relaxCv_deriv a b c d

/-- C43 with rebar: for every control network with one number per sample whose output fits the slice of the costs, every
cost along the plates of the sample and every variable with event dimensions, the estimator returns a control variate
with one number per sample (in an event shape of ones) that is zero in the forward pass, and whose derivative is that of
`C43_value_partial` with `c(z)` the cost plus the control network at the relaxed sample `k + n`, and `c(z̃)` that at the
conditional sample `k + 2n`; both are zero for the samples that are not hard.  Missing: variables without event
dimensions, and control networks of another shape, for which it raises (`C43_scalar_refuted`,
`C43_network_refuted`). -/
theorem C43_rebar_partial {hook : UnwrapHook (AD E θ₀)} (hh : PlainHook hook) {pool : List (Plate (AD E θ₀))}
    (hp : PoolOK pool) {x cost : STen (AD E θ₀)} (hx : ParentOK pool x) (hc : ScalarOp pool (.st cost false))
    (hcx : ∀ p ∈ cost.plates, p ∈ x.plates) (hxc : ∀ p ∈ x.multiDimPlates, p ∈ cost.plates)
    {own : Plate (AD E θ₀)} {L1 L2 : List (Plate (AD E θ₀))} (hL : x.multiDimPlates = L1 ++ own :: L2) {n : Nat}
    (hn : own.n = 3 * n) {cPhi : Ten (AD E θ₀) → Except Err (Ten (AD E θ₀))} {φ : (List Nat → AD E θ₀) → AD E θ₀}
    (hφ : PerSample cPhi (L1.map Plate.n ++ n :: L2.map Plate.n) x.eventShape φ)
    {logProb : STen (AD E θ₀) → Except Err (STen (AD E θ₀))} {es : List Nat} {G : (String → Nat) → List Nat → AD E θ₀}
    (hl : LogProbOK x logProb es G) (hes : es ≠ []) (eta : AD E θ₀) :
    ∃ lp cv, rebarEstimator hook (.torch (.scalar eta)) cPhi logProb own.name x cost =
        .ok (some (.st lp false), some (.st cv false)) ∧
      (∀ ι, lp.sample ι [] = sumEvent es G ι) ∧
      cv.WF ∧ cv.eventShape = List.replicate x.eventDims 1 ∧ (∀ p ∈ pool, p ∈ cv.plates ↔ p ∈ x.plates) ∧
      (∀ ι, ((Operand.st cv false).one ι).val = 0) ∧
      ∀ ι z zt, (ι own.name < n →
          (z = φ (fun e => x.sample (Function.update ι own.name (ι own.name + n)) e) +
              cost.sample (Function.update ι own.name (ι own.name + n)) []) ∧
            zt = φ (fun e => x.sample (Function.update ι own.name (ι own.name + 2 * n)) e) +
              cost.sample (Function.update ι own.name (ι own.name + 2 * n)) []) →
        (n ≤ ι own.name → z = 0 ∧ zt = 0) → DifferentiableAt ℝ (fun θ => eta θ) θ₀ →
        DifferentiableAt ℝ (fun θ => sumEvent es G ι θ) θ₀ → DifferentiableAt ℝ (fun θ => z θ) θ₀ →
        DifferentiableAt ℝ (fun θ => zt θ) θ₀ →
        HasFDerivAt (fun θ => (Operand.st cv false).one ι θ) (relaxGrad eta (sumEvent es G ι) z zt) θ₀ := by
  obtain ⟨lp, cv, h1, h2, h3⟩ := rebar_estimator hh hp hx hc hcx hxc hL hn hφ hl hes eta
  have hev : cv.eventDims = x.eventDims := h3.ev
  refine ⟨lp, cv, h1, h2.val, h3.ones.1, by rw [h3.ones.2.1, hev], ?_, ?_, ?_⟩
  · intro p hm
    rw [← Operand.plates.eq_1 cv false, h3.names p hm]
    constructor
    · intro h'
      obtain ⟨q, hq, he⟩ := List.mem_map.1 h'
      exact pool_eq hp (hx.sub q hq) hm he ▸ hq
    · exact fun h' => List.mem_map_of_mem h'
  · intro ι
    rw [AD.val, h3.val ι, relaxCv_val]
  · intro ι z zt hz1 hz2 a b c d
    have e1 : rebarPart φ own n n x (fun ι => cost.sample ι []) ι = z := by
      rw [rebarPart]
      by_cases h : ι own.name < n
      · rw [if_pos h, (hz1 h).1]
      · rw [if_neg h, (hz2 (by omega)).1]
    have e2 : rebarPart φ own n (2 * n) x (fun ι => cost.sample ι []) ι = zt := by
      rw [rebarPart]
      by_cases h : ι own.name < n
      · rw [if_pos h, (hz1 h).2]
      · rw [if_neg h, (hz2 (by omega)).2]
    rw [h3.val ι, e1, e2]
    exact relaxCv_deriv a b c d

/-! ### C33 for ARM and RELAX -/

omit [NormedAddCommGroup E] [NormedSpace ℝ E] in
/-- C33 from the contributions of the single estimators, with control variates in an event shape of ones. -/
theorem value_of_zeroCvOnes {hook : UnwrapHook (AD E θ₀)} (hh : PlainHook hook)
    {pool : List (Plate (AD E θ₀))} (hp : PoolOK pool) (hw : Weights pool)
    {costs : List (STen (AD E θ₀) × List (Sampled (AD E θ₀)))} (hne : costs ≠ [])
    (hc : ∀ x ∈ costs, CostOK pool x.1)
    (hm : ∀ x ∈ costs, ∀ s ∈ x.2, ∃ e, ContributesOnes hook pool x.1 s e ∧
      (∀ n ∈ e.names, n ∈ s.tensor.plates.map Plate.name) ∧
      ∀ ns v, e.cv = some (ns, v) → ∀ ι, v ι θ₀ = 0)
    (hn : ∀ x ∈ costs, ∀ s ∈ x.2, ∀ p ∈ pool, p.name ∈ s.tensor.plates.map Plate.name →
      p.name ∈ x.1.plates.map Plate.name ∨ p.Normalised ∧ ∃ w, p.weight = .torch w) :
    ∃ r, surrogateLoss hook costs = .ok r ∧ r.plates = [] ∧ r.ten.shape = [] ∧
      (r.ten.get []).val = (costs.map (fun x => averageCost x.1)).sum := by
  have hpar : ∀ (c : STen (AD E θ₀)) (ss : List (Sampled (AD E θ₀))),
      (∀ s ∈ ss, ∃ e, ContributesOnes hook pool c s e ∧ (∀ n ∈ e.names, n ∈ s.tensor.plates.map Plate.name) ∧
        ∀ ns v, e.cv = some (ns, v) → ∀ ι, v ι θ₀ = 0) →
      ∃ es, List.Forall₂ (ContributesOnes hook pool c) ss es ∧
        (∀ n ∈ es.flatMap Est.names, ∃ s ∈ ss, n ∈ s.tensor.plates.map Plate.name) ∧
        ∀ e ∈ es, ∀ ns v, e.cv = some (ns, v) → ∀ ι, v ι θ₀ = 0 := by
    intro c ss hm
    induction ss with
    | nil => exact ⟨[], .nil, by simp, by simp⟩
    | cons s ss ih =>
      obtain ⟨es, h1, h2, h3⟩ := ih (fun s hs => hm s (List.mem_cons_of_mem _ hs))
      obtain ⟨e, e1, e2, e3⟩ := hm s (by simp)
      refine ⟨e :: es, .cons e1 h1, ?_, ?_⟩
      · intro n hn
        rw [List.flatMap_cons, List.mem_append] at hn
        rcases hn with hn | hn
        · exact ⟨s, by simp, e2 n hn⟩
        · obtain ⟨s', hs', h'⟩ := h2 n hn
          exact ⟨s', List.mem_cons_of_mem _ hs', h'⟩
      · intro e' he'
        rcases List.mem_cons.1 he' with rfl | he'
        · exact e3
        · exact h3 e' he'
  have hall : ∃ es : List (STen (AD E θ₀) × List (Est (AD E θ₀))),
      List.Forall₂ (CostContributesOnes hook pool) costs es ∧ (∀ x ∈ es, ExtraNormalised pool x.1 x.2) ∧
      ∀ x ∈ es, ∀ e ∈ x.2, ∀ ns v, e.cv = some (ns, v) → ∀ ι, v ι θ₀ = 0 := by
    clear hne
    induction costs with
    | nil => exact ⟨[], .nil, by simp, by simp⟩
    | cons x xs ih =>
      obtain ⟨es, h1, h2, h3⟩ := ih (fun y hy => hc y (List.mem_cons_of_mem _ hy))
        (fun y hy => hm y (List.mem_cons_of_mem _ hy)) (fun y hy => hn y (List.mem_cons_of_mem _ hy))
      obtain ⟨e, e1, e2, e3⟩ := hpar x.1 x.2 (hm x (by simp))
      refine ⟨(x.1, e) :: es, .cons ⟨rfl, hc x (by simp), e1⟩ h1, ?_, ?_⟩
      · intro y hy
        rcases List.mem_cons.1 hy with rfl | hy
        · intro p hpp h4 h5
          obtain ⟨s, hs, h6⟩ := e2 _ h4
          exact (hn x (by simp) s hs p hpp h6).resolve_left h5
        · exact h2 y hy
      · intro y hy
        rcases List.mem_cons.1 hy with rfl | hy
        · exact e3
        · exact h3 y hy
  obtain ⟨es, h, he, hz⟩ := hall
  obtain ⟨r, r1, r2, r3, r4⟩ := surrogateLoss_ones hh hp hw hne h
  refine ⟨r, r1, r2, r3, ?_⟩
  rw [r4]
  have hcs : costs.map (fun x => averageCost x.1) = es.map (fun x => (costTotal pool x.1 x.2).val) := by
    clear r1 r4 hne hc hm hn
    induction h with
    | nil => rfl
    | @cons c e cs es' h1 _ ih =>
      obtain ⟨h1, h2, h3⟩ := h1
      rw [List.map_cons, List.map_cons, ih (fun x hx => he x (List.mem_cons_of_mem _ hx))
        (fun x hx => hz x (List.mem_cons_of_mem _ hx)),
        costTotal_val hp (h1 ▸ h2) (he e (by simp)) (hz e (by simp)), h1]
  rw [hcs]
  have := map_list_sum (AD.eval θ₀ (θ₀ := θ₀)) (es.map (fun x => costTotal pool x.1 x.2))
  rw [List.map_map] at this
  exact this

/-- More methods whose control variates have value zero: those of `C33_methods_partial`, ARM for scalar variables, and
RELAX with and without rebar for variables with event dimensions. -/
inductive CoveredMore (hook : UnwrapHook (AD E θ₀)) (pool : List (Plate (AD E θ₀))) (c : STen (AD E θ₀)) :
    Sampled (AD E θ₀) → Prop
  | base (s) (h : Covered hook pool c s) : CoveredMore hook pool c s
  | arm (t) (ht : ParentOK pool t) (hev : t.eventShape = []) (htc : ∀ p ∈ t.multiDimPlates, p ∈ c.plates)
      (hone : ∀ p ∈ c.plates, p.n = 1 → p ∈ t.plates) (logD half logits) (hl : ScalarOp pool logits)
      (hls : ∀ p ∈ logits.plates, p ∈ t.plates) (own : Plate (AD E θ₀)) (ho : own ∈ t.plates)
      (hol : own ∉ logits.plates) (n : Nat) (hn : own.n = 2 * n) (hn1 : 1 ≤ n) (hw : TorchWeights (missingPlates c t)) :
      CoveredMore hook pool c (armSampled hook logD half own.name logits t)
  | relax (t hard ztilde) (ht : ParentOK pool t) (disc cond cPhi vz vt)
      (hr : RelaxOK pool t hard ztilde disc cond cPhi vz vt) (logProb es G) (hl : LogProbOK hard logProb es G)
      (hes : es ≠ [] ∨ t.multiDimPlates = []) (own : Plate (AD E θ₀)) (ho : own ∈ t.plates) (eta) :
      CoveredMore hook pool c (relaxSampled hook (.torch (.scalar eta)) disc cond cPhi logProb own.name t)
  | rebar (t) (ht : ParentOK pool t) (htc : ∀ p ∈ t.multiDimPlates, p ∈ c.plates)
      (hone : ∀ p ∈ c.plates, p.n = 1 → p ∈ t.plates) (own : Plate (AD E θ₀)) (ho : own ∈ t.plates) (n : Nat)
      (hn : own.n = 3 * n) (hn1 : 1 ≤ n) (cPhi φ)
      (hφ : ∀ L1 L2, (L1 ++ own :: L2).Perm t.multiDimPlates →
        PerSample cPhi (L1.map Plate.n ++ n :: L2.map Plate.n) t.eventShape φ)
      (logProb es G) (hl : LogProbOK t logProb es G) (hes : es ≠ []) (eta) (hw : TorchWeights (missingPlates c t)) :
      CoveredMore hook pool c (rebarSampled hook (.torch (.scalar eta)) cPhi logProb own.name t)

omit [NormedAddCommGroup E] [NormedSpace ℝ E] in
/-- C33 for models that mix the methods of `C33_methods_partial` with ARM, RELAX and REBAR: the surrogate loss can be computed
and evaluates to the total average cost. -/
theorem C33_more_partial {hook : UnwrapHook (AD E θ₀)} (hh : PlainHook hook)
    {pool : List (Plate (AD E θ₀))} (hp : PoolOK pool) (hw : Weights pool)
    {costs : List (STen (AD E θ₀) × List (Sampled (AD E θ₀)))} (hne : costs ≠ [])
    (hc : ∀ x ∈ costs, CostOK pool x.1 ∧ ParentsAllOrNone x.1.multiDimPlates)
    (hm : ∀ x ∈ costs, ∀ s ∈ x.2, CoveredMore hook pool x.1 s)
    (hn : ∀ x ∈ costs, ∀ s ∈ x.2, ∀ p ∈ pool, p.name ∈ s.tensor.plates.map Plate.name →
      p.name ∈ x.1.plates.map Plate.name ∨ p.Normalised ∧ ∃ w, p.weight = .torch w) :
    ∃ r, surrogateLoss hook costs = .ok r ∧ r.plates = [] ∧ r.ten.shape = [] ∧
      (r.ten.get []).val = (costs.map (fun x => averageCost x.1)).sum := by
  refine value_of_zeroCvOnes hh hp hw hne (fun x hx => (hc x hx).1) ?_ hn
  intro x hx s hs
  obtain ⟨hc1, hc2⟩ := hc x hx
  cases hm x hx s hs with
  | base s h =>
    obtain ⟨e, h1, h2⟩ := h.contributes hh hp hw hc1 hc2
    exact ⟨e, h1.ones, h2⟩
  | arm t ht hev htc hone logD half logits hl hls own ho hol n hn hn1 hw' =>
    refine ⟨_, (arm_contributes_torch hh hp hw' hc1 hc2 ht hev htc hone logD half hl hls ho hol hn hn1).ones, fun _ h => h, ?_⟩
    intro ns v hv ι
    simp only [Option.some.injEq, Prod.mk.injEq] at hv
    rw [← hv.2]
    show ((1 - boxElt (armLp logD own logits t ι)) * armBase half own (seenCost x.1 t) ι : AD E θ₀) θ₀ = 0
    rw [AD.mul_apply, AD.sub_apply, boxElt_val, AD.one_apply, sub_self, zero_mul]
  | relax t hard ztilde ht disc cond cPhi vz vt hr logProb es G hl hes own ho eta =>
    refine ⟨_, (relax_contributes_any hh hp hw hc1 hc2 ht hr hl hes ho eta).ones, fun _ h => h, ?_⟩
    intro ns v hv ι
    simp only [Option.some.injEq, Prod.mk.injEq] at hv
    rw [← hv.2]
    exact relaxCv_val _ _ _ _
  | rebar t ht htc hone own ho n hn hn1 cPhi φ hφ logProb es G hl hes eta hw' =>
    refine ⟨_, rebar_contributes hh hp hw' hc1 hc2 ht htc hone ho hn hn1 hφ hl hes eta, fun _ h => h, ?_⟩
    intro ns v hv ι
    simp only [Option.some.injEq, Prod.mk.injEq] at hv
    rw [← hv.2]
    exact relaxCv_val _ _ _ _

end

/-! ### Where the estimator raises -/

section
variable {α : Type _} [ValEq α] [CommRing α] [Autograd α]

/-- C43 is false for variables without event dimensions: whatever the control network, the cost and the functions that
sample, as soon as there is more than one sample the estimator raises an error (the sum over an empty list of
dimensions is the sum over all dimensions, which does not have the shape of the plates).  With rebar there is always more
than one sample. -/
theorem C43_scalar_refuted {hook : UnwrapHook α} (hh : PlainHook hook) {pool : List (Plate α)} (hp : PoolOK pool)
    {t hard : STen α} (ht : ParentOK pool t) (hm : ∃ p ∈ t.plates, 1 < p.n)
    (disc cond : STen α → Except Err (STen α)) (cPhi : STen α → Except Err (Operand α))
    (cPhi' : Ten α → Except Err (Ten α))
    (hd : ∀ x, SameValues x t → ∀ y, disc x = .ok y → SameValues y hard)
    (hpl : ∀ p, p ∈ hard.plates ↔ p ∈ t.plates) {logProb : STen α → Except Err (STen α)}
    {G G' : (String → Nat) → List Nat → α} (hl : LogProbOK hard logProb [] G) (hl' : LogProbOK t logProb [] G')
    (name : String) (eta : Operand α) {x : STen α} (hx : SameValues x t) (cost : STen α) :
    (∃ e, relaxEstimator hook eta disc cond cPhi logProb name x cost = .error e) ∧
      ∃ e, rebarEstimator hook eta cPhi' logProb name x cost = .error e := by
  have hm' : t.multiDimPlates ≠ [] := by
    obtain ⟨p, h1, h2⟩ := hm
    exact List.ne_nil_of_mem (List.mem_filter.2 ⟨h1, by simpa using h2⟩)
  exact ⟨relax_raises hh hp ht disc cond cPhi hd hpl hl hm' name eta hx cost,
    rebar_raises hh hp ht cPhi' hl' hm' name eta hx cost⟩

omit [ValEq α] [Autograd α] in
/-- C43 is false with rebar for control networks that give one number for each sample without keeping the event
dimensions: for `n > 1` samples of vectors, the sum of the control network's output of shape `[n]` and the costs of shape
`[n, 1]` has the shape `[n, n]`, and storing it raises. -/
theorem C43_network_refuted {n d : Nat} (hn : 1 < n) {cPhi : Ten α → Except Err (Ten α)}
    (hφ : ∀ z, z.shape = [n, d] → ∃ r, cPhi z = .ok r ∧ r.shape = [n]) {z c : Ten α} (hz : z.shape = [3 * n, d])
    (hc : c.shape = [3 * n, 1]) : ∃ e, rebarFn cPhi 0 n ⟨[.torch z, .torch c], []⟩ = .error e := by
  obtain ⟨r, r1, r2⟩ := hφ (z.narrow 0 n n) (by simp [Ten.narrow, hz])
  obtain ⟨s, s1, s2⟩ := hφ (z.narrow 0 (2 * n) n) (by simp [Ten.narrow, hz])
  have hb : ∀ (u : Ten α) a, u.shape = [n] → ∃ v, Ten.elementwise List.sum [u, c.narrow 0 a n] = .ok v ∧ v.shape = [n, n] := by
    intro u a hu
    have hs : Ten.bshapes [u.shape, (c.narrow 0 a n).shape] = some [n, n] := by
      rw [hu]
      simp only [Ten.narrow, hc, List.set_cons_zero]
      have h1 : ¬ 1 = n := by omega
      have h2 : ¬ n = 1 := by omega
      simp [Ten.bshapes, Ten.padL, Ten.bzip, Ten.bdim, h1, h2]
    refine ⟨_, by rw [Ten.elementwise]; simp only [List.map_cons, List.map_nil]; rw [hs], rfl⟩
  obtain ⟨r', a1, a2⟩ := hb r n r2
  obtain ⟨s', b1, b2⟩ := hb s (2 * n) s2
  refine ⟨.torch, ?_⟩
  have hf : ∀ u : Ten α, u.shape = [n, n] → fillFirst c.shape 0 n u = .error .torch := by
    intro u hu
    rw [fillFirst, if_neg]
    rw [hu, hc]
    have h1 : ¬ 1 = n := by omega
    have h2 : ¬ n = 1 := by omega
    simp [Ten.bshapes, Ten.padL, Ten.bzip, Ten.bdim, h1, h2]
  simp only [rebarFn]
  rw [if_pos (by rw [hz, hc]; simp)]
  simp only [r1, a1, s1, b1, hf r' a2]

end

/-! ### Cases -/

namespace RelaxCase

/-- An element-wise function that keeps the plates. -/
def mapTen {α : Type _} (f : α → α) (x : STen α) : STen α := ⟨⟨x.ten.shape, fun i => f (x.ten.get i)⟩, x.plates, x.plateDims⟩

theorem mapTen_wf {α : Type _} (f : α → α) {x : STen α} (h : x.WF) : (mapTen f x).WF := ⟨h.names, h.pos, h.shape, h.dims⟩

theorem mapTen_same {α : Type _} (f : α → α) {x t : STen α} (h : SameValues x t) : SameValues (mapTen f x) (mapTen f t) :=
  ⟨mapTen_wf f h.wf, h.plates, h.event, fun ι e => congrArg f (h.values ι e)⟩

/-- The parameter. -/
noncomputable def param : AD ℝ (1 : ℝ) := fun θ => θ

/-- Two samples. -/
noncomputable def plate : Plate (AD ℝ (1 : ℝ)) := vecPlate "x" 2 (fun _ => AD.const (1 / 2))

/-- Two relaxed samples of two variables, in terms of the parameter. -/
noncomputable def t : STen (AD ℝ (1 : ℝ)) :=
  ⟨⟨[2, 2], fun i θ => θ * (i.headD 0 : ℝ) + (i.getD 1 0 : ℝ) - 1 / 2⟩, [plate], 1⟩

/-- The hard samples. -/
noncomputable def step (a : AD ℝ (1 : ℝ)) : AD ℝ (1 : ℝ) := AD.const (if 0 < a 1 then 1 else 0)

/-- The conditional samples. -/
noncomputable def soft (a : AD ℝ (1 : ℝ)) : AD ℝ (1 : ℝ) := fun θ => a θ * θ

/-- The control network: the product of the two values of a sample. -/
noncomputable def network (x : STen (AD ℝ (1 : ℝ))) : STen (AD ℝ (1 : ℝ)) :=
  ⟨⟨x.ten.shape.take 1, fun i => x.ten.get (i ++ [0]) * x.ten.get (i ++ [1])⟩, x.plates, x.plateDims⟩

theorem t_wf : t.WF := by
  refine ⟨by simp [t], ?_, ?_, ?_⟩
  · intro p hp; rw [List.mem_singleton.1 hp]; simp [plate, vecPlate, Plate.n]
  · simp [t, STen.multiDimPlates, STen.eventShape, plate, vecPlate, Plate.n]
  · simp [t, STen.multiDimPlates, plate, vecPlate, Plate.n]

theorem parentOK : ParentOK [plate] t := ⟨t_wf, fun _ h => h, single_closed rfl⟩

theorem network_is {x y : STen (AD ℝ (1 : ℝ))} (h : SameValues x y) (hp : y.plates = [plate]) (he : y.eventShape = [2]) :
    OpIs [plate] (.st (network x) false) (t.plates.map Plate.name) (fun ι => y.sample ι [0] * y.sample ι [1]) := by
  have hxp : x.plates = [plate] := eq_single_of h.wf.names (fun q => by simpa [hp] using h.plates q)
  have hmd : x.multiDimPlates = [plate] := by rw [STen.multiDimPlates, hxp]; simp [plate, vecPlate, Plate.n]
  have hd : x.plateDims = 1 := by rw [h.wf.dims, hmd]; rfl
  have hes : x.eventShape = [2] := h.event.trans he
  have hsh : x.ten.shape = [2, 2] := by rw [h.wf.shape, hmd, hes]; rfl
  have hnm : (network x).multiDimPlates = [plate] := hmd
  have hne : (network x).eventShape = [] := by simp [network, STen.eventShape, hsh, hd]
  refine ⟨⟨⟨h.wf.names, h.wf.pos, ?_, ?_⟩, hne, by rw [show (network x).plates = x.plates from rfl, hxp]; simp⟩, ?_, ?_, ?_⟩
  · rw [hnm, hne]; simp [network, hsh]; rfl
  · rw [hnm]; exact hd
  · rw [show (Operand.st (network x) false).plates = x.plates from rfl, hxp]; exact single_closed rfl
  · intro p hm
    rw [show (Operand.st (network x) false).plates = x.plates from rfl, hxp, List.mem_singleton.1 hm]
    simp [t]
  · intro ι
    show (network x).sample ι [] = _
    rw [← h.values, ← h.values, STen.sample, STen.sample, STen.sample, hnm, hmd, hne, hes]
    rfl

theorem relaxOK : RelaxOK [plate] t (mapTen step t) (mapTen soft (mapTen step t)) (fun x => .ok (mapTen step x))
    (fun x => .ok (mapTen soft x)) (fun x => .ok (.st (network x) false)) (fun ι => t.sample ι [0] * t.sample ι [1])
    (fun ι => (mapTen soft (mapTen step t)).sample ι [0] * (mapTen soft (mapTen step t)).sample ι [1]) where
  disc _ h := ⟨_, rfl, mapTen_same _ h⟩
  cond _ h := ⟨_, rfl, mapTen_same _ h⟩
  plates _ := Iff.rfl
  relaxed _ h := ⟨_, rfl, network_is h rfl rfl⟩
  tilde _ h := ⟨_, rfl, network_is h rfl rfl⟩

/-- The log-probability: the value times the parameter. -/
noncomputable def logP (a : AD ℝ (1 : ℝ)) : AD ℝ (1 : ℝ) := fun θ => a θ * θ

theorem logProbOK : LogProbOK (mapTen step t) (fun x => .ok (mapTen logP x)) [2]
    (fun ι e => logP ((mapTen step t).sample ι e)) := by
  intro x h
  refine ⟨_, rfl, mapTen_wf _ h.wf, h.plates, h.event, fun ι e _ => ?_⟩
  show logP (x.sample ι e) = _
  rw [h.values]

/-- The hypotheses of `C43_value_partial` can be met: two samples of two variables, the product of their values as
control network. -/
example : ∃ lp cv, relaxEstimator (α := AD ℝ (1 : ℝ)) (fun _ a => .ok a) (.torch (.scalar param)) (fun x => .ok (mapTen step x))
      (fun x => .ok (mapTen soft x)) (fun x => .ok (.st (network x) false)) (fun x => .ok (mapTen logP x)) "x" t t =
        .ok (some (.st lp false), some (.st cv false)) ∧ (∀ ι, (cv.sample ι []).val = 0) := by
  obtain ⟨lp, cv, h, -, -, -, -, h', -⟩ := C43_value_partial (fun _ _ _ => rfl) (vec_pool _ _ _) parentOK relaxOK logProbOK
    (.inl (by simp)) (own := plate) (by simp [t]) param ⟨t_wf, fun _ => Iff.rfl, rfl, fun _ _ => rfl⟩ t
  exact ⟨lp, cv, h, h'⟩

/-- One sample with rebar: three rows. -/
noncomputable def plate3 : Plate (AD ℝ (1 : ℝ)) := vecPlate "x" 3 (fun k => AD.const (if k < 1 then 1 else 0))

noncomputable def x : STen (AD ℝ (1 : ℝ)) := ⟨⟨[3, 2], fun i θ => θ * (i.headD 0 : ℝ) + (i.getD 1 0 : ℝ)⟩, [plate3], 1⟩

noncomputable def cost : STen (AD ℝ (1 : ℝ)) := vecTen "x" 3 (fun k => AD.const (if k < 1 then 1 else 0)) (fun k θ => θ * k)

theorem x_wf : x.WF := by
  refine ⟨by simp [x], ?_, ?_, ?_⟩
  · intro p hp; rw [List.mem_singleton.1 hp]; simp [plate3, vecPlate, Plate.n]
  · simp [x, STen.multiDimPlates, STen.eventShape, plate3, vecPlate, Plate.n]
  · simp [x, STen.multiDimPlates, plate3, vecPlate, Plate.n]

theorem cost_wf : cost.WF := by
  refine ⟨by simp [cost, vecTen], ?_, ?_, ?_⟩
  · intro p hp; rw [List.mem_singleton.1 hp]; simp [vecPlate, Plate.n]
  · simp [cost, vecTen, STen.multiDimPlates, STen.eventShape, vecPlate, Plate.n]
  · simp [cost, vecTen, STen.multiDimPlates, vecPlate, Plate.n]

theorem zero_perSample : PerSample (α := AD ℝ (1 : ℝ)) zeroControl [1] [2] (fun _ => 0) where
  runs z _ := ⟨_, rfl, ⟨by simp [Ten.scalar], by simp [Ten.scalar, Ten.padL]⟩, fun i _ => rfl⟩
  loc _ _ _ := rfl

/-- The hypotheses of `C43_rebar_partial` can be met, with the default control network. -/
example : ∃ lp cv, rebarEstimator (α := AD ℝ (1 : ℝ)) (fun _ a => .ok a) (.torch (.scalar param)) zeroControl
      (fun x => .ok (mapTen logP x)) "x" x cost = .ok (some (.st lp false), some (.st cv false)) ∧
      ∀ ι, ((Operand.st cv false).one ι).val = 0 := by
  have hl : LogProbOK x (fun x => .ok (mapTen logP x)) [2] (fun ι e => logP (x.sample ι e)) := by
    intro y h
    refine ⟨_, rfl, mapTen_wf _ h.wf, h.plates, h.event, fun ι e _ => ?_⟩
    show logP (y.sample ι e) = _
    rw [h.values]
  have hmd : x.multiDimPlates = [] ++ plate3 :: [] := by simp [x, STen.multiDimPlates, plate3, vecPlate, Plate.n]
  obtain ⟨lp, cv, h, -, -, -, -, h', -⟩ := C43_rebar_partial (hook := fun _ a => .ok a) (fun _ _ _ => rfl)
    (pool := [plate3]) (vec_pool _ _ _) (x := x) (cost := cost) ⟨x_wf, fun _ h => h, single_closed rfl⟩
    ⟨cost_wf, rfl, fun _ h => h⟩ (fun _ h => h) (by rw [hmd]; exact fun _ h => h) hmd (n := 1) rfl zero_perSample hl
    (by simp) param
  exact ⟨lp, cv, h, h'⟩

/-- A cost of the samples. -/
noncomputable def sampleCost : STen (AD ℝ (1 : ℝ)) := ⟨⟨[2], fun i => AD.const (3 + 2 * (i.headD 0 : ℝ))⟩, [plate], 1⟩

/-- The hypotheses of `C33_more_partial` can be met: this cost and the samples of RELAX. -/
example : ∃ r, surrogateLoss (fun _ a => .ok a) [(sampleCost, [relaxSampled (fun _ a => .ok a) (.torch (.scalar param))
      (fun x => .ok (mapTen step x)) (fun x => .ok (mapTen soft x)) (fun x => .ok (.st (network x) false))
      (fun x => .ok (mapTen logP x)) "x" t])] = .ok r ∧ (r.ten.get []).val = averageCost sampleCost := by
  have hwf : sampleCost.WF := by
    refine ⟨by simp [sampleCost], ?_, ?_, ?_⟩
    · intro p hp; rw [List.mem_singleton.1 hp]; simp [plate, vecPlate, Plate.n]
    · simp [sampleCost, STen.multiDimPlates, STen.eventShape, plate, vecPlate, Plate.n]
    · simp [sampleCost, STen.multiDimPlates, plate, vecPlate, Plate.n]
  have hclosed : ParentClosed [plate] := single_closed rfl
  obtain ⟨r, r1, _, _, r2⟩ := C33_more_partial (hook := fun _ a => .ok a) (fun _ _ _ => rfl) (pool := [plate]) (vec_pool _ _ _)
    (vec_weights _ (by norm_num) _).weights (costs := [(sampleCost, [relaxSampled (fun _ a => .ok a) (.torch (.scalar param))
      (fun x => .ok (mapTen step x)) (fun x => .ok (mapTen soft x)) (fun x => .ok (.st (network x) false))
      (fun x => .ok (mapTen logP x)) plate.name t])]) (by simp)
    (by
      intro x hx
      rw [List.mem_singleton.1 hx]
      exact ⟨⟨⟨hwf, rfl, fun _ h => h⟩, hclosed⟩, by
        have : sampleCost.multiDimPlates = [plate] := by simp [sampleCost, STen.multiDimPlates, plate, vecPlate, Plate.n]
        rw [this]
        exact fun p hp => Or.inl (hclosed p hp)⟩)
    (by
      intro x hx s hs
      rw [List.mem_singleton.1 hx] at hs ⊢
      rw [List.mem_singleton.1 hs]
      exact .relax t _ _ parentOK _ _ _ _ _ relaxOK _ _ _ logProbOK (.inl (by simp)) plate (by simp [t]) param)
    (by
      intro x hx s _ p hp _
      rw [List.mem_singleton.1 hx, List.mem_singleton.1 hp]
      exact Or.inl (by simp [sampleCost]))
  exact ⟨r, r1, by simpa using r2⟩

/-- A case for `C43_rows`: the second of two samples. -/
example (z : Nat → ℚ) : (relaxTensor true (fun t => t.map fun x => if 0 < x then 1 else 0) (fun t => t.map fun x => x + 5)
    ⟨[2], fun idx => z (idx.headD 0)⟩).get [5] = (if 0 < z 1 then 1 else 0) + 5 :=
  ((C43_rows (fun t => t.map fun x => if 0 < x then 1 else 0) (fun t => t.map fun x => x + 5) (fun _ => rfl)
    ⟨[2], fun idx => z (idx.headD 0)⟩ (n := 2) (es := []) rfl).2 1 [] (by norm_num)).2.2

/-- The hypotheses of `C43_scalar_refuted` can be met: two samples of a scalar variable. -/
example : (∃ e, relaxEstimator (fun _ a => .ok a) (.torch (.scalar 1)) (fun x => .ok x) (fun x => .ok x)
      (fun x => .ok (.st x false)) (fun x => .ok x) "x" (vecTen "x" 2 (fun _ => (1 : Dual)) (fun _ => 1))
      (vecTen "x" 2 (fun _ => 1) (fun _ => 1)) = .error e) := by
  have hw : (vecTen "x" 2 (fun _ => (1 : Dual)) (fun _ => 1)).WF := by
    refine ⟨by simp [vecTen], ?_, ?_, ?_⟩
    · intro p hp; rw [List.mem_singleton.1 hp]; simp [vecPlate, Plate.n]
    · simp [vecTen, STen.multiDimPlates, STen.eventShape, vecPlate, Plate.n]
    · simp [vecTen, STen.multiDimPlates, vecPlate, Plate.n]
  have hl : LogProbOK (vecTen "x" 2 (fun _ => (1 : Dual)) (fun _ => 1)) (fun x => .ok x) []
      (fun ι e => (vecTen "x" 2 (fun _ => (1 : Dual)) (fun _ => 1)).sample ι e) := by
    intro y h
    exact ⟨y, rfl, h.wf, h.plates, h.event, fun ι e _ => h.values ι e⟩
  exact (C43_scalar_refuted (fun _ _ _ => rfl) (vec_pool _ _ _) ⟨hw, fun _ h => h, single_closed rfl⟩
    ⟨_, List.mem_singleton_self _, by simp [vecPlate, Plate.n]⟩ _ _ _ zeroControl
    (fun x hx y hy => by simp only [Except.ok.injEq] at hy; exact hy ▸ hx) (fun _ => Iff.rfl) hl hl _ _
    ⟨hw, fun _ => Iff.rfl, rfl, fun _ _ => rfl⟩ _).1

/-- A control network that meets the hypothesis of `C43_network_refuted`: a sum over the last dimension. -/
example : ∃ e, rebarFn (fun z => .ok ⟨z.shape.take 1, fun i => z.get (i ++ [0]) + z.get (i ++ [1])⟩) 0 2
    ⟨[.torch ⟨[3 * 2, 2], fun _ => (1 : ℚ)⟩, .torch ⟨[3 * 2, 1], fun _ => 1⟩], []⟩ = .error e :=
  C43_network_refuted (by decide) (fun z hz => ⟨_, rfl, by simp [hz]⟩) rfl rfl

/-- A call to `sample` that meets the hypotheses of `C43_weights`. -/
example : (match relaxSample (fun k => 1 / (k : ℚ)) "x" 2 [] [] true (fun t => t) (fun t => t)
      (fun k => ⟨[k], fun _ => 1⟩) with
    | .ok (_, p) => some (p.n, [0, 1, 2, 5].map fun k => p.weightAt id (fun _ => k))
    | .error _ => none) = some (6, [1 / 2, 1 / 2, 0, 0]) := by decide +kernel

end RelaxCase

/-- The run with rebar as a whole, with two variables, a control network that is zero and a cost that is `k + θ` at row
`k`: the loss is the average cost of the two hard samples. -/
def RelaxCase.loss : Except Err (STen Dual) :=
  let p : Plate Dual := vecPlate "x" 6 (fun k => if k < 2 then Dual.of (1 / 2) 0 else 0)
  surrogateLoss (fun _ a => .ok a) [(⟨⟨[6], fun l => Dual.of (l.headD 0) 1⟩, [p], 1⟩,
    [rebarSampled (fun _ a => .ok a) (.torch (.scalar 1)) zeroControl
      (fun t => .ok ⟨⟨[6, 2], fun _ => Dual.of 0 1⟩, t.plates, t.plateDims⟩) "x" ⟨⟨[6, 2], fun _ => 1⟩, [p], 1⟩])]

example : (match RelaxCase.loss with
    | .ok L => decide (L.ten.get [] = Dual.of (1 / 2) (-7))
    | .error _ => false) = true := by decide +kernel

end Storch
