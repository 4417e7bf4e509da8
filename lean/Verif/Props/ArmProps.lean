import Verif.Lemmas.ArmRun
import Verif.Lemmas.NoiseAverage
import Verif.Model.Dual

/-!
# C42: ARM
-/

namespace Storch
open MeasureTheory

section
variable {E : Type _} [NormedAddCommGroup E] [NormedSpace ℝ E] {θ₀ : E}

/-- The noise of one run, by the index in the tensor of noise. -/
def noiseOf {n : Nat} (ε : Fin n → ℝ) (idx : List Nat) : ℝ :=
  if h : idx.headD 0 < n then ε ⟨idx.headD 0, h⟩ else 0

/-- What one sample with noise `x` contributes to the gradient without control variate: the score function times the
cost, and the derivative of the cost. -/
noncomputable def scoreGrad (θ₀ : E) (ℓ : ℝ → ℝ) (φ : E → ℝ) (f : E → ℝ → ℝ) (x : ℝ) : E →L[ℝ] ℝ :=
  f θ₀ (if 0 < φ θ₀ + x then 1 else 0) • fderiv ℝ (fun θ => ℓ (φ θ₀ + x - φ θ)) θ₀ +
    fderiv ℝ (fun θ => f θ (if 0 < φ θ₀ + x then 1 else 0)) θ₀

/-! ### Lemmas -/

/-- What one sample contributes to ARM's gradient. -/
noncomputable def armGrad (θ₀ : E) (ℓ : ℝ → ℝ) (φ : E → ℝ) (f : E → ℝ → ℝ) (x : ℝ) : E →L[ℝ] ℝ :=
  (f θ₀ (stepR (x + φ θ₀)) - 1 / 2 * (f θ₀ (stepR (x + φ θ₀)) + f θ₀ (stepR (-x + φ θ₀)))) •
    fderiv ℝ (fun θ => ℓ (x + φ θ₀ - φ θ)) θ₀ + fderiv ℝ (fun θ => f θ (stepR (x + φ θ₀))) θ₀

theorem shift_fderiv {ℓ ℓ' : ℝ → ℝ} (hℓ : ∀ x, HasDerivAt ℓ (ℓ' x) x) {φ : E → ℝ} (hφ : DifferentiableAt ℝ φ θ₀)
    (x : ℝ) : HasFDerivAt (fun θ => ℓ (x + φ θ₀ - φ θ)) (-(ℓ' x • fderiv ℝ φ θ₀)) θ₀ := by
  have h1 : HasFDerivAt (fun θ => x + φ θ₀ - φ θ) (-fderiv ℝ φ θ₀) θ₀ := hφ.hasFDerivAt.const_sub _
  have h2 : HasDerivAt ℓ (ℓ' x) (x + φ θ₀ - φ θ₀) := by rw [add_sub_cancel_right]; exact hℓ x
  have := h2.comp_hasFDerivAt θ₀ h1
  rw [smul_neg] at this
  exact this

theorem armLoss_fderiv {ℓ ℓ' : ℝ → ℝ} (hℓ : ∀ x, HasDerivAt ℓ (ℓ' x) x) {φ : E → ℝ} (hφ : DifferentiableAt ℝ φ θ₀)
    {f : E → ℝ → ℝ} (hf : ∀ b, DifferentiableAt ℝ (fun θ => f θ b) θ₀) (n : Nat) (eps : Nat → ℝ) :
    HasFDerivAt (armLoss (θ₀ := θ₀) ℓ φ n eps f)
      (∑ k ∈ Finset.range n, (1 / (n : ℝ)) • armGrad θ₀ ℓ φ f (eps k)) θ₀ := by
  have : armLoss (θ₀ := θ₀) ℓ φ n eps f = ∑ k ∈ Finset.range n, fun θ => 1 / (n : ℝ) *
      (armBox (θ₀ := θ₀) ℓ φ eps k θ * ((1 - armBox (θ₀ := θ₀) ℓ φ eps k θ) *
      (1 / 2 * (f θ (armX (θ₀ := θ₀) φ n eps k) + f θ (armX (θ₀ := θ₀) φ n eps (k + n)))) +
        f θ (armX (θ₀ := θ₀) φ n eps k))) := by
    funext θ; simp only [armLoss, Finset.sum_apply]
  rw [this]
  refine HasFDerivAt.sum (fun k hk => ?_)
  have hkn := Finset.mem_range.1 hk
  refine HasFDerivAt.const_mul ?_ _
  have e1 : armX (θ₀ := θ₀) φ n eps k = stepR (eps k + φ θ₀) := by
    simp only [armX, armZ, if_pos hkn]
  have e2 : armX (θ₀ := θ₀) φ n eps (k + n) = stepR (-eps k + φ θ₀) := by
    simp only [armX, armZ, if_neg (show ¬ k + n < n by omega), Nat.add_sub_cancel]
  have hb : HasFDerivAt (fun θ => armBox (θ₀ := θ₀) ℓ φ eps k θ)
      (fderiv ℝ (fun θ => ℓ (eps k + φ θ₀ - φ θ)) θ₀) θ₀ := by
    have h1 := ((shift_fderiv hℓ hφ (eps k)).sub_const (ℓ (eps k + φ θ₀ - φ θ₀))).exp
    rw [sub_self, Real.exp_zero, one_smul, ← (shift_fderiv hℓ hφ (eps k)).fderiv] at h1
    exact h1
  have hb0 : armBox (θ₀ := θ₀) ℓ φ eps k θ₀ = 1 := by simp [armBox]
  have hF := (hf (stepR (eps k + φ θ₀))).hasFDerivAt
  have hG := (hf (stepR (-eps k + φ θ₀))).hasFDerivAt
  rw [e1, e2]
  have hd := hb.mul (((hb.const_sub 1).mul ((hF.add hG).const_mul (1 / 2))).add hF)
  refine hd.congr_fderiv ?_
  simp only [hb0, sub_self, zero_smul, zero_add, one_smul, armGrad, zero_mul, smul_neg, Pi.add_apply, Pi.mul_apply]
  module

theorem stepR_measurable (a : ℝ) (g : ℝ → ℝ) : Measurable (fun x : ℝ => g (stepR (x + a))) := by
  have : (fun x : ℝ => g (stepR (x + a))) = fun x => if 0 < x + a then g 1 else g 0 := by
    funext x; simp only [stepR]; split <;> rfl
  rw [this]
  exact Measurable.ite (measurableSet_lt measurable_const (by fun_prop)) measurable_const measurable_const

theorem stepR_bound (a : ℝ) (g : ℝ → ℝ) (x : ℝ) : ‖g (stepR (x + a))‖ ≤ max ‖g 1‖ ‖g 0‖ := by
  simp only [stepR]
  split
  · exact le_max_left _ _
  · exact le_max_right _ _

variable {μ : Measure ℝ} [IsProbabilityMeasure μ]

theorem direct_integrable (f : E → ℝ → ℝ) (a : ℝ) :
    Integrable (fun x => fderiv ℝ (fun θ => f θ (stepR (x + a))) θ₀) μ := by
  have e : (fun x : ℝ => fderiv ℝ (fun θ => f θ (stepR (x + a))) θ₀) = fun x =>
      if 0 < x + a then fderiv ℝ (fun θ => f θ 1) θ₀ else fderiv ℝ (fun θ => f θ 0) θ₀ := by
    funext x; simp only [stepR]; split <;> rfl
  rw [e]
  exact integrable_step _ _ a

omit [IsProbabilityMeasure μ] in
theorem cost_integrable {ℓ' : ℝ → ℝ} (hint : Integrable ℓ' μ) (a : ℝ) (g : ℝ → ℝ) :
    Integrable (fun x => g (stepR (x + a)) * ℓ' x) μ ∧ Integrable (fun x => g (stepR (-x + a)) * ℓ' x) μ := by
  refine ⟨hint.bdd_mul (stepR_measurable a g).aestronglyMeasurable (.of_forall (stepR_bound a g)), ?_⟩
  exact hint.bdd_mul ((stepR_measurable a g).comp measurable_neg).aestronglyMeasurable
    (.of_forall (fun x => stepR_bound a g (-x)))

/-- The control variate has expectation zero. -/
theorem arm_integral {ℓ ℓ' : ℝ → ℝ} (hℓ : ∀ x, HasDerivAt ℓ (ℓ' x) x) (hodd : ∀ x, ℓ' (-x) = -ℓ' x)
    (hsym : μ.map Neg.neg = μ) (hint : Integrable ℓ' μ) {φ : E → ℝ} (hφ : DifferentiableAt ℝ φ θ₀)
    (f : E → ℝ → ℝ) :
    Integrable (armGrad θ₀ ℓ φ f) μ ∧ ∫ x, armGrad θ₀ ℓ φ f x ∂μ = ∫ x, scoreGrad θ₀ ℓ φ f x ∂μ := by
  obtain ⟨i1, i2⟩ := cost_integrable hint (φ θ₀) (f θ₀)
  have hd := direct_integrable (θ₀ := θ₀) (μ := μ) f (φ θ₀)
  have hA : armGrad θ₀ ℓ φ f = fun x => (-(1 / 2) * (f θ₀ (stepR (x + φ θ₀)) * ℓ' x) +
      1 / 2 * (f θ₀ (stepR (-x + φ θ₀)) * ℓ' x)) • fderiv ℝ φ θ₀ +
        fderiv ℝ (fun θ => f θ (stepR (x + φ θ₀))) θ₀ := by
    funext x
    rw [armGrad, (shift_fderiv hℓ hφ x).fderiv]
    module
  have hS : scoreGrad θ₀ ℓ φ f = fun x => (-(f θ₀ (stepR (x + φ θ₀)) * ℓ' x)) • fderiv ℝ φ θ₀ +
        fderiv ℝ (fun θ => f θ (stepR (x + φ θ₀))) θ₀ := by
    funext x
    rw [scoreGrad, add_comm (φ θ₀) x, (shift_fderiv hℓ hφ x).fderiv]
    simp only [stepR]
    module
  have j1 : Integrable (fun x => -(1 / 2) * (f θ₀ (stepR (x + φ θ₀)) * ℓ' x) +
      1 / 2 * (f θ₀ (stepR (-x + φ θ₀)) * ℓ' x)) μ := (i1.const_mul _).add (i2.const_mul _)
  have hsymm : ∫ x, f θ₀ (stepR (-x + φ θ₀)) * ℓ' x ∂μ = -∫ x, f θ₀ (stepR (x + φ θ₀)) * ℓ' x ∂μ := by
    have hme : MeasurableEmbedding (Neg.neg : ℝ → ℝ) := (Homeomorph.neg ℝ).measurableEmbedding
    have h1 : ∫ x, f θ₀ (stepR (-x + φ θ₀)) * ℓ' x ∂(μ.map Neg.neg) =
        ∫ x, f θ₀ (stepR (- -x + φ θ₀)) * ℓ' (-x) ∂μ := hme.integral_map _
    rw [hsym] at h1
    rw [h1, ← integral_neg]
    apply integral_congr_ae
    refine .of_forall (fun x => ?_)
    simp only [neg_neg, hodd]
    ring
  refine ⟨?_, ?_⟩
  · rw [hA]; exact integrable_affine j1 hd _
  · have j2 : Integrable (fun x => -(f θ₀ (stepR (x + φ θ₀)) * ℓ' x)) μ := i1.neg
    rw [hA, hS, integral_affine j1 hd, integral_affine j2 hd]
    congr 2
    rw [integral_add (i1.const_mul _) (i2.const_mul _), integral_const_mul, integral_const_mul, hsymm, integral_neg]
    ring

end

/-! ### Theorems -/

/-- ARM's weights: for every number of samples and every distribution, a successful call to `sample` gives a plate of
`2 * n` samples whose weights are non-negative, vanish on the antithetic half, and sum to one. -/
theorem C42_weights {α : Type _} [Field α] [LinearOrder α] [IsStrictOrderedRing α] [ValEq α] (name : String) (n : Nat) (ctx : List (Plate α)) (bernoulli : Bool)
    (logits : Operand α) (eps : Nat → Ten α) (heps : (eps n).shape.head? = some n) {s : STen α} {p : Plate α}
    (h : armSample (fun k => 1 / (k : α)) name n ctx bernoulli logits eps = .ok (s, p)) :
    1 ≤ n ∧ p.n = 2 * n ∧ (∀ ι, 0 ≤ p.weightAt id ι) ∧ (∀ ι, n ≤ ι p.name → p.weightAt id ι = 0) ∧
      ∀ ι, ∑ k ∈ Finset.range p.n, p.weightAt id (Function.update ι p.name k) = 1 := by
  rw [armSample] at h
  split at h
  · cases h
  · split at h
    · cases h
    · rename_i s' p' hm
      have hp' : p'.n = n + n ∧ p'.name = name := by
        rw [monteCarlo] at hm
        simp only [armTensor] at hm
        have hh : (eps n).shape.headD 0 = n := by
          cases hs : (eps n).shape with
          | nil => rw [hs] at heps; cases heps
          | cons a l => rw [hs] at heps; simpa using heps
        rw [hh] at hm
        split at hm
        · cases hm
        · split at hm
          · cases hm
          · split at hm
            · cases hm
            · simp only [Except.ok.injEq, Prod.mk.injEq] at hm
              rw [← hm.2]
              exact ⟨rfl, rfl⟩
      split at h
      · cases h
      · rename_i w hw
        simp only [Except.ok.injEq, Prod.mk.injEq] at h
        obtain ⟨-, rfl⟩ := h
        rw [armWeights, hp'.1, show (n + n) / 2 = n by omega] at hw
        split at hw
        · cases hw
        · rename_i hn
          simp only [Except.ok.injEq] at hw
          subst hw
          have hwt : ∀ ι, (Plate.mk p'.name p'.n (Weight.torch (α := α) ⟨[n + n], fun idx =>
              if idx.headD 0 < n then 1 / (n : α) else 0⟩) p'.kind p'.parents).weightAt id ι =
                if ι p'.name < n then 1 / (n : α) else 0 := fun ι => rfl
          have hn0 : (n : α) ≠ 0 := by exact_mod_cast hn
          refine ⟨Nat.one_le_iff_ne_zero.2 hn, ?_, ?_, ?_, ?_⟩
          · show p'.n = _
            rw [hp'.1]; omega
          · intro ι
            rw [hwt]
            split
            · positivity
            · exact le_refl 0
          · intro ι hι
            rw [hwt, if_neg (by simpa [Plate.name] using hι)]
          · intro ι
            simp only [hwt]
            show ∑ k ∈ Finset.range p'.n, (if Function.update ι p'.name k p'.name < n then 1 / (n : α) else 0) = 1
            rw [hp'.1]
            simp only [Function.update_self]
            rw [Finset.sum_range_add, Finset.sum_eq_zero (s := Finset.range n) (f := fun x => if n + x < n then _ else _)
              (fun x _ => if_neg (by omega)), add_zero, Finset.sum_congr rfl
              (fun x hx => if_pos (Finset.mem_range.1 hx)), Finset.sum_const, Finset.card_range, nsmul_eq_mul]
            field_simp

section
variable {E : Type _} [NormedAddCommGroup E] [NormedSpace ℝ E] {θ₀ : E} {hook : UnwrapHook (AD E θ₀)}
  {inv : Nat → AD E θ₀}

/-- C42 for one scalar variable: for every noise distribution symmetric about zero with an odd score, every logits
`φ`, every cost and every number of samples, the surrogate loss can be computed and differentiated, it evaluates to
the average of the costs of the first half, and its gradient has the same expectation as the score-function
gradient.  Missing: variables with event dimensions (where it is false, `C42_event_refuted`), and several variables. -/
theorem C42_expectation_partial (hh : PlainHook hook) (hinv : ∀ k, inv k = AD.const (1 / (k : ℝ))) {ℓ ℓ' : ℝ → ℝ}
    (hℓ : ∀ x, HasDerivAt ℓ (ℓ' x) x) (hodd : ∀ x, ℓ' (-x) = -ℓ' x) {μ : Measure ℝ} [IsProbabilityMeasure μ]
    (hsym : μ.map Neg.neg = μ) (hint : Integrable ℓ' μ) {φ : E → ℝ} (hφ : DifferentiableAt ℝ φ θ₀)
    {f : E → ℝ → ℝ} (hf : ∀ b, DifferentiableAt ℝ (fun θ => f θ b) θ₀) (name : String) {n : Nat} (hn : 1 ≤ n) :
    ∃ L : (Fin n → ℝ) → STen (AD E θ₀),
      (∀ ε, armProgram hook inv ℓ name n (.torch (.scalar φ)) (noiseOf ε) f = .ok (L ε) ∧ (L ε).plates = [] ∧
        (L ε).ten.shape = [] ∧ DifferentiableAt ℝ ((L ε).ten.get []) θ₀ ∧
        (L ε).ten.get [] θ₀ = 1 / (n : ℝ) * ∑ k, f θ₀ (if 0 < ε k + φ θ₀ then 1 else 0)) ∧
      Integrable (fun ε => fderiv ℝ ((L ε).ten.get []) θ₀) (Measure.pi fun _ => μ) ∧
      ∫ ε, fderiv ℝ ((L ε).ten.get []) θ₀ ∂(Measure.pi fun _ => μ) = ∫ x, scoreGrad θ₀ ℓ φ f x ∂μ := by
  choose L L1 L2 L3 L4 using fun ε : Fin n → ℝ => armProgram_run (θ₀ := θ₀) hh hinv ℓ name hn φ (noiseOf ε) f
  have hL : ∀ ε, (L ε).ten.get [] = armLoss (θ₀ := θ₀) ℓ φ n (fun i => noiseOf ε [i]) f := fun ε => funext (L4 ε)
  have hnoise : ∀ (ε : Fin n → ℝ) (i : Fin n), noiseOf ε [i.val] = ε i := by
    intro ε i; simp [noiseOf]
  have hder : ∀ ε, HasFDerivAt ((L ε).ten.get [])
      (∑ k : Fin n, (1 / (n : ℝ)) • armGrad θ₀ ℓ φ f (ε k)) θ₀ := by
    intro ε
    rw [hL]
    refine (armLoss_fderiv hℓ hφ hf n _).congr_fderiv ?_
    rw [Finset.sum_range]
    simp only [hnoise]
  obtain ⟨i1, i2⟩ := arm_integral (μ := μ) hℓ hodd hsym hint hφ f
  have hg : (fun ε => fderiv ℝ ((L ε).ten.get []) θ₀) = fun ε =>
      ∑ k : Fin n, (1 / (n : ℝ)) • armGrad θ₀ ℓ φ f (ε k) := funext fun ε => (hder ε).fderiv
  obtain ⟨a1, a2⟩ := average_integral (μ := μ) hn i1
  refine ⟨L, fun ε => ⟨L1 ε, L2 ε, L3 ε, (hder ε).differentiableAt, ?_⟩, ?_, ?_⟩
  · simp only [hL, armLoss, Finset.sum_range, Finset.mul_sum]
    apply Finset.sum_congr rfl
    intro k _
    simp only [armBox, sub_self, Real.exp_zero, zero_mul, zero_add, one_mul, armX, armZ, if_pos k.isLt, hnoise, stepR]
  · rw [hg]; exact a1
  · rw [hg, a2, i2]

/-- C42 with the logistic noise that ARM uses, for one scalar variable: the gradient is unbiased, that is its
expectation is the derivative of the expected cost, which is `p f(1) + (1 - p) f(0)` with `p = sigmoid(logits)`.
Missing: as for `C42_expectation_partial`. -/
theorem C42_logistic_partial (hh : PlainHook hook) (hinv : ∀ k, inv k = AD.const (1 / (k : ℝ)))
    {φ : E → ℝ} (hφ : DifferentiableAt ℝ φ θ₀) {f : E → ℝ → ℝ}
    (hf : ∀ b, DifferentiableAt ℝ (fun θ => f θ b) θ₀) (name : String) {n : Nat} (hn : 1 ≤ n) :
    ∃ L : (Fin n → ℝ) → STen (AD E θ₀),
      (∀ ε, armProgram hook inv logisticLog name n (.torch (.scalar φ)) (noiseOf ε) f = .ok (L ε) ∧
        (L ε).ten.shape = [] ∧ DifferentiableAt ℝ ((L ε).ten.get []) θ₀) ∧
      Integrable (fun ε => fderiv ℝ ((L ε).ten.get []) θ₀) (Measure.pi fun _ => logisticMeasure) ∧
      HasFDerivAt (fun θ => (1 + Real.exp (-φ θ))⁻¹ * f θ 1 + (1 - (1 + Real.exp (-φ θ))⁻¹) * f θ 0)
        (∫ ε, fderiv ℝ ((L ε).ten.get []) θ₀ ∂(Measure.pi fun _ => logisticMeasure)) θ₀ := by
  have hℓ : ∀ x, HasDerivAt logisticLog (1 - 2 * Real.sigmoid x) x := by
    intro x
    have h1 : HasDerivAt (fun x : ℝ => Real.exp (-x)) (-Real.exp (-x)) x := by
      have := (hasDerivAt_neg x).exp
      simpa using this
    have hpos : 1 + Real.exp (-x) ≠ 0 := by positivity
    have h2 := (hasDerivAt_neg x).sub (((h1.const_add 1).log hpos).const_mul 2)
    refine h2.congr_deriv ?_
    rw [Real.sigmoid_def]
    field_simp
    ring
  have hodd : ∀ x, 1 - 2 * Real.sigmoid (-x) = -(1 - 2 * Real.sigmoid x) := by
    intro x; rw [Real.sigmoid_neg]; ring
  have hint : Integrable (fun x => 1 - 2 * Real.sigmoid x) logisticMeasure := by
    have hc : Continuous (fun x => 1 - 2 * Real.sigmoid x) := by
      have := continuous_sigmoid; fun_prop
    refine Integrable.of_bound hc.aestronglyMeasurable 1 (.of_forall (fun x => ?_))
    rw [Real.norm_eq_abs, abs_le]
    have h1 := Real.sigmoid_pos x
    have h2 := Real.sigmoid_lt_one x
    constructor <;> linarith
  obtain ⟨L, h1, h2, h3⟩ := C42_expectation_partial (hook := hook) (inv := inv) hh hinv hℓ hodd logistic_symm hint hφ hf
    name hn
  refine ⟨L, fun ε => ⟨(h1 ε).1, (h1 ε).2.2.1, (h1 ε).2.2.2.1⟩, h2, ?_⟩
  rw [h3]
  have hS : scoreGrad θ₀ logisticLog φ f = fun x =>
      (-(f θ₀ (stepR (x + φ θ₀)) * (1 - 2 * Real.sigmoid x))) • fderiv ℝ φ θ₀ +
        fderiv ℝ (fun θ => f θ (stepR (x + φ θ₀))) θ₀ := by
    funext x
    rw [scoreGrad, add_comm (φ θ₀) x, (shift_fderiv hℓ hφ x).fderiv]
    simp only [stepR]
    module
  obtain ⟨i1, -⟩ := cost_integrable hint (φ θ₀) (f θ₀)
  have j2 : Integrable (fun x => -(f θ₀ (stepR (x + φ θ₀)) * (1 - 2 * Real.sigmoid x))) logisticMeasure := i1.neg
  rw [hS, integral_affine j2 (direct_integrable f (φ θ₀))]
  have hp1 := Real.sigmoid_pos (φ θ₀)
  have hp2 := Real.sigmoid_lt_one (φ θ₀)
  have hunif : ∀ᵐ u ∂Gumbel.unif, u ∈ Set.Ioo (0 : ℝ) 1 := by
    rw [Gumbel.unif]; exact ae_restrict_mem measurableSet_Ioo
  have e1 : ∫ x, -(f θ₀ (stepR (x + φ θ₀)) * (1 - 2 * Real.sigmoid x)) ∂logisticMeasure =
      Real.sigmoid (φ θ₀) * (1 - Real.sigmoid (φ θ₀)) * (f θ₀ 1 - f θ₀ 0) := by
    rw [← logistic_integral _ _ _ hp1.le hp2.le, logisticMeasure, integral_map logit_measurable.aemeasurable]
    · apply integral_congr_ae
      filter_upwards [hunif] with u hu
      rw [sigmoid_logit hu, stepR]
      by_cases h : 1 - Real.sigmoid (φ θ₀) < u
      · rw [if_pos h, if_pos ((logit_pos_iff hu).2 h)]; ring
      · rw [if_neg h, if_neg (fun h' => h ((logit_pos_iff hu).1 h'))]; ring
    · exact j2.aestronglyMeasurable
  have e2 : ∫ x, fderiv ℝ (fun θ => f θ (stepR (x + φ θ₀))) θ₀ ∂logisticMeasure =
      Real.sigmoid (φ θ₀) • fderiv ℝ (fun θ => f θ 1) θ₀ +
        (1 - Real.sigmoid (φ θ₀)) • fderiv ℝ (fun θ => f θ 0) θ₀ := by
    have hi := direct_integrable (θ₀ := θ₀) (μ := logisticMeasure) f (φ θ₀)
    rw [logisticMeasure, integral_map logit_measurable.aemeasurable hi.aestronglyMeasurable]
    refine Eq.trans ?_ (step_integral (F := E →L[ℝ] ℝ) _ _ hp1.le hp2.le)
    apply integral_congr_ae
    filter_upwards [hunif] with u hu
    simp only [stepR]
    by_cases h : 1 - Real.sigmoid (φ θ₀) < u
    · rw [if_pos h, if_pos ((logit_pos_iff hu).2 h)]
    · rw [if_neg h, if_neg (fun h' => h ((logit_pos_iff hu).1 h'))]
  rw [e1, e2]
  have hs : HasFDerivAt (fun θ => Real.sigmoid (φ θ))
      ((Real.sigmoid (φ θ₀) * (1 - Real.sigmoid (φ θ₀))) • fderiv ℝ φ θ₀) θ₀ :=
    (Real.hasDerivAt_sigmoid (φ θ₀)).comp_hasFDerivAt θ₀ hφ.hasFDerivAt
  have hd := (hs.mul (hf 1).hasFDerivAt).add ((hs.const_sub 1).mul (hf 0).hasFDerivAt)
  refine HasFDerivAt.congr_fderiv (f := fun θ => Real.sigmoid (φ θ) * f θ 1 + (1 - Real.sigmoid (φ θ)) * f θ 0) hd ?_
  module

end

/-! ### Examples -/

section
/-- The hypotheses of the theorems can be met: two samples, logits `θ` at `θ = 0`, cost `θ * (x + 1)`. -/
example : ∃ L : (Fin 2 → ℝ) → STen (AD ℝ (0 : ℝ)),
    (∀ ε, armProgram (fun _ a => .ok a) (fun k => AD.const (1 / (k : ℝ))) logisticLog "x" 2 (.torch (.scalar fun θ => θ))
      (noiseOf ε) (fun θ x => θ * (x + 1)) = .ok (L ε) ∧
      (L ε).ten.shape = [] ∧ DifferentiableAt ℝ ((L ε).ten.get []) 0) ∧
    Integrable (fun ε => fderiv ℝ ((L ε).ten.get []) 0) (Measure.pi fun _ => logisticMeasure) ∧
    HasFDerivAt (fun θ : ℝ => (1 + Real.exp (-θ))⁻¹ * (θ * (1 + 1)) + (1 - (1 + Real.exp (-θ))⁻¹) * (θ * (0 + 1)))
      (∫ ε, fderiv ℝ ((L ε).ten.get []) 0 ∂(Measure.pi fun _ => logisticMeasure)) 0 :=
  C42_logistic_partial (fun _ _ _ => rfl) (fun _ => rfl) (φ := fun θ => θ) (f := fun θ x => θ * (x + 1))
    differentiableAt_id (fun b => by fun_prop) "x" (by decide)

/-- A call to `sample` that meets the hypotheses of `C42_weights`: four weights, two of them zero. -/
example : (match armSample (fun k => 1 / (k : ℚ)) "x" 2 [] true (.torch (.scalar 0)) (fun k => ⟨[k], fun _ => 1⟩) with
    | .ok (_, p) => some (p.n, [0, 1, 2, 3].map fun k => p.weightAt id (fun _ => k))
    | .error _ => none) = some (4, [1 / 2, 1 / 2, 0, 0]) := by decide +kernel

end

/-! ### Event dimensions -/

namespace ArmEvent

/-- The plate of one sample and its antithetic sample. -/
def plate : Plate Dual := vecPlate "x" 2 (fun k => if k < 1 then 1 else 0)

/-- The samples of two logits. -/
def z : STen Dual := ⟨⟨[2, 2], fun _ => 1⟩, [plate], 1⟩

/-- The cost: equal to the parameter, at 1. -/
def cost : STen Dual := ⟨⟨[2], fun _ => Dual.of 1 1⟩, [plate], 1⟩

def hook : UnwrapHook Dual := fun _ a => .ok a

/-- The surrogate loss, with two logits that do not depend on the parameter. -/
def loss : Except Err (STen Dual) :=
  surrogateLoss hook [(cost, [armSampled hook (fun z l => z - l) (Dual.of (1 / 2) 0) "x" (.torch ⟨[2], fun _ => 0⟩) z])]

end ArmEvent

/-- With event dimensions C42 is false: `ARM.estimator` does not sum the log-probability over them, so that the cost is
counted once for every event index.  Here are two logits that do not depend on the parameter and a cost that is equal
to the parameter: the loss should have value 1 and derivative 1, and has value 2 and derivative 2. -/
theorem C42_event_refuted :
    ∃ L, ArmEvent.loss = .ok L ∧ L.plates = [] ∧ L.ten.shape = [] ∧ Dual.num (L.ten.get []) = 2 ∧
      Dual.slope (L.ten.get []) = 2 := by
  have h : (match ArmEvent.loss with
    | .ok L => decide (L.plates.length = 0 ∧ L.ten.shape = [] ∧ L.ten.get [] = Dual.of 2 2)
    | .error _ => false) = true := by decide +kernel
  split at h
  · rename_i L hL
    simp only [decide_eq_true_eq, List.length_eq_zero_iff] at h
    exact ⟨L, hL, h.1, h.2.1, by rw [h.2.2]; rfl, by rw [h.2.2]; rfl⟩
  · cases h

end Storch
