import Mathlib.Analysis.Calculus.ContDiff.Comp
import Mathlib.Analysis.Calculus.FDeriv.Measurable
import Verif.Lemmas.RelaxExpect

/-!
# Differentiating a smooth control network under the expectation
-/

namespace Storch
open Gumbel MeasureTheory Topology

section
variable {E : Type _} [NormedAddCommGroup E] [NormedSpace ℝ E] {θ₀ : E} {m K : Nat}

theorem normalise_eq (s : Fin K → ℝ) (i : Fin K) : normaliseScores s i = Real.exp (s i) / ∑ k, Real.exp (s k) := by
  have hS : 0 < ∑ k, Real.exp (s k) := Finset.sum_pos (fun k _ => Real.exp_pos _) ⟨i, Finset.mem_univ _⟩
  rw [normaliseScores, Real.exp_sub, Real.exp_log hS]

theorem normalise_nonneg (s : Fin K → ℝ) (i : Fin K) : 0 ≤ normaliseScores s i := (Real.exp_pos _).le

theorem normalise_sum (s : Fin K → ℝ) (i : Fin K) : ∑ k, normaliseScores s k = 1 := by
  have hS : 0 < ∑ k, Real.exp (s k) := Finset.sum_pos (fun k _ => Real.exp_pos _) ⟨i, Finset.mem_univ _⟩
  simp only [normalise_eq]
  rw [← Finset.sum_div, div_self hS.ne']

theorem normalise_le_one (s : Fin K → ℝ) (i : Fin K) : normaliseScores s i ≤ 1 := by
  rw [← normalise_sum s i]
  exact Finset.single_le_sum (fun k _ => normalise_nonneg s k) (Finset.mem_univ i)

/-- The derivative of the normalised scores. -/
theorem normalise_deriv {s : E → Fin K → ℝ} {s' : Fin K → E →L[ℝ] ℝ} {θ : E}
    (h : ∀ k, HasFDerivAt (fun θ => s θ k) (s' k) θ) (i : Fin K) :
    HasFDerivAt (fun θ => normaliseScores (s θ) i)
      (normaliseScores (s θ) i • (s' i - ∑ k, normaliseScores (s θ) k • s' k)) θ := by
  have hS : 0 < ∑ k, Real.exp (s θ k) := Finset.sum_pos (fun k _ => Real.exp_pos _) ⟨i, Finset.mem_univ _⟩
  have h1 : HasFDerivAt (fun θ => ∑ k, Real.exp (s θ k)) (∑ k, Real.exp (s θ k) • s' k) θ :=
    HasFDerivAt.fun_sum (fun k _ => (h k).exp)
  have h2 := ((h i).sub (h1.log hS.ne')).exp
  refine h2.congr_fderiv ?_
  rw [Finset.smul_sum]
  simp only [smul_smul]
  congr 2
  refine Finset.sum_congr rfl (fun k _ => ?_)
  rw [normalise_eq (s θ) k, div_eq_inv_mul]

theorem normalise_bound {s : Fin K → ℝ} {s' : Fin K → E →L[ℝ] ℝ} {M : ℝ} (h : ∀ k, ‖s' k‖ ≤ M) (i : Fin K) :
    ‖normaliseScores s i • (s' i - ∑ k, normaliseScores s k • s' k)‖ ≤ 2 * M := by
  have h1 : ‖∑ k, normaliseScores s k • s' k‖ ≤ M := by
    refine (norm_sum_le _ _).trans ?_
    calc ∑ k, ‖normaliseScores s k • s' k‖ ≤ ∑ k, normaliseScores s k * M := by
          refine Finset.sum_le_sum (fun k _ => ?_)
          rw [norm_smul, Real.norm_of_nonneg (normalise_nonneg s k)]
          exact mul_le_mul_of_nonneg_left (h k) (normalise_nonneg s k)
      _ = M := by rw [← Finset.sum_mul, normalise_sum s i, one_mul]
  have h2 := (norm_sub_le (s' i) (∑ k, normaliseScores s k • s' k)).trans (add_le_add (h i) h1)
  rw [norm_smul, Real.norm_of_nonneg (normalise_nonneg s i)]
  calc normaliseScores s i * ‖s' i - ∑ k, normaliseScores s k • s' k‖
      ≤ 1 * (M + M) := mul_le_mul (normalise_le_one s i) h2 (norm_nonneg _) zero_le_one
    _ = 2 * M := by ring

/-- The derivative of a score `-log(a / p + b) / T`. -/
theorem score_deriv {p T : E → ℝ} {p' T' : E →L[ℝ] ℝ} {θ : E} {a b : ℝ} (hp : HasFDerivAt p p' θ) (hT : HasFDerivAt T T' θ)
    (hp0 : 0 < p θ) (hT0 : 0 < T θ) (ht : 0 < a / p θ + b) :
    HasFDerivAt (fun θ => -Real.log (a / p θ + b) / T θ)
      ((a / (T θ * p θ ^ 2 * (a / p θ + b))) • p' + (Real.log (a / p θ + b) / T θ ^ 2) • T') θ := by
  have h1 : HasFDerivAt (fun θ => a / p θ + b) ((-(a / p θ ^ 2)) • p') θ := by
    have hi : HasFDerivAt (fun θ => (p θ)⁻¹) ((-(p θ ^ 2)⁻¹) • p') θ := (hasDerivAt_inv hp0.ne').comp_hasFDerivAt θ hp
    have := (hi.const_mul a).add_const b
    refine (this.congr_fderiv ?_)
    rw [smul_smul]
    congr 1
    rw [div_eq_mul_inv]; ring
  have hinv : HasFDerivAt (fun θ => (T θ)⁻¹) ((-(T θ ^ 2)⁻¹) • T') θ := (hasDerivAt_inv hT0.ne').comp_hasFDerivAt θ hT
  have h2 := ((h1.log ht.ne').neg).mul hinv
  refine HasFDerivAt.congr_fderiv (f := fun θ => -Real.log (a / p θ + b) * (T θ)⁻¹) h2 ?_
  simp only [Pi.neg_apply, smul_neg, smul_smul]
  rw [add_comm]
  congr 1
  · rw [← neg_smul]
    congr 1
    field_simp
  · congr 1
    rw [div_eq_mul_inv]; ring

theorem score_bound {p T a b C : ℝ} {p' T' : E →L[ℝ] ℝ} (ha : 0 ≤ a) (hb : 0 ≤ b) (hab : 0 < a + b) (hp0 : 0 < p)
    (hp1 : p ≤ 1) (hT0 : 0 < T) (c1 : 1 / p ≤ C) (c2 : ‖p'‖ ≤ C) (c3 : 1 / T ≤ C) (c4 : ‖T'‖ ≤ C) :
    0 < a / p + b ∧ ‖(a / (T * p ^ 2 * (a / p + b))) • p' + (Real.log (a / p + b) / T ^ 2) • T'‖ ≤
      C ^ 3 * (1 + C + |Real.log (a + b)|) := by
  have hC : 1 ≤ C := le_trans (by rw [le_div_iff₀ hp0]; linarith) c1
  have hlow : a + b ≤ a / p + b := by
    have : a ≤ a / p := by rw [le_div_iff₀ hp0]; nlinarith
    linarith
  have ht : 0 < a / p + b := lt_of_lt_of_le hab hlow
  refine ⟨ht, ?_⟩
  have hup : a / p + b ≤ (a + b) / p := by
    rw [add_div]
    have : b ≤ b / p := by rw [le_div_iff₀ hp0]; nlinarith
    linarith
  have hlog : |Real.log (a / p + b)| ≤ |Real.log (a + b)| + C := by
    have l1 := Real.log_le_log hab hlow
    have l2 := Real.log_le_log ht hup
    rw [Real.log_div hab.ne' hp0.ne'] at l2
    have l3 : -Real.log p ≤ C := by
      have := Real.log_le_sub_one_of_pos (show 0 < 1 / p by positivity)
      rw [one_div, Real.log_inv] at this
      rw [one_div] at c1
      linarith
    have l4 : 0 ≤ -Real.log p := by have := Real.log_nonpos hp0.le hp1; linarith
    rw [abs_le]
    constructor
    · have := neg_abs_le (Real.log (a + b)); linarith
    · have := le_abs_self (Real.log (a + b)); linarith
  have n1 : ‖(a / (T * p ^ 2 * (a / p + b))) • p'‖ ≤ C ^ 3 := by
    have hc0 : 0 ≤ a / (T * p ^ 2 * (a / p + b)) := by positivity
    have hc : a / (T * p ^ 2 * (a / p + b)) ≤ (1 / T) * (1 / p) := by
      rw [div_le_iff₀ (by positivity)]
      have : 1 / T * (1 / p) * (T * p ^ 2 * (a / p + b)) = a + p * b := by field_simp
      rw [this]
      nlinarith
    have hc' : a / (T * p ^ 2 * (a / p + b)) ≤ C * C := hc.trans (mul_le_mul c3 c1 (by positivity) (by linarith))
    rw [norm_smul, Real.norm_of_nonneg hc0]
    calc _ ≤ (C * C) * C := mul_le_mul hc' c2 (norm_nonneg _) (by positivity)
      _ = C ^ 3 := by ring
  have n2 : ‖(Real.log (a / p + b) / T ^ 2) • T'‖ ≤ C ^ 3 * (|Real.log (a + b)| + C) := by
    rw [norm_smul, Real.norm_eq_abs, abs_div, abs_of_pos (show 0 < T ^ 2 by positivity)]
    have hT2 : |Real.log (a / p + b)| / T ^ 2 ≤ (|Real.log (a + b)| + C) * (C * C) := by
      have : |Real.log (a / p + b)| / T ^ 2 = |Real.log (a / p + b)| * ((1 / T) * (1 / T)) := by field_simp
      rw [this]
      exact mul_le_mul hlog (mul_le_mul c3 c3 (by positivity) (by linarith)) (by positivity) (by positivity)
    calc _ ≤ ((|Real.log (a + b)| + C) * (C * C)) * C := mul_le_mul hT2 c4 (norm_nonneg _) (by positivity)
      _ = C ^ 3 * (|Real.log (a + b)| + C) := by ring
  calc _ ≤ C ^ 3 + C ^ 3 * (|Real.log (a + b)| + C) := (norm_add_le _ _).trans (add_le_add n1 n2)
    _ = C ^ 3 * (1 + C + |Real.log (a + b)|) := by ring

/-- A continuous function is bounded near `θ₀`, uniformly over a compact set. -/
theorem bounded_near {X : Type*} [TopologicalSpace X] {g : E × X → ℝ} (hg : Continuous g) {Q : Set X} (hQ : IsCompact Q)
    (θ₀ : E) : ∃ C, ∀ᶠ θ in 𝓝 θ₀, ∀ x ∈ Q, g (θ, x) ≤ C := by
  obtain ⟨C, hC⟩ := (hQ.image (show Continuous fun x => g (θ₀, x) by fun_prop)).bddAbove
  refine ⟨C + 1, hQ.eventually_forall_of_forall_eventually (P := fun θ x => g (θ, x) ≤ C + 1) (fun x hx => ?_)⟩
  have h1 : g (θ₀, x) < C + 1 := lt_of_le_of_lt (hC ⟨x, hx, rfl⟩) (by linarith)
  exact (hg.continuousAt.eventually_lt continuousAt_const h1).mono (fun z hz => hz.le)

/-- The samples with scores `-log(a / p + b) / T`. -/
noncomputable def ratios (T : E → ℝ) (p : E → Fin m → Fin K → ℝ) (a b : Fin m → Fin K → ℝ) (θ : E) (r : Fin m) : Fin K → ℝ :=
  ofExpo (T θ) (fun i => a r i / p θ r i + b r i)

theorem ratios_mem (T : E → ℝ) (p : E → Fin m → Fin K → ℝ) (a b : Fin m → Fin K → ℝ) (θ : E) (r : Fin m) (i : Fin K) :
    ratios T p a b θ r i ∈ Set.Icc (0 : ℝ) 1 := by
  rw [ratios, ofExpo]; exact ⟨normalise_nonneg _ i, normalise_le_one _ i⟩

theorem pi_expand (x' : Fin m → Fin K → ℝ) :
    x' = ∑ r, ∑ i, x' r i • (Pi.single r (Pi.single i (1 : ℝ)) : Fin m → Fin K → ℝ) := by
  funext r i
  simp only [Finset.sum_apply, Pi.smul_apply, smul_eq_mul]
  rw [Finset.sum_eq_single r, Finset.sum_eq_single i]
  · simp
  · intro k _ hk; simp [hk.symm]
  · simp
  · intro k _ hk; simp [hk.symm]
  · simp

/-- The chain rule, written with coordinates. -/
theorem comp_expand (L : (E × (Fin m → Fin K → ℝ)) →L[ℝ] ℝ) (x' : Fin m → Fin K → E →L[ℝ] ℝ) :
    L.comp ((ContinuousLinearMap.id ℝ E).prod
      (ContinuousLinearMap.pi (fun r => ContinuousLinearMap.pi (fun i => x' r i)))) =
    L.comp (ContinuousLinearMap.inl ℝ E (Fin m → Fin K → ℝ)) +
      ∑ r, ∑ i, L (0, Pi.single r (Pi.single i 1)) • x' r i := by
  refine ContinuousLinearMap.ext (fun y => ?_)
  have hy := pi_expand (fun r i => x' r i y)
  have hsplit : (y, fun r i => x' r i y) = (y, (0 : Fin m → Fin K → ℝ)) + ∑ r, ∑ i, (x' r i y) •
      ((0 : E), (Pi.single r (Pi.single i (1 : ℝ)) : Fin m → Fin K → ℝ)) := by
    refine Prod.ext ?_ ?_
    · simp [Prod.fst_sum]
    · rw [Prod.snd_add, Prod.snd_sum, zero_add]
      refine hy.trans (Finset.sum_congr rfl (fun r _ => ?_))
      rw [Prod.snd_sum]
      exact Finset.sum_congr rfl (fun i _ => rfl)
  have h1 : (L.comp ((ContinuousLinearMap.id ℝ E).prod
      (ContinuousLinearMap.pi (fun r => ContinuousLinearMap.pi (fun i => x' r i))))) y = L (y, fun r i => x' r i y) := rfl
  rw [h1, hsplit, map_add, map_sum, add_apply, sum_apply]
  refine congrArg₂ (· + ·) rfl (Finset.sum_congr rfl (fun r _ => ?_))
  rw [map_sum, sum_apply]
  refine Finset.sum_congr rfl (fun i _ => ?_)
  rw [map_smul, smul_eq_mul, mul_comm]
  rfl

/-- Smooth functions of such samples can be differentiated under the expectation. -/
theorem regular_ratios {Ω : Type*} [MeasurableSpace Ω] {μ : Measure Ω} [IsProbabilityMeasure μ] {T : E → ℝ}
    {p : E → Fin m → Fin K → ℝ} {a b : Ω → Fin m → Fin K → ℝ} (ha : Measurable a) (hb : Measurable b)
    (hpos : ∀ᵐ ω ∂μ, ∀ r i, 0 ≤ a ω r i ∧ 0 ≤ b ω r i ∧ 0 < a ω r i + b ω r i)
    (hlog : ∀ r i, Integrable (fun ω => |Real.log (a ω r i + b ω r i)|) μ) (hp : ∀ r i, ContDiffAt ℝ 1 (fun θ => p θ r i) θ₀)
    (hp1 : ∀ᶠ θ in 𝓝 θ₀, ∀ r i, 0 < p θ r i ∧ p θ r i ≤ 1) (hT : ContDiffAt ℝ 1 T θ₀) (hT0 : 0 < T θ₀)
    {N : E → (Fin m → Fin K → ℝ) → ℝ} (hN : ContDiff ℝ 1 (fun q : E × (Fin m → Fin K → ℝ) => N q.1 q.2)) :
    Regular μ (fun θ ω => N θ (ratios T p (a ω) (b ω) θ)) θ₀ := by
  set Q : Set (Fin m → Fin K → ℝ) := Set.univ.pi (fun _ => Set.univ.pi (fun _ => Set.Icc 0 1)) with hQ
  have hQc : IsCompact Q := isCompact_univ_pi (fun _ => isCompact_univ_pi (fun _ => isCompact_Icc))
  have hX : ∀ θ ω, ratios T p (a ω) (b ω) θ ∈ Q := fun θ ω r _ i _ =>
    ratios_mem T p (a ω) (b ω) θ r i
  have hNc : Continuous (fun q : E × (Fin m → Fin K → ℝ) => N q.1 q.2) := hN.continuous
  have hNd : Differentiable ℝ (fun q : E × (Fin m → Fin K → ℝ) => N q.1 q.2) := hN.differentiable (by norm_num)
  have hNf : Continuous (fderiv ℝ (fun q : E × (Fin m → Fin K → ℝ) => N q.1 q.2)) := hN.continuous_fderiv (by norm_num)
  obtain ⟨C1, hC1⟩ := bounded_near (g := fun q => ‖N q.1 q.2‖) hNc.norm hQc θ₀
  obtain ⟨C2, hC2⟩ := bounded_near (g := fun q => ‖fderiv ℝ (fun q : E × (Fin m → Fin K → ℝ) => N q.1 q.2) q‖) hNf.norm hQc θ₀
  have hmX : ∀ θ, Measurable (fun ω => ratios T p (a ω) (b ω) θ) := by
    intro θ
    refine measurable_pi_lambda _ (fun r => ?_)
    refine (measurable_ofExpo (T θ)).comp (measurable_pi_lambda _ (fun i => ?_))
    exact ((((measurable_pi_apply i).comp ((measurable_pi_apply r).comp ha))).div_const _).add
      ((measurable_pi_apply i).comp ((measurable_pi_apply r).comp hb))
  -- the constants
  set B1 : E → ℝ := fun θ => ∑ r, ∑ i, (1 / p θ r i + ‖fderiv ℝ (fun θ => p θ r i) θ‖) + (1 / T θ + ‖fderiv ℝ T θ‖) with hB1
  have hB1c : ContinuousAt B1 θ₀ := by
    refine ContinuousAt.add ?_ ?_
    · refine tendsto_finsetSum _ (fun r _ => tendsto_finsetSum _ (fun i _ => ?_))
      refine Filter.Tendsto.add ?_ ?_
      · exact (continuousAt_const (y := (1 : ℝ))).div (hp r i).continuousAt (hp1.self_of_nhds r i).1.ne'
      · exact ((hp r i).continuousAt_fderiv (by norm_num)).norm
    · refine ContinuousAt.add ?_ ?_
      · exact continuousAt_const.div hT.continuousAt hT0.ne'
      · exact (hT.continuousAt_fderiv (by norm_num)).norm
  set C := B1 θ₀ + 1 with hC
  have hnear : ∀ᶠ θ in 𝓝 θ₀, (∀ r i, 0 < p θ r i ∧ p θ r i ≤ 1 ∧ 1 / p θ r i ≤ C ∧
      DifferentiableAt ℝ (fun θ => p θ r i) θ ∧ ‖fderiv ℝ (fun θ => p θ r i) θ‖ ≤ C) ∧ 0 < T θ ∧ 1 / T θ ≤ C ∧
      DifferentiableAt ℝ T θ ∧ ‖fderiv ℝ T θ‖ ≤ C := by
    have e1 : ∀ᶠ θ in 𝓝 θ₀, B1 θ < C := hB1c.eventually_lt continuousAt_const (by rw [hC]; linarith)
    have e2 : ∀ᶠ θ in 𝓝 θ₀, 0 < T θ := continuousAt_const.eventually_lt hT.continuousAt hT0
    have e3 : ∀ᶠ θ in 𝓝 θ₀, ∀ r i, ContDiffAt ℝ 1 (fun θ => p θ r i) θ := by
      rw [Filter.eventually_all]; intro r
      rw [Filter.eventually_all]; intro i
      exact (hp r i).eventually (by simp)
    have e4 : ∀ᶠ θ in 𝓝 θ₀, ContDiffAt ℝ 1 T θ := hT.eventually (by simp)
    filter_upwards [e1, e2, e3, e4, hp1] with θ a1 a2 a3 a4 a5
    have t0 : 0 ≤ 1 / T θ := by positivity
    have q0 : ∀ r i, 0 ≤ 1 / p θ r i := fun r i => by have := (a5 r i).1; positivity
    have s0 : ∀ r, ∀ i ∈ Finset.univ, 0 ≤ 1 / p θ r i + ‖fderiv ℝ (fun θ => p θ r i) θ‖ := fun r i _ =>
      add_nonneg (q0 r i) (norm_nonneg _)
    have hle : ∀ r i, 1 / p θ r i + ‖fderiv ℝ (fun θ => p θ r i) θ‖ ≤
        ∑ r, ∑ i, (1 / p θ r i + ‖fderiv ℝ (fun θ => p θ r i) θ‖) := fun r i =>
      (Finset.single_le_sum (s0 r) (Finset.mem_univ i)).trans
        (Finset.single_le_sum (f := fun r => ∑ i, (1 / p θ r i + ‖fderiv ℝ (fun θ => p θ r i) θ‖))
          (fun r _ => Finset.sum_nonneg (s0 r)) (Finset.mem_univ r))
    have hs0 : 0 ≤ ∑ r, ∑ i, (1 / p θ r i + ‖fderiv ℝ (fun θ => p θ r i) θ‖) :=
      Finset.sum_nonneg (fun r _ => Finset.sum_nonneg (s0 r))
    have nT := norm_nonneg (fderiv ℝ T θ)
    simp only [hB1] at a1
    refine ⟨fun r i => ⟨(a5 r i).1, (a5 r i).2, ?_, (a3 r i).differentiableAt (by norm_num), ?_⟩, a2, ?_,
      a4.differentiableAt (by norm_num), ?_⟩
    · have h1 := hle r i; have := norm_nonneg (fderiv ℝ (fun θ => p θ r i) θ); linarith
    · have h1 := hle r i; have := q0 r i; linarith
    · linarith
    · linarith
  -- the derivative of the samples
  set s' : E → Ω → Fin m → Fin K → E →L[ℝ] ℝ := fun θ ω r i =>
    (a ω r i / (T θ * p θ r i ^ 2 * (a ω r i / p θ r i + b ω r i))) • fderiv ℝ (fun θ => p θ r i) θ +
      (Real.log (a ω r i / p θ r i + b ω r i) / T θ ^ 2) • fderiv ℝ T θ with hs'
  set x' : E → Ω → Fin m → Fin K → E →L[ℝ] ℝ := fun θ ω r i =>
    ratios T p (a ω) (b ω) θ r i • (s' θ ω r i - ∑ k, ratios T p (a ω) (b ω) θ r k • s' θ ω r k) with hx'
  set X' : E → Ω → E →L[ℝ] (Fin m → Fin K → ℝ) := fun θ ω =>
    ContinuousLinearMap.pi (fun r => ContinuousLinearMap.pi (fun i => x' θ ω r i)) with hX'
  set M : Ω → ℝ := fun ω => ∑ r, ∑ i, C ^ 3 * (1 + C + |Real.log (a ω r i + b ω r i)|) with hM
  set D : E × (Fin m → Fin K → ℝ) → (E × (Fin m → Fin K → ℝ)) →L[ℝ] ℝ := fderiv ℝ (fun q => N q.1 q.2) with hD
  have hder : ∀ᵐ ω ∂μ, ∀ θ, ((∀ r i, 0 < p θ r i ∧ p θ r i ≤ 1 ∧ 1 / p θ r i ≤ C ∧
      DifferentiableAt ℝ (fun θ => p θ r i) θ ∧ ‖fderiv ℝ (fun θ => p θ r i) θ‖ ≤ C) ∧ 0 < T θ ∧ 1 / T θ ≤ C ∧
      DifferentiableAt ℝ T θ ∧ ‖fderiv ℝ T θ‖ ≤ C) →
      HasFDerivAt (fun θ => N θ (ratios T p (a ω) (b ω) θ))
        ((D (θ, ratios T p (a ω) (b ω) θ)).comp ((ContinuousLinearMap.id ℝ E).prod (X' θ ω))) θ ∧
      ‖X' θ ω‖ ≤ 2 * M ω := by
    filter_upwards [hpos] with ω hω θ hθ
    obtain ⟨h1, h2, h3, h4, h5⟩ := hθ
    have hb' : ∀ r i, 0 < a ω r i / p θ r i + b ω r i ∧ ‖s' θ ω r i‖ ≤ C ^ 3 * (1 + C + |Real.log (a ω r i + b ω r i)|) :=
      fun r i => score_bound (hω r i).1 (hω r i).2.1 (hω r i).2.2 (h1 r i).1 (h1 r i).2.1 h2 (h1 r i).2.2.1
        (h1 r i).2.2.2.2 h3 h5
    have hxd : ∀ r i, HasFDerivAt (fun θ => ratios T p (a ω) (b ω) θ r i) (x' θ ω r i) θ := fun r i =>
      normalise_deriv (s := fun θ i => -Real.log (a ω r i / p θ r i + b ω r i) / T θ) (s' := s' θ ω r)
        (fun k => score_deriv (h1 r k).2.2.2.1.hasFDerivAt h4.hasFDerivAt (h1 r k).1 h2 (hb' r k).1) i
    have hXd : HasFDerivAt (fun θ => ratios T p (a ω) (b ω) θ) (X' θ ω) θ :=
      hasFDerivAt_pi.2 (fun r => hasFDerivAt_pi.2 (fun i => hxd r i))
    constructor
    · exact ((hNd (θ, ratios T p (a ω) (b ω) θ)).hasFDerivAt.comp θ ((hasFDerivAt_id θ).prodMk hXd))
    · have hC1 : 0 ≤ C := (show (0 : ℝ) ≤ 1 / T θ by positivity).trans h3
      have hterm : ∀ r, ∀ i ∈ Finset.univ, 0 ≤ C ^ 3 * (1 + C + |Real.log (a ω r i + b ω r i)|) := fun r i _ => by positivity
      have hsM : ∀ r i, ‖s' θ ω r i‖ ≤ M ω := fun r i => (hb' r i).2.trans
        ((Finset.single_le_sum (f := fun i => C ^ 3 * (1 + C + |Real.log (a ω r i + b ω r i)|)) (hterm r)
          (Finset.mem_univ i)).trans
          (Finset.single_le_sum (f := fun r => ∑ i, C ^ 3 * (1 + C + |Real.log (a ω r i + b ω r i)|))
            (fun r _ => Finset.sum_nonneg (hterm r)) (Finset.mem_univ r)))
      have hM0 : 0 ≤ M ω := Finset.sum_nonneg (fun r _ => Finset.sum_nonneg (hterm r))
      refine ContinuousLinearMap.opNorm_le_bound _ (by positivity) (fun y => ?_)
      rw [pi_norm_le_iff_of_nonneg (by positivity)]
      intro r
      rw [pi_norm_le_iff_of_nonneg (by positivity)]
      intro i
      have hx : ‖x' θ ω r i‖ ≤ 2 * M ω :=
        normalise_bound (s := fun i => -Real.log (a ω r i / p θ r i + b ω r i) / T θ) (hsM r) i
      exact (ContinuousLinearMap.le_opNorm (x' θ ω r i) y).trans (mul_le_mul_of_nonneg_right hx (norm_nonneg y))
  refine ⟨?_, ?_, ?_⟩
  · filter_upwards [hC1] with θ hθ
    refine Integrable.of_bound (C := C1) ?_ (.of_forall fun ω => hθ _ (hX θ ω))
    have : Continuous (fun x => N θ x) := by
      have h1 : Continuous (fun x : Fin m → Fin K → ℝ => (θ, x)) := by fun_prop
      exact hNc.comp h1
    exact (this.measurable.comp (hmX θ)).aestronglyMeasurable
  · -- measurability of the derivative
    have e : (fun ω => fderiv ℝ (fun θ => N θ (ratios T p (a ω) (b ω) θ)) θ₀) =ᵐ[μ] fun ω =>
        (D (θ₀, ratios T p (a ω) (b ω) θ₀)).comp (ContinuousLinearMap.inl ℝ E (Fin m → Fin K → ℝ)) +
        ∑ r, ∑ i, D (θ₀, ratios T p (a ω) (b ω) θ₀) (0, Pi.single r (Pi.single i 1)) • x' θ₀ ω r i := by
      filter_upwards [hder] with ω hω
      rw [(hω θ₀ hnear.self_of_nhds).1.fderiv]
      exact comp_expand _ _
    refine AEStronglyMeasurable.congr ?_ e.symm
    have hDc : Continuous (fun x : Fin m → Fin K → ℝ => D (θ₀, x)) := by
      have h1 : Continuous (fun x : Fin m → Fin K → ℝ => (θ₀, x)) := by fun_prop
      exact hNf.comp h1
    have hDm : AEStronglyMeasurable (fun ω => D (θ₀, ratios T p (a ω) (b ω) θ₀)) μ :=
      (hDc.stronglyMeasurable.comp_measurable (hmX θ₀)).aestronglyMeasurable
    have hma : ∀ r i, Measurable (fun ω => a ω r i) := fun r i => (measurable_pi_apply i).comp ((measurable_pi_apply r).comp ha)
    have hmb : ∀ r i, Measurable (fun ω => b ω r i) := fun r i => (measurable_pi_apply i).comp ((measurable_pi_apply r).comp hb)
    have hmt : ∀ r i, Measurable (fun ω => a ω r i / p θ₀ r i + b ω r i) := fun r i => ((hma r i).div_const _).add (hmb r i)
    have hmx : ∀ r i, Measurable (fun ω => ratios T p (a ω) (b ω) θ₀ r i) := fun r i =>
      (measurable_pi_apply i).comp ((measurable_pi_apply r).comp (hmX θ₀))
    have hms : ∀ r i, AEStronglyMeasurable (fun ω => s' θ₀ ω r i) μ := fun r i =>
      (((hma r i).div ((hmt r i).const_mul _)).aestronglyMeasurable.smul_const _).add
        (((Real.measurable_log.comp (hmt r i)).div_const _).aestronglyMeasurable.smul_const _)
    have hmx' : ∀ r i, AEStronglyMeasurable (fun ω => x' θ₀ ω r i) μ := fun r i =>
      (hmx r i).aestronglyMeasurable.smul ((hms r i).sub
        (Finset.aestronglyMeasurable_fun_sum _ (fun k _ => (hmx r k).aestronglyMeasurable.smul (hms r k))))
    refine AEStronglyMeasurable.add ?_ ?_
    · have : Continuous (fun L : (E × (Fin m → Fin K → ℝ)) →L[ℝ] ℝ =>
          L.comp (ContinuousLinearMap.inl ℝ E (Fin m → Fin K → ℝ))) := by fun_prop
      exact this.comp_aestronglyMeasurable hDm
    · refine Finset.aestronglyMeasurable_fun_sum _ (fun r _ => Finset.aestronglyMeasurable_fun_sum _ (fun i _ => ?_))
      have hev : Continuous (fun L : (E × (Fin m → Fin K → ℝ)) →L[ℝ] ℝ => L (0, Pi.single r (Pi.single i 1))) := by
        fun_prop
      have hev' : AEStronglyMeasurable
          (fun ω => D (θ₀, ratios T p (a ω) (b ω) θ₀) (0, Pi.single r (Pi.single i 1))) μ := hev.comp_aestronglyMeasurable hDm
      exact hev'.smul (hmx' r i)
  · refine ⟨_, hnear.and hC2, fun ω => C2 * (1 + 2 * M ω), ?_, ?_⟩
    · refine Integrable.const_mul ((integrable_const 1).add (Integrable.const_mul ?_ 2)) C2
      refine integrable_finsetSum _ (fun r _ => integrable_finsetSum _ (fun i _ => ?_))
      exact Integrable.const_mul ((integrable_const (1 + C)).add (hlog r i)) _
    · filter_upwards [hder] with ω hω θ hθ
      obtain ⟨d1, d2⟩ := hω θ hθ.1
      refine ⟨d1.differentiableAt, ?_⟩
      rw [d1.fderiv]
      have hD2 : ‖D (θ, ratios T p (a ω) (b ω) θ)‖ ≤ C2 := hθ.2 _ (hX θ ω)
      have hC20 : 0 ≤ C2 := (norm_nonneg _).trans hD2
      have hM0 : 0 ≤ 2 * M ω := (norm_nonneg _).trans d2
      refine (ContinuousLinearMap.opNorm_comp_le _ _).trans (mul_le_mul hD2 ?_ (norm_nonneg _) hC20)
      refine ContinuousLinearMap.opNorm_le_bound _ (by linarith) (fun y => ?_)
      rw [ContinuousLinearMap.prod_apply, Prod.norm_def, max_le_iff]
      have hy := norm_nonneg y
      constructor
      · simp only [ContinuousLinearMap.id_apply]; nlinarith
      · refine (ContinuousLinearMap.le_opNorm (X' θ ω) y).trans ?_
        exact mul_le_mul_of_nonneg_right (by linarith) hy

end

end Storch
