import Mathlib.Analysis.Calculus.Rademacher
import Mathlib.MeasureTheory.Function.Jacobian
import Mathlib.Analysis.Calculus.FDeriv.Measurable
import Verif.Lemmas.EntmaxLemmas
import Verif.Lemmas.RelaxRegular

/-!
# Derivatives of the α-entmax

For `1 < α ≤ 2` it is Lipschitz, hence differentiable at almost every vector (Rademacher), and expectations of functions of it
can be differentiated.
-/

namespace Storch
open MeasureTheory Topology Gumbel

namespace Entmax
variable {d : Nat}

/-- Powers below one grow at least linearly on the unit interval. -/
theorem pow_grows {a : ℝ} (ha : 1 < a) (ha2 : a ≤ 2) {p q : ℝ} (hq : 0 ≤ q) (hqp : q ≤ p) (hp : p ≤ 1) :
    (a - 1) * (p - q) ≤ p ^ (a - 1) - q ^ (a - 1) := by
  rcases hq.eq_or_lt with rfl | hq0
  · rw [Real.zero_rpow (by linarith), sub_zero, sub_zero]
    rcases hqp.eq_or_lt with rfl | hp0
    · rw [mul_zero]; exact Real.rpow_nonneg le_rfl _
    · have h1 : p ≤ p ^ (a - 1) := by
        have := Real.rpow_le_rpow_of_exponent_ge hp0 hp (show a - 1 ≤ 1 by linarith)
        rwa [Real.rpow_one] at this
      nlinarith
  · rcases hqp.eq_or_lt with rfl | hlt
    · simp
    · have hcont : ContinuousOn (fun x : ℝ => x ^ (a - 1)) (Set.Icc q p) :=
        continuousOn_id.rpow_const (fun x hx => Or.inl (lt_of_lt_of_le hq0 hx.1).ne')
      have hder : ∀ x ∈ Set.Ioo q p, HasDerivAt (fun x : ℝ => x ^ (a - 1)) ((a - 1) * x ^ (a - 1 - 1)) x := fun x hx =>
        Real.hasDerivAt_rpow_const (Or.inl (hq0.trans hx.1).ne')
      obtain ⟨c, hc, he⟩ := exists_hasDerivAt_eq_slope _ _ hlt hcont hder
      have hc0 : 0 < c := hq0.trans hc.1
      have h1 : 1 ≤ c ^ (a - 1 - 1) := by
        have := Real.rpow_le_rpow_of_exponent_ge hc0 (hc.2.le.trans hp) (show a - 1 - 1 ≤ 0 by linarith)
        rwa [Real.rpow_zero] at this
      have hpq : 0 < p - q := by linarith
      rw [eq_div_iff hpq.ne'] at he
      rw [← he]
      have : (a - 1) * 1 ≤ (a - 1) * c ^ (a - 1 - 1) := mul_le_mul_of_nonneg_left h1 (by linarith)
      nlinarith

theorem Simplex.le_one {p : Fin d → ℝ} (h : Simplex p) (i : Fin d) : p i ≤ 1 := by
  rw [← h.2]
  exact Finset.single_le_sum (f := p) (fun i _ => h.1 i) (Finset.mem_univ i)

/-- The variational inequality of the maximiser. -/
theorem IsEntmax.variation {a : ℝ} (ha : 1 < a) {x p q : Fin d → ℝ} (h : IsEntmax a x p) (hq : Simplex q) :
    ∑ i, (x i - p i ^ (a - 1) / (a - 1)) * (q i - p i) ≤ 0 := by
  obtain ⟨τ, hτ, rfl⟩ := h.threshold ha
  have ha' : 0 < a - 1 := by linarith
  have hz : ∑ i, τ / (a - 1) * (q i - above a x τ i) = 0 := by
    rw [← Finset.mul_sum, Finset.sum_sub_distrib, hτ.2, hq.2, sub_self, mul_zero]
  rw [← hz]
  refine Finset.sum_le_sum (fun i _ => ?_)
  rw [above_pow ha]
  by_cases hc : 0 ≤ (a - 1) * x i - τ
  · rw [max_eq_left hc]
    refine le_of_eq ?_
    field_simp
    ring
  · have hc := not_le.1 hc
    have hp0 : above a x τ i = 0 := by rw [above, max_eq_right hc.le, Real.zero_rpow (by positivity)]
    rw [max_eq_right hc.le, zero_div, sub_zero, hp0, sub_zero]
    refine mul_le_mul_of_nonneg_right ?_ (hq.1 i)
    rw [le_div_iff₀ ha']
    linarith

/-- The entmax is monotone in the strong sense. -/
theorem IsEntmax.strong {a : ℝ} (ha : 1 < a) (ha2 : a ≤ 2) {x y p q : Fin d → ℝ} (hp : IsEntmax a x p) (hq : IsEntmax a y q) :
    ∑ i, (p i - q i) ^ 2 ≤ ∑ i, (x i - y i) * (p i - q i) := by
  have ha' : 0 < a - 1 := by linarith
  have h1 := hp.variation ha hq.1
  have h2 := hq.variation ha hp.1
  have h3 : ∑ i, (p i - q i) ^ 2 ≤ ∑ i, (p i ^ (a - 1) / (a - 1) - q i ^ (a - 1) / (a - 1)) * (p i - q i) := by
    refine Finset.sum_le_sum (fun i _ => ?_)
    rw [← sub_div]
    rcases le_total (q i) (p i) with h | h
    · have := pow_grows ha ha2 (hq.1.1 i) h (hp.1.le_one i)
      have h4 : p i - q i ≤ (p i ^ (a - 1) - q i ^ (a - 1)) / (a - 1) := by rw [le_div_iff₀ ha']; linarith
      have := mul_le_mul_of_nonneg_right h4 (show 0 ≤ p i - q i by linarith)
      nlinarith
    · have := pow_grows ha ha2 (hp.1.1 i) h (hq.1.le_one i)
      have h4 : (p i ^ (a - 1) - q i ^ (a - 1)) / (a - 1) ≤ p i - q i := by rw [div_le_iff₀ ha']; linarith
      have := mul_le_mul_of_nonpos_right h4 (show p i - q i ≤ 0 by linarith)
      nlinarith
  refine h3.trans ?_
  have h4 : ∑ i, (x i - y i) * (p i - q i) - ∑ i, (p i ^ (a - 1) / (a - 1) - q i ^ (a - 1) / (a - 1)) * (p i - q i) =
      -(∑ i, (x i - p i ^ (a - 1) / (a - 1)) * (q i - p i)) - ∑ i, (y i - q i ^ (a - 1) / (a - 1)) * (p i - q i) := by
    rw [← Finset.sum_neg_distrib, ← Finset.sum_sub_distrib, ← Finset.sum_sub_distrib]
    refine Finset.sum_congr rfl (fun i _ => ?_)
    ring
  linarith

/-- The entmax is Lipschitz. -/
theorem lipschitz {a : ℝ} (ha : 1 < a) (ha2 : a ≤ 2) {G : (Fin d → ℝ) → Fin d → ℝ} (hG : ∀ x, IsEntmax a x (G x)) :
    LipschitzWith d G := by
  refine LipschitzWith.of_dist_le_mul (fun x y => ?_)
  rw [dist_eq_norm, dist_eq_norm]
  set M := ‖G x - G y‖ with hM
  have hs := (hG x).strong ha ha2 (hG y)
  have h1 : ∑ i, (x i - y i) * (G x i - G y i) ≤ d * (‖x - y‖ * M) := by
    have : ∀ i ∈ (Finset.univ : Finset (Fin d)), (x i - y i) * (G x i - G y i) ≤ ‖x - y‖ * M := by
      intro i _
      refine (le_abs_self _).trans ?_
      rw [abs_mul]
      exact mul_le_mul (norm_le_pi_norm (x - y) i) (norm_le_pi_norm (G x - G y) i) (abs_nonneg _) (norm_nonneg _)
    refine (Finset.sum_le_sum this).trans_eq ?_
    simp
  have h2 : ∀ i, |G x i - G y i| ^ 2 ≤ d * (‖x - y‖ * M) := fun i => by
    rw [sq_abs]
    exact (Finset.single_le_sum (f := fun i => (G x i - G y i) ^ 2) (fun i _ => sq_nonneg _) (Finset.mem_univ i)).trans
      (hs.trans h1)
  have hM0 : 0 ≤ M := norm_nonneg _
  have h3 : M ^ 2 ≤ d * (‖x - y‖ * M) := by
    have hR : 0 ≤ (d : ℝ) * (‖x - y‖ * M) := by positivity
    have : M ≤ Real.sqrt (d * (‖x - y‖ * M)) := by
      refine (pi_norm_le_iff_of_nonneg (Real.sqrt_nonneg _)).2 (fun i => ?_)
      exact Real.le_sqrt_of_sq_le (h2 i)
    calc M ^ 2 ≤ Real.sqrt (d * (‖x - y‖ * M)) ^ 2 := by gcongr
      _ = _ := Real.sq_sqrt hR
  rcases hM0.eq_or_lt with h | h
  · rw [← h]
    positivity
  · have : M * M ≤ d * ‖x - y‖ * M := by nlinarith
    simpa using le_of_mul_le_mul_right this h

end Entmax

/-- The Gumbel variable with location zero. -/
noncomputable def stdGum (u : ℝ) : ℝ := -Real.log (-Real.log u)

theorem measurable_stdGum : Measurable stdGum := (Real.measurable_log.comp Real.measurable_log.neg).neg

theorem stdGum_inv {u : ℝ} (hu : u ∈ Set.Ioo (0 : ℝ) 1) : Real.exp (-Real.exp (-stdGum u)) = u := by
  have : 0 < -Real.log u := by have := Real.log_neg hu.1 hu.2; linarith
  rw [stdGum, neg_neg, Real.exp_log this, neg_neg, Real.exp_log hu.1]

/-- A Lipschitz function is differentiable at almost all scaled and shifted Gumbel vectors. -/
theorem ae_differentiable {K : Nat} {C : NNReal} {G : (Fin K → ℝ) → Fin K → ℝ} (hG : LipschitzWith C G) {T : ℝ} (hT : 0 < T)
    (c : Fin K → ℝ) : ∀ᵐ u ∂cube K, DifferentiableAt ℝ G (fun i => (c i + stdGum (u i)) / T) := by
  have hN : volume {x | ¬ DifferentiableAt ℝ G x} = 0 := by
    have := hG.ae_differentiableAt (μ := volume)
    rwa [ae_iff] at this
  set H : (Fin K → ℝ) → Fin K → ℝ := fun x i => Real.exp (-Real.exp (-(T * x i - c i))) with hH
  have hHd : Differentiable ℝ H := by
    refine differentiable_pi.2 (fun i => ?_)
    exact ((((differentiable_apply i).const_mul T).sub_const (c i)).neg.exp).neg.exp
  have h0 := addHaar_image_eq_zero_of_differentiableOn_of_addHaar_eq_zero (μ := volume)
    (s := {x | ¬ DifferentiableAt ℝ G x}) hHd.differentiableOn hN
  have hac : cube K ≪ volume := by
    rw [cube]
    unfold unif
    rw [← Measure.restrict_pi_pi]
    exact Measure.restrict_le_self.absolutelyContinuous
  have h1 : ∀ᵐ u ∂cube K, u ∉ H '' {x | ¬ DifferentiableAt ℝ G x} := by
    rw [ae_iff]
    simp only [not_not]
    exact hac h0
  filter_upwards [h1, cube_mem K] with u h2 hu
  by_contra h3
  refine h2 ⟨_, h3, ?_⟩
  funext i
  simp only [hH]
  rw [mul_div_cancel₀ _ hT.ne', add_sub_cancel_left, stdGum_inv (hu i)]

section
variable {E : Type*} [NormedAddCommGroup E] [NormedSpace ℝ E] {θ₀ : E} {m K : Nat}

/-- Expectations of smooth functions of a bounded Lipschitz function of shifted noise can be differentiated. -/
theorem lipschitz_deriv {Ω : Type*} [MeasurableSpace Ω] {μ : Measure Ω} [IsProbabilityMeasure μ] {C : NNReal}
    {Φ : (Fin m → Fin K → ℝ) → Fin m → Fin K → ℝ} (hΦ : LipschitzWith C Φ) (hbox : ∀ x r i, Φ x r i ∈ Set.Icc (0 : ℝ) 1)
    {v : Ω → Fin m → Fin K → ℝ} (hv : Measurable v) {l : E → Fin m → Fin K → ℝ} (hl : ContDiffAt ℝ 1 l θ₀) (T : ℝ)
    (hd : ∀ᵐ ω ∂μ, DifferentiableAt ℝ Φ (T⁻¹ • (l θ₀ + v ω))) {f : E → (Fin m → Fin K → ℝ) → ℝ}
    (hf : ContDiff ℝ 1 (fun q : E × (Fin m → Fin K → ℝ) => f q.1 q.2)) :
    (∀ᵐ ω ∂μ, DifferentiableAt ℝ (fun θ => f θ (Φ (T⁻¹ • (l θ + v ω)))) θ₀) ∧
      Integrable (fun ω => fderiv ℝ (fun θ => f θ (Φ (T⁻¹ • (l θ + v ω)))) θ₀) μ ∧
      HasFDerivAt (fun θ => ∫ ω, f θ (Φ (T⁻¹ • (l θ + v ω))) ∂μ)
        (∫ ω, fderiv ℝ (fun θ => f θ (Φ (T⁻¹ • (l θ + v ω)))) θ₀ ∂μ) θ₀ := by
  set N : E × (Fin m → Fin K → ℝ) → ℝ := fun q => f q.1 q.2 with hN
  set Q : Set (Fin m → Fin K → ℝ) := Set.univ.pi (fun _ => Set.univ.pi (fun _ => Set.Icc 0 1)) with hQ
  have hQc : IsCompact Q := isCompact_univ_pi (fun _ => isCompact_univ_pi (fun _ => isCompact_Icc))
  have hQx : Convex ℝ Q := convex_pi (fun _ _ => convex_pi (fun _ _ => convex_Icc 0 1))
  have hX : ∀ x, Φ x ∈ Q := fun x r _ i _ => hbox x r i
  have hNd : Differentiable ℝ N := hf.differentiable (by norm_num)
  have hNf : Continuous (fderiv ℝ N) := hf.continuous_fderiv (by norm_num)
  obtain ⟨C1, hC1⟩ := bounded_near (g := fun q => ‖N q‖) hf.continuous.norm hQc θ₀
  obtain ⟨C2, hC2⟩ := bounded_near (g := fun q => ‖fderiv ℝ N q‖) hNf.norm hQc θ₀
  obtain ⟨L, s, hs, hL⟩ := hl.exists_lipschitzOnWith
  obtain ⟨δ, hδ, hball⟩ := Metric.mem_nhds_iff.1 (Filter.inter_mem (Filter.inter_mem hC1 hC2) hs)
  have hx0 : θ₀ ∈ Metric.ball θ₀ δ := Metric.mem_ball_self hδ
  have hmx : ∀ θ, Measurable (fun ω => T⁻¹ • (l θ + v ω)) := fun θ =>
    (measurable_const_smul T⁻¹).comp (measurable_const.add hv)
  have hmΦ : ∀ θ, Measurable (fun ω => Φ (T⁻¹ • (l θ + v ω))) := fun θ => hΦ.continuous.measurable.comp (hmx θ)
  have hmF : ∀ θ, AEStronglyMeasurable (fun ω => f θ (Φ (T⁻¹ • (l θ + v ω)))) μ := fun θ => by
    have hc : Continuous (fun x => f θ x) := hf.continuous.comp (continuous_const.prodMk continuous_id)
    exact (hc.measurable.comp (hmΦ θ)).aestronglyMeasurable
  set A : E →L[ℝ] (Fin m → Fin K → ℝ) := T⁻¹ • fderiv ℝ l θ₀ with hA
  set F' : Ω → E →L[ℝ] ℝ := fun ω => (fderiv ℝ N (θ₀, Φ (T⁻¹ • (l θ₀ + v ω)))).comp
    ((ContinuousLinearMap.id ℝ E).prod ((fderiv ℝ Φ (T⁻¹ • (l θ₀ + v ω))).comp A)) with hF'
  have hder : ∀ᵐ ω ∂μ, HasFDerivAt (fun θ => f θ (Φ (T⁻¹ • (l θ + v ω)))) (F' ω) θ₀ := by
    filter_upwards [hd] with ω hω
    have h1 : HasFDerivAt (fun θ => T⁻¹ • (l θ + v ω)) A θ₀ :=
      (((hl.differentiableAt (by norm_num)).hasFDerivAt).add_const (v ω)).const_smul T⁻¹
    have h2 := hω.hasFDerivAt.comp θ₀ h1
    exact (hNd (θ₀, Φ (T⁻¹ • (l θ₀ + v ω)))).hasFDerivAt.comp θ₀ ((hasFDerivAt_id θ₀).prodMk h2)
  have hmF' : AEStronglyMeasurable F' μ := by
    have hc : Continuous (fun z : (Fin m → Fin K → ℝ) × ((Fin m → Fin K → ℝ) →L[ℝ] (Fin m → Fin K → ℝ)) =>
        (fderiv ℝ N (θ₀, z.1)).comp ((ContinuousLinearMap.id ℝ E).prod (z.2.comp A))) := by
      refine Continuous.clm_comp (hNf.comp (continuous_const.prodMk continuous_fst)) ?_
      have : (fun z : (Fin m → Fin K → ℝ) × ((Fin m → Fin K → ℝ) →L[ℝ] (Fin m → Fin K → ℝ)) =>
          (ContinuousLinearMap.id ℝ E).prod (z.2.comp A)) = fun z =>
          (ContinuousLinearMap.inl ℝ E (Fin m → Fin K → ℝ)) +
            (ContinuousLinearMap.inr ℝ E (Fin m → Fin K → ℝ)).comp (z.2.comp A) := by
        funext z
        ext e <;> simp
      rw [this]
      exact continuous_const.add (continuous_const.clm_comp (continuous_snd.clm_comp continuous_const))
    have hm : Measurable (fun ω => (Φ (T⁻¹ • (l θ₀ + v ω)), fderiv ℝ Φ (T⁻¹ • (l θ₀ + v ω)))) :=
      (hmΦ θ₀).prodMk ((measurable_fderiv ℝ Φ).comp (hmx θ₀))
    exact hc.comp_aestronglyMeasurable hm.aestronglyMeasurable
  have hint : Integrable (fun ω => f θ₀ (Φ (T⁻¹ • (l θ₀ + v ω)))) μ :=
    Integrable.of_bound (hmF θ₀) C1 (Filter.Eventually.of_forall fun ω => (hball hx0).1.1 _ (hX _))
  have hlip : ∀ᵐ ω ∂μ, ∀ θ ∈ Metric.ball θ₀ δ, ‖f θ (Φ (T⁻¹ • (l θ + v ω))) - f θ₀ (Φ (T⁻¹ • (l θ₀ + v ω)))‖ ≤
      (C2 * (1 + C * (|T⁻¹| * L))) * ‖θ - θ₀‖ := by
    refine Filter.Eventually.of_forall (fun ω θ hθ => ?_)
    have hconv : Convex ℝ (Metric.ball θ₀ δ ×ˢ Q) := (convex_ball θ₀ δ).prod hQx
    have h1 := hconv.norm_image_sub_le_of_norm_fderiv_le (𝕜 := ℝ) (f := N) (C := C2) (fun z _ => hNd z)
      (fun z hz => (hball hz.1).1.2 _ hz.2) (x := (θ₀, Φ (T⁻¹ • (l θ₀ + v ω)))) (y := (θ, Φ (T⁻¹ • (l θ + v ω))))
      ⟨hx0, hX _⟩ ⟨hθ, hX _⟩
    refine h1.trans ?_
    have hC20 : 0 ≤ C2 := (norm_nonneg _).trans ((hball hx0).1.2 (Φ 0) (hX 0))
    rw [mul_assoc]
    refine mul_le_mul_of_nonneg_left ?_ hC20
    have h2 : ‖Φ (T⁻¹ • (l θ + v ω)) - Φ (T⁻¹ • (l θ₀ + v ω))‖ ≤ C * (|T⁻¹| * L) * ‖θ - θ₀‖ := by
      refine (hΦ.norm_sub_le _ _).trans ?_
      rw [← smul_sub, add_sub_add_right_eq_sub, norm_smul, Real.norm_eq_abs]
      have h3 := hL.norm_sub_le (hball hθ).2 (hball hx0).2
      calc (C : ℝ) * (|T⁻¹| * ‖l θ - l θ₀‖) ≤ C * (|T⁻¹| * (L * ‖θ - θ₀‖)) := by gcongr
        _ = _ := by ring
    have h4 : ‖((θ, Φ (T⁻¹ • (l θ + v ω))) : E × (Fin m → Fin K → ℝ)) - (θ₀, Φ (T⁻¹ • (l θ₀ + v ω)))‖ ≤
        ‖θ - θ₀‖ + ‖Φ (T⁻¹ • (l θ + v ω)) - Φ (T⁻¹ • (l θ₀ + v ω))‖ := by
      rw [Prod.mk_sub_mk, Prod.norm_mk]
      exact max_le (by linarith [norm_nonneg (Φ (T⁻¹ • (l θ + v ω)) - Φ (T⁻¹ • (l θ₀ + v ω)))])
        (by linarith [norm_nonneg (θ - θ₀)])
    refine h4.trans ?_
    linarith
  obtain ⟨i1, i2⟩ := hasFDerivAt_integral_of_dominated_loc_of_lip' (F := fun θ ω => f θ (Φ (T⁻¹ • (l θ + v ω))))
    (Metric.ball_mem_nhds θ₀ hδ) (fun θ _ => hmF θ) hint hmF' hlip (integrable_const _) hder
  have hae : (fun ω => fderiv ℝ (fun θ => f θ (Φ (T⁻¹ • (l θ + v ω)))) θ₀) =ᵐ[μ] F' := hder.mono fun ω h => h.fderiv
  refine ⟨hder.mono fun ω h => h.differentiableAt, i1.congr hae.symm, ?_⟩
  rw [integral_congr_ae hae]
  exact i2

end

end Storch
