import Verif.Lemmas.GumbelMax
import Mathlib.MeasureTheory.Function.Jacobian
import Mathlib.MeasureTheory.Measure.Lebesgue.EqHaar

/-!
# Gumbel variables given which of them is the largest

In terms of the exponential variables `-log (u i) / p i`, of which the smallest belongs to the largest Gumbel variable.
-/

namespace Storch.Gumbel

open MeasureTheory

variable {n : Nat}

/-- A uniform random number below `c` is `c` times a uniform random number. -/
theorem unif_restrict {c : ℝ} (h0 : 0 < c) (h1 : c ≤ 1) :
    unif.restrict (Set.Iio c) = ENNReal.ofReal c • unif.map (fun v => c * v) := by
  ext s hs
  have hm : Measurable (fun v : ℝ => c * v) := measurable_const_mul c
  rw [Measure.restrict_apply hs, Measure.smul_apply, Measure.map_apply hm hs, unif,
    Measure.restrict_apply (hs.inter measurableSet_Iio), Measure.restrict_apply (hm hs)]
  have e : (fun v : ℝ => c * v) ⁻¹' s ∩ Set.Ioo 0 1 = (fun v : ℝ => c * v) ⁻¹' (s ∩ Set.Iio c ∩ Set.Ioo 0 1) := by
    ext v
    simp only [Set.mem_inter_iff, Set.mem_preimage, Set.mem_Ioo, Set.mem_Iio]
    constructor
    · rintro ⟨a, b, d⟩
      have h2 : c * v < c := by nlinarith
      exact ⟨⟨a, h2⟩, mul_pos h0 b, by linarith⟩
    · rintro ⟨⟨a, b⟩, d, -⟩
      exact ⟨a, pos_of_mul_pos_right d h0.le, by nlinarith⟩
  rw [e, Real.volume_preimage_mul_left h0.ne', abs_of_pos (inv_pos.2 h0), smul_eq_mul, ← mul_assoc,
    ← ENNReal.ofReal_mul h0.le, mul_inv_cancel₀ h0.ne', ENNReal.ofReal_one, one_mul]

theorem cube_restrict (c : Fin n → ℝ) (h0 : ∀ i, 0 < c i) (h1 : ∀ i, c i ≤ 1) :
    (cube n).restrict (Set.univ.pi (fun i => Set.Iio (c i))) =
      (∏ i, ENNReal.ofReal (c i)) • (cube n).map (fun v i => c i * v i) := by
  have hm : Measurable (fun (v : Fin n → ℝ) i => c i * v i) :=
    measurable_pi_lambda _ (fun i => (measurable_const_mul (c i)).comp (measurable_pi_apply i))
  rw [cube, Measure.restrict_pi_pi]
  refine Measure.pi_eq (fun s hs => ?_)
  have hp : (fun (v : Fin n → ℝ) i => c i * v i) ⁻¹' (Set.univ.pi s) = Set.univ.pi (fun i => (fun x => c i * x) ⁻¹' s i) := by
    ext v; simp
  rw [Measure.smul_apply, Measure.map_apply hm (MeasurableSet.univ_pi hs), hp, Measure.pi_pi, smul_eq_mul,
    ← Finset.prod_mul_distrib]
  refine Finset.prod_congr rfl (fun i _ => ?_)
  rw [unif_restrict (h0 i) (h1 i), Measure.smul_apply, Measure.map_apply (measurable_const_mul _) (hs i), smul_eq_mul]

/-- The substitution `x = y ^ q`. -/
theorem unif_rpow {q : ℝ} (hq : 0 < q) (g : ℝ → ENNReal) :
    ∫⁻ x, g (x ^ (1 / q)) * ENNReal.ofReal (x ^ ((1 - q) / q)) ∂unif = ENNReal.ofReal q * ∫⁻ y, g y ∂unif := by
  have himg : (fun y : ℝ => y ^ q) '' Set.Ioo 0 1 = Set.Ioo 0 1 := by
    ext x
    simp only [Set.mem_image, Set.mem_Ioo]
    constructor
    · rintro ⟨y, ⟨a, b⟩, rfl⟩
      exact ⟨Real.rpow_pos_of_pos a _, Real.rpow_lt_one a.le b hq⟩
    · rintro ⟨a, b⟩
      refine ⟨x ^ (1 / q), ⟨Real.rpow_pos_of_pos a _, Real.rpow_lt_one a.le b (by positivity)⟩, ?_⟩
      rw [← Real.rpow_mul a.le, one_div, inv_mul_cancel₀ hq.ne', Real.rpow_one]
  have hinj : Set.InjOn (fun y : ℝ => y ^ q) (Set.Ioo 0 1) := by
    intro a ha b hb h
    exact (Real.rpow_left_inj ha.1.le hb.1.le hq.ne').1 h
  have hd : ∀ y ∈ Set.Ioo (0 : ℝ) 1, HasDerivWithinAt (fun y : ℝ => y ^ q) (q * y ^ (q - 1)) (Set.Ioo 0 1) y :=
    fun y hy => (Real.hasDerivAt_rpow_const (Or.inl hy.1.ne')).hasDerivWithinAt
  have h := lintegral_image_eq_lintegral_abs_deriv_mul measurableSet_Ioo hd hinj
    (fun x => g (x ^ (1 / q)) * ENNReal.ofReal (x ^ ((1 - q) / q)))
  rw [himg] at h
  unfold unif
  rw [h, ← lintegral_const_mul' _ _ ENNReal.ofReal_ne_top]
  refine setLIntegral_congr_fun measurableSet_Ioo (fun y hy => ?_)
  have hy0 : 0 < y := hy.1
  have e1 : (y ^ q) ^ (1 / q) = y := by
    rw [← Real.rpow_mul hy0.le, mul_one_div_cancel hq.ne', Real.rpow_one]
  have e2 : (y ^ q) ^ ((1 - q) / q) = y ^ (1 - q) := by
    rw [← Real.rpow_mul hy0.le, mul_div_cancel₀ _ hq.ne']
  have e3 : |q * y ^ (q - 1)| = q * y ^ (q - 1) := abs_of_pos (mul_pos hq (Real.rpow_pos_of_pos hy0 _))
  have e4 : y ^ (q - 1) * y ^ (1 - q) = 1 := by
    rw [← Real.rpow_add hy0, show q - 1 + (1 - q) = 0 by ring, Real.rpow_zero]
  simp only [e1, e2, e3]
  rw [mul_comm (g y), ← mul_assoc, ← ENNReal.ofReal_mul (by positivity), mul_assoc q, e4, mul_one]

/-- The exponential variables. -/
noncomputable def expo (p u : Fin n → ℝ) (i : Fin n) : ℝ := -Real.log (u i) / p i

/-- The exponential variables given that number `j` is the smallest. -/
noncomputable def condExpo (p : Fin n → ℝ) (j : Fin n) (v : Fin n → ℝ) (i : Fin n) : ℝ :=
  if i = j then -Real.log (v j) else -Real.log (v i) / p i - Real.log (v j)

theorem measurable_expo (p : Fin n → ℝ) : Measurable (expo p) :=
  measurable_pi_lambda _ (fun i => ((Real.measurable_log.comp (measurable_pi_apply i)).neg).div_const _)

theorem measurable_condExpo (p : Fin n → ℝ) (j : Fin n) : Measurable (condExpo p j) := by
  refine measurable_pi_lambda _ (fun i => ?_)
  unfold condExpo
  split
  · exact (Real.measurable_log.comp (measurable_pi_apply j)).neg
  · exact (((Real.measurable_log.comp (measurable_pi_apply i)).neg).div_const _).sub
      (Real.measurable_log.comp (measurable_pi_apply j))

/-- The law of the exponential variables on the event that number `j` is the smallest. -/
theorem lintegral_expo {p : Fin n → ℝ} (hp : ∀ i, 0 < p i) (hsum : ∑ i, p i = 1) (j : Fin n)
    {F : (Fin n → ℝ) → ENNReal} (hF : Measurable F) :
    ∫⁻ u in First p Finset.univ j, F (expo p u) ∂cube n = ENNReal.ofReal (p j) * ∫⁻ v, F (condExpo p j v) ∂cube n := by
  obtain ⟨N, rfl⟩ : ∃ N, n = N + 1 := ⟨n - 1, by have := j.pos; omega⟩
  have hmp := measurePreserving_piFinSuccAbove (fun _ : Fin (N + 1) => unif) j
  set e := MeasurableEquiv.piFinSuccAbove (fun _ : Fin (N + 1) => ℝ) j with he
  have hsplit : ∀ G : (Fin (N + 1) → ℝ) → ENNReal, Measurable G →
      ∫⁻ u, G u ∂cube (N + 1) = ∫⁻ x, ∫⁻ w, G (e.symm (x, w)) ∂cube N ∂unif := by
    intro G hG
    have h1 := hmp.lintegral_comp (f := fun z => G (e.symm z)) (hG.comp e.symm.measurable)
    simp only [MeasurableEquiv.symm_apply_apply] at h1
    rw [cube, h1, lintegral_prod (fun z => G (e.symm z)) (hG.comp e.symm.measurable).aemeasurable]
    rfl
  have es : ∀ x w, e.symm (x, w) = j.insertNth x w := fun _ _ => rfl
  have hFe : Measurable (fun u => F (expo p u)) := hF.comp (measurable_expo p)
  have hFc : Measurable (fun u => F (condExpo p j u)) := hF.comp (measurable_condExpo p j)
  rw [← lintegral_indicator (measurable_First p _ j), hsplit _ (hFe.indicator (measurable_First p _ j)), hsplit _ hFc,
    ← unif_rpow (hp j)]
  unfold unif
  refine setLIntegral_congr_fun measurableSet_Ioo (fun x hx => ?_)
  have hx0 : 0 < x := hx.1
  set c : Fin N → ℝ := fun i => x ^ (p (j.succAbove i) / p j) with hc
  have hc0 : ∀ i, 0 < c i := fun i => Real.rpow_pos_of_pos hx0 _
  have hc1 : ∀ i, c i ≤ 1 := fun i => Real.rpow_le_one hx0.le hx.2.le (div_nonneg (hp _).le (hp _).le)
  have hmem : ∀ w : Fin N → ℝ, (j.insertNth x w : Fin (N + 1) → ℝ) ∈ First p Finset.univ j ↔
      w ∈ Set.univ.pi (fun i => Set.Iio (c i)) := by
    intro w
    simp only [First, Set.mem_ofPred_eq, Finset.mem_univ, true_implies, Set.mem_pi, Set.mem_univ, Set.mem_Iio,
      Fin.insertNth_apply_same]
    constructor
    · intro h i
      have := h (j.succAbove i) (Fin.succAbove_ne j i)
      rwa [Fin.insertNth_apply_succAbove] at this
    · intro h i hi
      obtain ⟨k, rfl⟩ := Fin.exists_succAbove_eq hi
      rw [Fin.insertNth_apply_succAbove]
      exact h k
  have hmi : Measurable (fun w : Fin N → ℝ => (j.insertNth x w : Fin (N + 1) → ℝ)) :=
    e.symm.measurable.comp (measurable_const.prodMk measurable_id)
  have hmc : Measurable (fun (v : Fin N → ℝ) i => c i * v i) :=
    measurable_pi_lambda _ (fun i => (measurable_const_mul (c i)).comp (measurable_pi_apply i))
  have h1 : ∫⁻ w, (First p Finset.univ j).indicator (fun u => F (expo p u)) (e.symm (x, w)) ∂cube N =
      ∫⁻ w in Set.univ.pi (fun i => Set.Iio (c i)), F (expo p (j.insertNth x w)) ∂cube N := by
    rw [← lintegral_indicator (MeasurableSet.univ_pi (fun i => measurableSet_Iio))]
    refine lintegral_congr (fun w => ?_)
    rw [es]
    by_cases h : w ∈ Set.univ.pi (fun i => Set.Iio (c i))
    · rw [Set.indicator_of_mem h, Set.indicator_of_mem ((hmem w).2 h)]
    · rw [Set.indicator_of_notMem h, Set.indicator_of_notMem (fun h' => h ((hmem w).1 h'))]
  have h2 : (∏ i, ENNReal.ofReal (c i)) = ENNReal.ofReal (x ^ ((1 - p j) / p j)) := by
    rw [← ENNReal.ofReal_prod_of_nonneg (fun i _ => (hc0 i).le)]
    congr 1
    rw [hc, ← Real.rpow_sum_of_pos hx0, ← Finset.sum_div]
    congr 2
    rw [Fin.sum_univ_succAbove _ j] at hsum
    linarith
  rw [h1, cube_restrict c hc0 hc1, lintegral_smul_measure,
    lintegral_map (f := fun w => F (expo p (j.insertNth x w))) (hFe.comp hmi) hmc, h2, smul_eq_mul, mul_comm]
  congr 1
  refine lintegral_congr_ae ?_
  filter_upwards [cube_mem N] with v hv
  congr 1
  funext i
  simp only [es]
  have hlog : Real.log (x ^ (1 / p j)) = Real.log x / p j := by rw [Real.log_rpow hx0]; ring
  by_cases hi : i = j
  · subst hi
    rw [expo, condExpo, if_pos rfl, Fin.insertNth_apply_same, Fin.insertNth_apply_same, hlog]
    ring
  · obtain ⟨k, rfl⟩ := Fin.exists_succAbove_eq hi
    rw [expo, condExpo, if_neg hi, Fin.insertNth_apply_succAbove, Fin.insertNth_apply_succAbove,
      Fin.insertNth_apply_same, hlog, hc]
    simp only
    rw [Real.log_mul (Real.rpow_pos_of_pos hx0 _).ne' (hv k).1.ne', Real.log_rpow hx0]
    have := (hp (j.succAbove k)).ne'
    have := (hp j).ne'
    field_simp
    ring

end Storch.Gumbel
