import Mathlib.MeasureTheory.Integral.Pi
import Mathlib.Analysis.SpecialFunctions.Sigmoid
import Mathlib.MeasureTheory.Integral.IntervalIntegral.FundThmCalculus
import Mathlib.MeasureTheory.Measure.Haar.Unique
import Verif.Lemmas.GumbelMax

/-!
# Expectations over independent noise
-/

namespace Storch
open MeasureTheory

section
variable {F : Type _} [NormedAddCommGroup F] [NormedSpace ℝ F] {μ : Measure ℝ} [IsProbabilityMeasure μ]

omit [NormedSpace ℝ F] in
theorem integrable_step (u v : F) (a : ℝ) : Integrable (fun x => if 0 < x + a then u else v) μ := by
  have hm : MeasurableSet {x : ℝ | 0 < x + a} := measurableSet_lt measurable_const (by fun_prop)
  have h1 : Integrable (fun _ : ℝ => u) μ := integrable_const _
  have h2 : Integrable (fun _ : ℝ => v) μ := integrable_const _
  exact Integrable.piecewise (s := {x : ℝ | 0 < x + a}) hm h1.integrableOn h2.integrableOn

omit [IsProbabilityMeasure μ] in
theorem integrable_affine {g : ℝ → ℝ} {h : ℝ → F} (hg : Integrable g μ) (hh : Integrable h μ) (c : F) :
    Integrable (fun x => g x • c + h x) μ := (hg.smul_const c).add hh

omit [IsProbabilityMeasure μ] in
theorem integral_affine [CompleteSpace F] {g : ℝ → ℝ} {h : ℝ → F} (hg : Integrable g μ) (hh : Integrable h μ) (c : F) :
    ∫ x, g x • c + h x ∂μ = (∫ x, g x ∂μ) • c + ∫ x, h x ∂μ := by
  rw [integral_add (hg.smul_const c) hh, integral_smul_const]

/-- The average over independent samples has the expectation of one. -/
theorem average_integral {n : Nat} (hn : 1 ≤ n) {G : ℝ → F} (hG : Integrable G μ) :
    Integrable (fun ε : Fin n → ℝ => ∑ k : Fin n, (1 / (n : ℝ)) • G (ε k)) (Measure.pi fun _ => μ) ∧
      ∫ ε : Fin n → ℝ, (∑ k : Fin n, (1 / (n : ℝ)) • G (ε k)) ∂(Measure.pi fun _ => μ) = ∫ x, G x ∂μ := by
  have hik : ∀ k : Fin n, Integrable (fun ε : Fin n → ℝ => (1 / (n : ℝ)) • G (ε k))
      (Measure.pi fun _ => μ) := fun k =>
    Integrable.smul (1 / (n : ℝ)) (integrable_comp_eval (μ := fun _ : Fin n => μ) (i := k) hG)
  have hn0 : (n : ℝ) ≠ 0 := by exact_mod_cast (show n ≠ 0 by omega)
  refine ⟨integrable_finsetSum _ (fun k _ => hik k), ?_⟩
  rw [integral_finsetSum _ (fun k _ => hik k)]
  have : ∀ k : Fin n, ∫ ε : Fin n → ℝ, (1 / (n : ℝ)) • G (ε k) ∂(Measure.pi fun _ => μ) =
      (1 / (n : ℝ)) • ∫ x, G x ∂μ := by
    intro k
    rw [integral_smul, integral_comp_eval (μ := fun _ => μ) hG.aestronglyMeasurable]
  rw [Finset.sum_congr rfl (fun k _ => this k), Finset.sum_const, Finset.card_univ, Fintype.card_fin,
    ← Nat.cast_smul_eq_nsmul ℝ, smul_smul, mul_one_div_cancel hn0, one_smul]

end

/-! ### The logistic distribution -/

/-- The inverse of the sigmoid: `log(u / (1 - u))`. -/
noncomputable def logit (u : ℝ) : ℝ := Real.log u - Real.log (1 - u)

theorem logit_measurable : Measurable logit := by unfold logit; fun_prop

theorem sigmoid_logit {u : ℝ} (hu : u ∈ Set.Ioo (0 : ℝ) 1) : Real.sigmoid (logit u) = u := by
  have h1 : 0 < u := hu.1
  have h2 : 0 < 1 - u := sub_pos.2 hu.2
  rw [Real.sigmoid_def, logit, neg_sub, Real.exp_sub, Real.exp_log h1, Real.exp_log h2]
  field_simp
  ring

theorem logit_pos_iff {u a : ℝ} (hu : u ∈ Set.Ioo (0 : ℝ) 1) : 0 < logit u + a ↔ 1 - Real.sigmoid a < u := by
  rw [← Real.sigmoid_neg]
  conv_rhs => rw [← sigmoid_logit hu]
  rw [Real.sigmoid_lt_iff]
  constructor <;> intro h <;> linarith

/-- The distribution of the noise: the logit of a uniform number. -/
noncomputable def logisticMeasure : Measure ℝ := Gumbel.unif.map logit

instance : IsProbabilityMeasure logisticMeasure := Measure.isProbabilityMeasure_map logit_measurable.aemeasurable

theorem logistic_symm : logisticMeasure.map Neg.neg = logisticMeasure := by
  have hu : Gumbel.unif.map (fun u => 1 - u) = Gumbel.unif := by
    have h := (Measure.measurePreserving_sub_left (volume : Measure ℝ) 1).restrict_preimage
      (s := Set.Ioo 0 1) measurableSet_Ioo
    have e : (fun t : ℝ => 1 - t) ⁻¹' Set.Ioo 0 1 = Set.Ioo 0 1 := by
      ext t; simp only [Set.mem_preimage, Set.mem_Ioo]; constructor <;> rintro ⟨h1, h2⟩ <;> constructor <;> linarith
    rw [e] at h
    exact h.map_eq
  have e : (Neg.neg : ℝ → ℝ) ∘ logit = logit ∘ (fun u => 1 - u) := by
    funext u; simp only [Function.comp, logit]; ring_nf
  rw [logisticMeasure, Measure.map_map measurable_neg logit_measurable, e,
    ← Measure.map_map logit_measurable (by fun_prop), hu]

/-- The two parts of the unit interval. -/
theorem step_integral {F : Type _} [NormedAddCommGroup F] [NormedSpace ℝ F] [CompleteSpace F] {p : ℝ} (A B : F)
    (hp0 : 0 ≤ p) (hp1 : p ≤ 1) :
    ∫ u, (if 1 - p < u then A else B) ∂Gumbel.unif = p • A + (1 - p) • B := by
  have hle : (0 : ℝ) ≤ 1 - p := by linarith
  rw [Gumbel.unif, ← integral_Ioc_eq_integral_Ioo, ← intervalIntegral.integral_of_le (by norm_num)]
  have hint : ∀ a b : ℝ, IntervalIntegrable (fun u => if 1 - p < u then A else B) volume a b := by
    intro a b
    rw [intervalIntegrable_iff]
    have h1 : IntegrableOn (fun _ : ℝ => A) (Set.uIoc a b) := integrableOn_const (by simp [Set.uIoc])
    have h2 : IntegrableOn (fun _ : ℝ => B) (Set.uIoc a b) := integrableOn_const (by simp [Set.uIoc])
    exact Integrable.piecewise (s := Set.Ioi (1 - p)) measurableSet_Ioi (Integrable.integrableOn h1)
      (Integrable.integrableOn h2)
  rw [← intervalIntegral.integral_add_adjacent_intervals (hint 0 (1 - p)) (hint (1 - p) 1)]
  have h1 : ∫ u in (0 : ℝ)..(1 - p), (if 1 - p < u then A else B) = ∫ _ in (0 : ℝ)..(1 - p), B := by
    apply intervalIntegral.integral_congr_ae
    refine .of_forall (fun u hu => ?_)
    rw [Set.uIoc_of_le hle] at hu
    rw [if_neg (not_lt.2 hu.2)]
  have h2 : ∫ u in (1 - p)..(1 : ℝ), (if 1 - p < u then A else B) = ∫ _ in (1 - p)..(1 : ℝ), A := by
    apply intervalIntegral.integral_congr_ae
    refine .of_forall (fun u hu => ?_)
    rw [Set.uIoc_of_le (by linarith)] at hu
    rw [if_pos hu.1]
  rw [h1, h2, intervalIntegral.integral_const, intervalIntegral.integral_const, add_comm]
  congr 2 <;> ring

/-- The weighted halves of the unit interval. -/
theorem logistic_integral (p A B : ℝ) (hp0 : 0 ≤ p) (hp1 : p ≤ 1) :
    ∫ u, (if 1 - p < u then A else B) * (2 * u - 1) ∂Gumbel.unif = p * (1 - p) * (A - B) := by
  have hI : ∀ C a b : ℝ, ∫ u in a..b, C * (2 * u - 1) = C * ((b ^ 2 - b) - (a ^ 2 - a)) := by
    intro C a b
    rw [intervalIntegral.integral_const_mul]
    congr 1
    rw [intervalIntegral.integral_eq_sub_of_hasDerivAt (f := fun u => u ^ 2 - u)]
    · intro x _
      have : HasDerivAt (fun u : ℝ => u ^ 2 - u) _ x := (hasDerivAt_pow 2 x).sub (hasDerivAt_id x)
      simpa using this
    · exact Continuous.intervalIntegrable (by fun_prop) _ _
  have hle : (0 : ℝ) ≤ 1 - p := by linarith
  rw [Gumbel.unif, ← integral_Ioc_eq_integral_Ioo, ← intervalIntegral.integral_of_le (by norm_num)]
  have hint : ∀ a b : ℝ, IntervalIntegrable (fun u => (if 1 - p < u then A else B) * (2 * u - 1)) volume a b := by
    intro a b
    have hc : IntervalIntegrable (fun u : ℝ => 2 * u - 1) volume a b :=
      Continuous.intervalIntegrable (by fun_prop) _ _
    rw [intervalIntegrable_iff] at hc ⊢
    refine hc.bdd_mul (c := max ‖A‖ ‖B‖) ?_ (.of_forall (fun x => ?_))
    · exact (Measurable.ite measurableSet_Ioi measurable_const measurable_const).aestronglyMeasurable
    · split
      · exact le_max_left _ _
      · exact le_max_right _ _
  rw [← intervalIntegral.integral_add_adjacent_intervals (hint 0 (1 - p)) (hint (1 - p) 1)]
  have h1 : ∫ u in (0 : ℝ)..(1 - p), (if 1 - p < u then A else B) * (2 * u - 1) =
      ∫ u in (0 : ℝ)..(1 - p), B * (2 * u - 1) := by
    apply intervalIntegral.integral_congr_ae
    refine .of_forall (fun u hu => ?_)
    rw [Set.uIoc_of_le hle] at hu
    rw [if_neg (not_lt.2 hu.2)]
  have h2 : ∫ u in (1 - p)..(1 : ℝ), (if 1 - p < u then A else B) * (2 * u - 1) =
      ∫ u in (1 - p)..(1 : ℝ), A * (2 * u - 1) := by
    apply intervalIntegral.integral_congr_ae
    refine .of_forall (fun u hu => ?_)
    rw [Set.uIoc_of_le (by linarith)] at hu
    rw [if_pos hu.1]
  rw [h1, h2, hI, hI]
  ring

end Storch
