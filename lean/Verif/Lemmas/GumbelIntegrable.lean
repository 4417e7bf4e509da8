import Mathlib.Analysis.SpecialFunctions.Integrability.Basic
import Verif.Lemmas.RelaxRegular

/-!
# The logarithms of the exponential variables are integrable
-/

namespace Storch
open Gumbel MeasureTheory Topology

theorem integrable_unif_of {f : ℝ → ℝ} (h : IntervalIntegrable f volume 0 1) : Integrable f unif := by
  rw [intervalIntegrable_iff_integrableOn_Ioo_of_le zero_le_one] at h
  exact h

theorem unif_mem : ∀ᵐ u ∂unif, u ∈ Set.Ioo (0 : ℝ) 1 := by
  rw [unif]
  exact ae_restrict_mem measurableSet_Ioo

theorem integrable_neglog : Integrable (fun u => -Real.log u) unif :=
  (integrable_unif_of intervalIntegral.intervalIntegrable_log').neg

theorem abs_log_le {x : ℝ} (hx : 0 < x) : |Real.log x| ≤ x + 2 * x ^ (-(1 / 2) : ℝ) := by
  have h1 : Real.log x ≤ x := (Real.log_le_sub_one_of_pos hx).trans (by linarith)
  have hp : 0 < x ^ (-(1 / 2) : ℝ) := Real.rpow_pos_of_pos hx _
  have h2 : -Real.log x ≤ 2 * x ^ (-(1 / 2) : ℝ) := by
    have := Real.log_le_sub_one_of_pos hp
    rw [Real.log_rpow hx] at this
    linarith
  rw [abs_le]
  constructor <;> linarith

theorem integrable_log_neglog : Integrable (fun u => |Real.log (-Real.log u)|) unif := by
  have hr : IntervalIntegrable (fun x : ℝ => x ^ (-(1 / 2) : ℝ)) volume 0 1 :=
    intervalIntegral.intervalIntegrable_rpow' (by norm_num)
  have hr' : IntervalIntegrable (fun x : ℝ => (1 - x) ^ (-(1 / 2) : ℝ)) volume 0 1 := by
    have := (hr.comp_sub_left 1).symm
    simpa using this
  refine Integrable.mono' (integrable_neglog.add ((integrable_unif_of hr').const_mul 2)) ?_ ?_
  · exact (continuous_abs.measurable.comp (Real.measurable_log.comp Real.measurable_log.neg)).aestronglyMeasurable
  · filter_upwards [unif_mem] with u hu
    have hx : 0 < -Real.log u := neg_log_pos hu
    have hge : 1 - u ≤ -Real.log u := by have := Real.log_le_sub_one_of_pos hu.1; linarith
    have h1 := abs_log_le hx
    have h2 : (-Real.log u) ^ (-(1 / 2) : ℝ) ≤ (1 - u) ^ (-(1 / 2) : ℝ) :=
      Real.rpow_le_rpow_of_nonpos (by linarith [hu.2]) hge (by norm_num)
    rw [Real.norm_eq_abs, abs_abs, Pi.add_apply]
    linarith

variable {m K : Nat}

theorem integrable_coord {g : ℝ → ℝ} (hg : Integrable g unif) (r : Fin m) (i : Fin K) :
    Integrable (fun u : Fin m → Fin K → ℝ => g (u r i)) (rows m K) := by
  have h1 : Integrable (fun x : Fin K → ℝ => g (x i)) (cube K) :=
    integrable_comp_eval (μ := fun _ : Fin K => unif) (i := i) hg
  exact integrable_comp_eval (μ := fun _ : Fin m => cube K) (i := r) h1

/-- The logarithm of a sum of two exponential variables is integrable. -/
theorem integrable_log_add (r : Fin m) (i j : Fin K) :
    Integrable (fun u : Fin m → Fin K → ℝ => |Real.log (-Real.log (u r i) + -Real.log (u r j))|) (rows m K) := by
  have hm : ∀ i : Fin K, Measurable (fun u : Fin m → Fin K → ℝ => -Real.log (u r i)) := fun i =>
    (Real.measurable_log.comp ((measurable_pi_apply i).comp (measurable_pi_apply r))).neg
  refine Integrable.mono' ((integrable_coord integrable_log_neglog r i).add
    ((integrable_coord integrable_neglog r i).add (integrable_coord integrable_neglog r j))) ?_ ?_
  · exact (continuous_abs.measurable.comp (Real.measurable_log.comp ((hm i).add (hm j)))).aestronglyMeasurable
  · filter_upwards [rows_mem m K] with u hu
    have hi := neg_log_pos (hu r i)
    have hj := neg_log_pos (hu r j)
    simp only [Pi.add_apply]
    rw [Real.norm_eq_abs, abs_abs, abs_le]
    have h1 := Real.log_le_log hi (show -Real.log (u r i) ≤ -Real.log (u r i) + -Real.log (u r j) by linarith)
    have h2 := Real.log_le_sub_one_of_pos (show 0 < -Real.log (u r i) + -Real.log (u r j) by linarith)
    have h3 := neg_abs_le (Real.log (-Real.log (u r i)))
    have h4 := abs_nonneg (Real.log (-Real.log (u r i)))
    constructor <;> linarith

section
variable {E : Type _} [NormedAddCommGroup E] [NormedSpace ℝ E] {θ₀ : E}

theorem Regular.congr {Ω : Type*} [MeasurableSpace Ω] {μ : Measure Ω} {g g' : E → Ω → ℝ} (h : Regular μ g θ₀)
    {P : E → Prop} (hP : ∀ᶠ θ in 𝓝 θ₀, P θ) (he : ∀ᵐ ω ∂μ, ∀ θ, P θ → g' θ ω = g θ ω) : Regular μ g' θ₀ := by
  have hP' : ∀ᶠ θ in 𝓝 θ₀, ∀ᶠ θ' in 𝓝 θ, P θ' := eventually_eventually_nhds.2 hP
  have hd : ∀ᵐ ω ∂μ, ∀ θ, (∀ᶠ θ' in 𝓝 θ, P θ') → (fun θ => g' θ ω) =ᶠ[𝓝 θ] fun θ => g θ ω :=
    he.mono fun ω hω θ hθ => hθ.mono fun θ' hθ' => hω θ' hθ'
  obtain ⟨s, hs, B, hB, hb⟩ := h.bound
  refine ⟨?_, ?_, _, Filter.inter_mem hs hP', B, hB, ?_⟩
  · filter_upwards [h.int, hP] with θ h1 h2
    exact h1.congr (he.mono fun ω hω => (hω θ h2).symm)
  · refine h.measDeriv.congr (hd.mono fun ω hω => ?_)
    exact ((hω θ₀ hP).fderiv_eq).symm
  · filter_upwards [hb, hd] with ω h1 h2 θ hθ
    obtain ⟨a1, a2⟩ := h1 θ hθ.1
    have e := h2 θ hθ.2
    exact ⟨a1.congr_of_eventuallyEq e, by rw [e.fderiv_eq]; exact a2⟩

/-- Smooth probabilities, temperature and network meet the conditions. -/
theorem RelaxVar.smooth_of {d : RelaxVar E m K} {am : (Fin K → ℝ) → Fin K} (ham : ∀ (s : Fin K → ℝ) i, s i ≤ s (am s))
    {f : E → (Fin m → Fin K → ℝ) → ℝ} (hgood : ∀ᶠ θ in 𝓝 θ₀, d.Good θ)
    (hp : ∀ (r : Fin m) i, ContDiffAt ℝ 1 (fun θ => d.prob θ r i) θ₀) (hT : ContDiffAt ℝ 1 d.temp θ₀)
    (heta : DifferentiableAt ℝ d.eta θ₀) (hf : ∀ j : Fin m → Fin K, DifferentiableAt ℝ (fun θ => f θ (oneHots j)) θ₀)
    (hN : ContDiff ℝ 1 (fun q : E × (Fin m → Fin K → ℝ) => d.net q.1 q.2)) : d.Smooth am f θ₀ := by
  have hp1 : ∀ᶠ θ in 𝓝 θ₀, ∀ (r : Fin m) i, 0 < d.prob θ r i ∧ d.prob θ r i ≤ 1 :=
    hgood.mono fun θ h r i => ⟨h.pos r i, h.le_one r i⟩
  have hT0 := hgood.self_of_nhds.temp
  have hm : ∀ (i : Fin K) (r : Fin m), Measurable (fun u : Fin m → Fin K → ℝ => -Real.log (u r i)) := fun i r =>
    (Real.measurable_log.comp ((measurable_pi_apply i).comp (measurable_pi_apply r))).neg
  refine ⟨hgood, fun r i => (hp r i).differentiableAt (by norm_num), heta, hf, .of_forall fun θ => ?_, ?_, fun j => ?_⟩
  · have h1 : Continuous (fun x : Fin m → Fin K → ℝ => (θ, x)) := by fun_prop
    exact (hN.continuous.comp h1).measurable
  · have h := regular_ratios (μ := rows m K) (p := fun θ (r : Fin m) => d.prob θ r) (T := d.temp)
      (a := fun u r i => -Real.log (u r i)) (b := fun _ _ _ => 0)
      (measurable_pi_lambda _ fun r => measurable_pi_lambda _ fun i => hm i r) measurable_const
      (by filter_upwards [rows_mem m K] with u hu r i
          have := neg_log_pos (hu r i)
          exact ⟨this.le, le_rfl, by linarith⟩)
      (fun r i => by simpa using integrable_coord integrable_log_neglog r i) hp hp1 hT hT0 hN
    refine h.congr hgood ?_
    filter_upwards [rows_mem m K] with u hu θ hθ
    rw [zAt_eq hθ hu]
    congr 1
    funext r
    rw [zOf, ratios]
    congr 1
    funext i
    rw [expo, add_zero]
  · have h := regular_ratios (μ := rows m K) (p := fun θ (r : Fin m) => d.prob θ r) (T := d.temp)
      (a := fun v r i => if i = j r then 0 else -Real.log (v r i)) (b := fun v r _ => -Real.log (v r (j r)))
      (measurable_pi_lambda _ fun r => measurable_pi_lambda _ fun i => by
        by_cases hij : i = j r
        · simp only [hij, if_true]; exact measurable_const
        · simp only [hij, if_false]; exact hm i r)
      (measurable_pi_lambda _ fun r => measurable_pi_lambda _ fun i => hm (j r) r)
      (by filter_upwards [rows_mem m K] with v hv r i
          have h1 := neg_log_pos (hv r i)
          have h2 := neg_log_pos (hv r (j r))
          by_cases hij : i = j r
          · simp only [hij, if_true]; exact ⟨le_rfl, h2.le, by linarith⟩
          · simp only [hij, if_false]; exact ⟨h1.le, h2.le, by linarith⟩)
      (fun r i => by
        by_cases hij : i = j r
        · simp only [hij, if_true, zero_add]
          exact integrable_coord integrable_log_neglog r (j r)
        · simp only [hij, if_false]
          exact integrable_log_add r i (j r)) hp hp1 hT hT0 hN
    refine h.congr hgood ?_
    filter_upwards [rows_mem m K] with v hv θ hθ
    rw [ztAt_eq hθ ham j hv]
    congr 1
    funext r
    rw [ztOf, ratios]
    congr 1
    funext i
    rw [condExpo]
    by_cases hij : i = j r
    · simp only [hij, if_true]; simp
    · simp only [hij, if_false]; ring

end

end Storch
