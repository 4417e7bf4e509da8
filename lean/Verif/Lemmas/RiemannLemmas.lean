import Mathlib.MeasureTheory.Integral.DominatedConvergence
import Mathlib.Analysis.SpecialFunctions.Integrals.Basic
import Mathlib.Analysis.SpecificLimits.Basic
import Mathlib.MeasureTheory.Function.Floor
import Mathlib.Tactic.Linarith

/-!
# Riemann sums of functions that may be unbounded at zero
-/

namespace Storch.SetLaw

open MeasureTheory Filter Topology

/-- The step function whose integral is the Riemann sum over `1/N, ..., (N-1)/N`. -/
noncomputable def stepFn (f : ℝ → ℝ) (N : Nat) (v : ℝ) : ℝ := if ⌈v * N⌉₊ < N then f (⌈v * N⌉₊ / N) else 0

theorem stepFn_on {f : ℝ → ℝ} {N i : Nat} (hN : 0 < N) {v : ℝ} (hv : v ∈ Set.Ioc ((i : ℝ) / N) ((i + 1 : Nat) / N)) :
    stepFn f N v = if i + 1 < N then f ((i + 1 : Nat) / N) else 0 := by
  have hN' : (0 : ℝ) < N := Nat.cast_pos.2 hN
  have h : ⌈v * N⌉₊ = i + 1 := by
    rw [Nat.ceil_eq_iff (by omega)]
    refine ⟨?_, ?_⟩
    · have := (div_lt_iff₀ hN').1 hv.1
      simpa using this
    · exact (le_div_iff₀ hN').1 hv.2
  rw [stepFn, h]

theorem stepFn_integral (f : ℝ → ℝ) {N : Nat} (hN : 0 < N) :
    ∫ v in (0 : ℝ)..1, stepFn f N v = (∑ i ∈ Finset.range (N - 1), f ((i + 1 : Nat) / N)) / N := by
  have hN' : (0 : ℝ) < N := Nat.cast_pos.2 hN
  set a : Nat → ℝ := fun i => (i : ℝ) / N with ha
  have hle : ∀ i, a i ≤ a (i + 1) := fun i => by
    simp only [ha]; gcongr; simp
  have hint : ∀ i < N, IntervalIntegrable (stepFn f N) volume (a i) (a (i + 1)) := by
    intro i _
    rw [intervalIntegrable_iff, Set.uIoc_of_le (hle i)]
    refine (integrableOn_const (C := if i + 1 < N then f ((i + 1 : Nat) / N) else 0) (by simp)).congr_fun ?_ measurableSet_Ioc
    intro v hv
    exact (stepFn_on hN hv).symm
  have hsum := intervalIntegral.sum_integral_adjacent_intervals hint
  have h0 : a 0 = 0 := by simp [ha]
  have h1 : a N = 1 := by simp only [ha]; exact div_self hN'.ne'
  rw [h0, h1] at hsum
  rw [← hsum]
  have hpiece : ∀ i ∈ Finset.range N, ∫ v in (a i)..(a (i + 1)), stepFn f N v =
      (if i + 1 < N then f ((i + 1 : Nat) / N) else 0) / N := by
    intro i _
    have : ∫ v in (a i)..(a (i + 1)), stepFn f N v =
        ∫ v in (a i)..(a (i + 1)), (if i + 1 < N then f ((i + 1 : Nat) / N) else 0) := by
      refine intervalIntegral.integral_congr_ae (Eventually.of_forall (fun v hv => ?_))
      rw [Set.uIoc_of_le (hle i)] at hv
      exact stepFn_on hN hv
    rw [this, intervalIntegral.integral_const, smul_eq_mul]
    have : a (i + 1) - a i = 1 / N := by simp only [ha]; push_cast; ring
    rw [this]; ring
  rw [Finset.sum_congr rfl hpiece, ← Finset.sum_div]
  congr 1
  obtain ⟨M, rfl⟩ : ∃ M, N = M + 1 := ⟨N - 1, by omega⟩
  rw [Finset.sum_range_succ, if_neg (by omega), add_zero, Nat.add_sub_cancel]
  refine Finset.sum_congr rfl (fun i hi => ?_)
  rw [if_pos (by have := Finset.mem_range.1 hi; omega)]

theorem measurable_stepFn (f : ℝ → ℝ) (N : Nat) : Measurable (stepFn f N) := by
  have : stepFn f N = (fun n : Nat => if n < N then f (n / N) else 0) ∘ (fun v : ℝ => ⌈v * N⌉₊) := rfl
  rw [this]
  exact (measurable_of_countable _).comp (Nat.measurable_ceil.comp (measurable_id.mul_const _))

/-- Riemann sums of functions that depend on a parameter converge jointly to the integral of the limit function. -/
theorem riemann_tendsto {X : Type _} {l : Filter X} [l.IsCountablyGenerated] (f : X → ℝ → ℝ) (f0 : ℝ → ℝ) {C c : ℝ} (hc : 0 < c)
    (hc1 : c ≤ 1) (hC : 0 ≤ C) (hb : ∀ᶠ x in l, ∀ v ∈ Set.Ioo (0 : ℝ) 1, |f x v| ≤ C * v ^ (c - 1))
    (hl : ∀ v ∈ Set.Ioo (0 : ℝ) 1, Tendsto (fun z : X × ℝ => f z.1 z.2) (l ×ˢ 𝓝 v) (𝓝 (f0 v))) :
    Tendsto (fun z : Nat × X => (∑ i ∈ Finset.range (z.1 - 1), f z.2 ((i + 1 : Nat) / z.1)) / z.1) (atTop ×ˢ l)
      (𝓝 (∫ v in (0 : ℝ)..1, f0 v)) := by
  have hev : ∀ᶠ z : Nat × X in atTop ×ˢ l, 0 < z.1 ∧ ∀ v ∈ Set.Ioo (0 : ℝ) 1, |f z.2 v| ≤ C * v ^ (c - 1) :=
    (eventually_gt_atTop 0).prod_mk hb
  have key : Tendsto (fun z : Nat × X => ∫ v in (0 : ℝ)..1, stepFn (f z.2) z.1 v) (atTop ×ˢ l)
      (𝓝 (∫ v in (0 : ℝ)..1, f0 v)) := by
    refine intervalIntegral.tendsto_integral_filter_of_dominated_convergence (fun v => C * v ^ (c - 1)) ?_ ?_ ?_ ?_
    · exact Eventually.of_forall (fun z => (measurable_stepFn _ _).aestronglyMeasurable)
    · filter_upwards [hev] with z hz
      refine Eventually.of_forall (fun v hv => ?_)
      rw [Set.uIoc_of_le zero_le_one] at hv
      have hN' : (0 : ℝ) < z.1 := Nat.cast_pos.2 hz.1
      rw [stepFn, Real.norm_eq_abs]
      split
      · rename_i hlt
        have hge : v ≤ ⌈v * z.1⌉₊ / z.1 := (le_div_iff₀ hN').2 (Nat.le_ceil _)
        have hlt1 : (⌈v * z.1⌉₊ : ℝ) / z.1 < 1 := (div_lt_one hN').2 (Nat.cast_lt.2 hlt)
        refine (hz.2 _ ⟨lt_of_lt_of_le hv.1 hge, hlt1⟩).trans ?_
        exact mul_le_mul_of_nonneg_left (Real.rpow_le_rpow_of_nonpos hv.1 hge (by linarith)) hC
      · rw [abs_zero]
        exact mul_nonneg hC (Real.rpow_nonneg hv.1.le _)
    · exact (intervalIntegral.intervalIntegrable_rpow' (by linarith)).const_mul C
    · have hne : ∀ᵐ v : ℝ, v ≠ 1 := by
        rw [ae_iff]; simp
      filter_upwards [hne] with v hv1 hv
      rw [Set.uIoc_of_le zero_le_one] at hv
      have hvm : v ∈ Set.Ioo (0 : ℝ) 1 := ⟨hv.1, lt_of_le_of_ne hv.2 hv1⟩
      have hceil : Tendsto (fun N : Nat => (⌈v * N⌉₊ : ℝ) / N) atTop (𝓝 v) :=
        (tendsto_nat_ceil_mul_div_atTop hv.1.le).comp tendsto_natCast_atTop_atTop
      have hpair : Tendsto (fun z : Nat × X => (z.2, (⌈v * z.1⌉₊ : ℝ) / z.1)) (atTop ×ˢ l) (l ×ˢ 𝓝 v) :=
        tendsto_snd.prodMk (hceil.comp tendsto_fst)
      refine ((hl v hvm).comp hpair).congr' ?_
      have hlt : ∀ᶠ N : Nat in atTop, ⌈v * N⌉₊ < N := by
        filter_upwards [hceil.eventually (gt_mem_nhds hvm.2), eventually_gt_atTop 0] with N h hN
        exact Nat.cast_lt.1 ((div_lt_one (Nat.cast_pos.2 hN)).1 h)
      filter_upwards [tendsto_fst.eventually hlt] with z hz
      rw [Function.comp, stepFn, if_pos hz]
  refine key.congr' ?_
  filter_upwards [hev] with z hz
  rw [stepFn_integral _ hz.1]

end Storch.SetLaw
