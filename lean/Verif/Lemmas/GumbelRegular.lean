import Mathlib.Logic.Equiv.Fin.Basic
import Verif.Lemmas.GumbelRunLemmas
import Verif.Lemmas.GumbelIntegrable

/-!
# Differentiating expectations over samples of `GumbelSoftmax`
-/

namespace Storch
open Gumbel MeasureTheory Topology

theorem clamp_Ioo {eps u : ℝ} (_ : 0 ≤ eps) (h1 : eps < 1 / 2) (hu : u ∈ Set.Ioo (0 : ℝ) 1) :
    clampProbs eps u ∈ Set.Ioo (0 : ℝ) 1 := by
  rw [clampProbs]
  refine ⟨lt_min (lt_max_of_lt_left hu.1) (by linarith), lt_of_le_of_lt (min_le_left _ _) (max_lt hu.2 (by linarith))⟩

theorem measurable_clamp (eps : ℝ) : Measurable (fun u => clampProbs eps u) := by
  unfold clampProbs
  exact (measurable_id.max measurable_const).min measurable_const

/-- Clamping the random numbers keeps functions integrable. -/
theorem integrable_clamp {eps : ℝ} (h0 : 0 ≤ eps) (h1 : eps < 1 / 2) {g : ℝ → ℝ} (hm : Measurable g)
    (hc : ContinuousOn g (Set.Ioo 0 1)) (hi : Integrable g unif) : Integrable (fun u => g (clampProbs eps u)) unif := by
  rcases h0.eq_or_lt with rfl | h0
  · refine hi.congr ?_
    filter_upwards [unif_mem] with u hu
    rw [clamp_id hu.1.le (by rw [sub_zero]; exact hu.2.le)]
  · obtain ⟨C, hC⟩ := (isCompact_Icc (a := eps) (b := 1 - eps)).exists_bound_of_continuousOn
      (hc.mono fun x hx => ⟨lt_of_lt_of_le h0 hx.1, by linarith [hx.2]⟩)
    refine Integrable.of_bound (C := C) (hm.comp (measurable_clamp eps)).aestronglyMeasurable (.of_forall fun u => hC _ ?_)
    rw [clampProbs]
    exact ⟨le_min (le_max_right _ _) (by linarith), min_le_right _ _⟩

theorem integrable_clamp_neglog {eps : ℝ} (h0 : 0 ≤ eps) (h1 : eps < 1 / 2) :
    Integrable (fun u => |Real.log (-Real.log (clampProbs eps u))|) unif :=
  integrable_clamp (g := fun u => |Real.log (-Real.log u)|) h0 h1 (by fun_prop)
    (fun u hu => by
      have hl : ContinuousAt (fun u => -Real.log u) u := (Real.continuousAt_log hu.1.ne').neg
      exact ((hl.log (neg_log_pos hu).ne').abs).continuousWithinAt) integrable_log_neglog

theorem integrable_clamp_log {eps : ℝ} (h0 : 0 ≤ eps) (h1 : eps < 1 / 2) :
    Integrable (fun u => |Real.log (clampProbs eps u)|) unif :=
  integrable_clamp (g := fun u => |Real.log u|) h0 h1 (by fun_prop)
    (fun u hu => ((Real.continuousAt_log hu.1.ne').abs).continuousWithinAt)
    (integrable_neglog.abs.congr (.of_forall fun u => by simp))

theorem integrable_clamp_log_one_sub {eps : ℝ} (h0 : 0 ≤ eps) (h1 : eps < 1 / 2) :
    Integrable (fun u => |Real.log (1 - clampProbs eps u)|) unif := by
  refine integrable_clamp (g := fun u => |Real.log (1 - u)|) h0 h1 (by fun_prop) (fun u hu => ?_) ?_
  · have : ContinuousAt (fun u : ℝ => 1 - u) u := by fun_prop
    exact ((this.log (by linarith [hu.2])).abs).continuousWithinAt
  · refine integrable_unif_of ?_
    have h := (intervalIntegral.intervalIntegrable_log' (a := 0) (b := 1)).comp_sub_left 1
    simp only [sub_zero, sub_self] at h
    exact h.symm.abs

section
variable {E : Type _} [NormedAddCommGroup E] [NormedSpace ℝ E] {θ₀ : E} {m K : Nat}

/-- Probabilities in the range that is not clamped, and a positive temperature. -/
structure GumbelVar.Good (d : GumbelVar E m K) (eps : ℝ) (θ : E) : Prop where
  pos : ∀ (r : Fin m) i, 0 < d.prob θ r i
  lt_one : ∀ (r : Fin m) i, d.kind = .bernoulli → d.prob θ r i < 1
  lo : ∀ (r : Fin m) i, eps ≤ d.prob θ r i
  hi : ∀ (r : Fin m) i, d.prob θ r i ≤ 1 - eps
  sum : d.kind = .oneHot → ∀ r : Fin m, ∑ i, d.prob θ r i = 1

variable {d : GumbelVar E m K} {eps : ℝ}

/-- The relaxed samples of one sample of the variable. -/
noncomputable def GumbelVar.softs (d : GumbelVar E m K) (eps : ℝ) (u : Fin m → Fin K → ℝ) (θ : E) (r : Fin m) (i : Fin K) : ℝ :=
  d.soft eps (u r) θ r i

omit [NormedAddCommGroup E] [NormedSpace ℝ E] in
theorem softs_oneHot (hk : d.kind = .oneHot) (h0 : 0 ≤ eps) (h1 : eps < 1 / 2) {θ : E} (hg : d.Good eps θ)
    {u : Fin m → Fin K → ℝ} (hu : ∀ r i, u r i ∈ Set.Ioo (0 : ℝ) 1) :
    d.softs eps u θ = ratios (fun _ => d.temp) (fun θ (r : Fin m) => d.prob θ r) (fun r i => -Real.log (clampProbs eps (u r i)))
      (fun _ _ => 0) θ := by
  funext r i
  rw [GumbelVar.softs, GumbelVar.soft, hk, ratios, ofExpo]
  simp only [relaxedCategorical]
  congr 1
  funext k
  rw [add_zero, clamp_id (hg.lo r k) (hg.hi r k),
    Real.log_div (neg_log_pos (clamp_Ioo h0 h1 (hu r k))).ne' (hg.pos r k).ne']
  ring

/-- The two scores of a Bernoulli variable. -/
noncomputable def bernA (eps : ℝ) (u : Fin m → Fin K → ℝ) (s : Fin (m * K)) (j : Fin 2) : ℝ :=
  let q := finProdFinEquiv.symm s
  if j = 0 then (clampProbs eps (u q.1 q.2))⁻¹ else (1 - clampProbs eps (u q.1 q.2))⁻¹

/-- The two probabilities of a Bernoulli variable. -/
noncomputable def GumbelVar.bernP (d : GumbelVar E m K) (θ : E) (s : Fin (m * K)) (j : Fin 2) : ℝ :=
  let q := finProdFinEquiv.symm s
  if j = 0 then d.prob θ q.1 q.2 else 1 - d.prob θ q.1 q.2

omit [NormedAddCommGroup E] [NormedSpace ℝ E] in
theorem softs_bernoulli (hk : d.kind = .bernoulli) (h0 : 0 ≤ eps) (h1 : eps < 1 / 2) {θ : E} (hg : d.Good eps θ)
    {u : Fin m → Fin K → ℝ} (hu : ∀ r i, u r i ∈ Set.Ioo (0 : ℝ) 1) (r : Fin m) (i : Fin K) :
    d.softs eps u θ r i = ratios (fun _ => d.temp) d.bernP (bernA eps u) (fun _ _ => 0) θ (finProdFinEquiv (r, i)) 0 := by
  rw [GumbelVar.softs, GumbelVar.soft, hk, ratios, ofExpo, normalise_eq, Fin.sum_univ_two]
  simp only [relaxedBernoulli, sigmoid, log1p, GumbelVar.bernP, bernA, Equiv.symm_apply_apply, if_true, add_zero,
    Fin.one_eq_zero_iff, OfNat.ofNat_ne_one, if_false]
  obtain ⟨c0, c1⟩ := clamp_Ioo h0 h1 (hu r i)
  rw [clamp_id (hg.lo r i) (hg.hi r i)]
  set c := clampProbs eps (u r i)
  have p0 := hg.pos r i
  have p1 := hg.lt_one r i hk
  set p := d.prob θ r i
  have l1 : -Real.log (c⁻¹ / p) = Real.log c + Real.log p := by
    rw [Real.log_div (by positivity) p0.ne', Real.log_inv]; ring
  have l2 : -Real.log ((1 - c)⁻¹ / (1 - p)) = Real.log (1 - c) + Real.log (1 - p) := by
    rw [Real.log_div (inv_ne_zero (by linarith)) (by linarith), Real.log_inv]; ring
  rw [l1, l2, ← sub_eq_add_neg, ← sub_eq_add_neg]
  have e : -((Real.log c - Real.log (1 - c) + Real.log p - Real.log (1 - p)) / d.temp) =
      (Real.log (1 - c) + Real.log (1 - p)) / d.temp - (Real.log c + Real.log p) / d.temp := by ring
  rw [e, Real.exp_sub]
  have := Real.exp_pos ((Real.log c + Real.log p) / d.temp)
  field_simp

omit [NormedAddCommGroup E] [NormedSpace ℝ E] in
theorem soft_mem (d : GumbelVar E m K) (eps : ℝ) (u : Fin K → ℝ) (θ : E) (r : Nat) (i : Fin K) :
    d.soft eps u θ r i ∈ Set.Icc (0 : ℝ) 1 := by
  rw [GumbelVar.soft]
  split
  · exact ⟨normalise_nonneg _ i, normalise_le_one _ i⟩
  · rw [relaxedBernoulli, sigmoid]
    refine ⟨by positivity, ?_⟩
    rw [div_le_one (by positivity)]
    linarith [Real.exp_pos (-((Real.log (clampProbs eps (u i)) - log1p (-clampProbs eps (u i)) +
      Real.log (clampProbs eps (d.prob θ r i)) - log1p (-clampProbs eps (d.prob θ r i))) / d.temp))]

omit [NormedAddCommGroup E] [NormedSpace ℝ E] in
theorem clamp_soft (d : GumbelVar E m K) (u : Fin K → ℝ) (θ : E) (r : Nat) (i : Fin K) :
    clampProbs 0 (d.soft 0 u θ r i) = d.soft 0 u θ r i := by
  obtain ⟨a, b⟩ := soft_mem d 0 u θ r i
  exact clamp_id a (by rw [sub_zero]; exact b)

/-- Smooth functions of the relaxed samples can be differentiated under the expectation. -/
theorem regular_softs (h0 : 0 ≤ eps) (h1 : eps < 1 / 2) (hT : 0 < d.temp) (hg : ∀ᶠ θ in 𝓝 θ₀, d.Good eps θ)
    (hp : ∀ (r : Fin m) i, ContDiffAt ℝ 1 (fun θ => d.prob θ r i) θ₀) {f : E → (Fin m → Fin K → ℝ) → ℝ}
    (hf : ContDiff ℝ 1 (fun q : E × (Fin m → Fin K → ℝ) => f q.1 q.2)) :
    Regular (rows m K) (fun θ u => f θ (d.softs eps u θ)) θ₀ := by
  have hmc : ∀ (i : Fin K) (r : Fin m), Measurable (fun u : Fin m → Fin K → ℝ => clampProbs eps (u r i)) := fun i r =>
    (measurable_clamp eps).comp ((measurable_pi_apply i).comp (measurable_pi_apply r))
  cases hk : d.kind with
  | oneHot =>
    have h := regular_ratios (μ := rows m K) (p := fun θ (r : Fin m) => d.prob θ r) (T := fun _ => d.temp)
      (a := fun u r i => -Real.log (clampProbs eps (u r i))) (b := fun _ _ _ => 0)
      (measurable_pi_lambda _ fun r => measurable_pi_lambda _ fun i => (Real.measurable_log.comp (hmc i r)).neg) measurable_const
      (by filter_upwards [rows_mem m K] with u hu r i
          have := neg_log_pos (clamp_Ioo h0 h1 (hu r i))
          exact ⟨this.le, le_rfl, by linarith⟩)
      (fun r i => by simpa using integrable_coord (integrable_clamp_neglog h0 h1) r i) hp
      (hg.mono fun θ h r i => ⟨h.pos r i, by linarith [h.hi r i]⟩) contDiffAt_const hT hf
    refine h.congr hg ?_
    filter_upwards [rows_mem m K] with u hu θ hθ
    rw [softs_oneHot hk h0 h1 hθ hu]
  | bernoulli =>
    have h := regular_ratios (μ := rows m K) (p := d.bernP) (T := fun _ => d.temp)
      (a := bernA eps) (b := fun _ _ _ => 0)
      (measurable_pi_lambda _ fun s => measurable_pi_lambda _ fun j => by
        simp only [bernA]
        split
        · exact (hmc _ _).inv
        · exact ((hmc _ _).const_sub 1).inv) measurable_const
      (by filter_upwards [rows_mem m K] with u hu s j
          have : 0 < bernA eps u s j := by
            obtain ⟨c0, c1⟩ := clamp_Ioo h0 h1 (hu (finProdFinEquiv.symm s).1 (finProdFinEquiv.symm s).2)
            simp only [bernA]
            split
            · positivity
            · exact inv_pos.2 (by linarith)
          exact ⟨this.le, le_rfl, by linarith⟩)
      (fun s j => by
        simp only [bernA, add_zero]
        split
        · simp only [Real.log_inv, abs_neg]
          exact integrable_coord (integrable_clamp_log h0 h1) _ _
        · simp only [Real.log_inv, abs_neg]
          exact integrable_coord (integrable_clamp_log_one_sub h0 h1) _ _)
      (fun s j => by
        simp only [GumbelVar.bernP]
        split
        · exact hp _ _
        · exact contDiffAt_const.sub (hp _ _))
      (hg.mono fun θ h s j => by
        have a := h.pos (finProdFinEquiv.symm s).1 (finProdFinEquiv.symm s).2
        have b := h.lt_one (finProdFinEquiv.symm s).1 (finProdFinEquiv.symm s).2 hk
        simp only [GumbelVar.bernP]
        split
        · exact ⟨a, b.le⟩
        · exact ⟨by linarith, by linarith⟩) contDiffAt_const hT
      (N := fun θ x => f θ (fun r i => x (finProdFinEquiv (r, i)) 0))
      (by
        have hx : ContDiff ℝ 1 (fun q : E × (Fin (m * K) → Fin 2 → ℝ) =>
            (q.1, fun (r : Fin m) (i : Fin K) => q.2 (finProdFinEquiv (r, i)) 0)) :=
          contDiff_fst.prodMk (contDiff_pi.2 fun r => contDiff_pi.2 fun i =>
            contDiff_pi.1 (contDiff_pi.1 contDiff_snd _) _)
        exact hf.comp hx)
    refine h.congr hg ?_
    filter_upwards [rows_mem m K] with u hu θ hθ
    congr 1
    funext r i
    rw [softs_bernoulli hk h0 h1 hθ hu]

theorem softs_differentiable (h0 : 0 ≤ eps) (h1 : eps < 1 / 2) (hT : 0 < d.temp) (hg : ∀ᶠ θ in 𝓝 θ₀, d.Good eps θ)
    (hp : ∀ (r : Fin m) i, ContDiffAt ℝ 1 (fun θ => d.prob θ r i) θ₀) :
    ∀ᵐ u ∂rows m K, DifferentiableAt ℝ (d.softs eps u) θ₀ := by
  have h : ∀ᵐ u ∂rows m K, ∀ r i, DifferentiableAt ℝ (fun θ => d.softs eps u θ r i) θ₀ := by
    rw [ae_all_iff]; intro r
    rw [ae_all_iff]; intro i
    exact (regular_softs h0 h1 hT hg hp (f := fun _ x => x r i)
      (contDiff_pi.1 (contDiff_pi.1 contDiff_snd r) i)).deriv.1
  filter_upwards [h] with u hu
  exact differentiableAt_pi.2 fun r => differentiableAt_pi.2 fun i => hu r i

end

end Storch
