import Verif.Lemmas.GumbelIntegrable

/-!
# Expectations of one relaxed row
-/

namespace Storch
open Gumbel MeasureTheory Topology

section
variable {E : Type _} [NormedAddCommGroup E] [NormedSpace ℝ E] {θ₀ : E} {K : Nat}

theorem Regular.transport {Ω Ω' : Type*} [MeasurableSpace Ω] [MeasurableSpace Ω'] {μ : Measure Ω} {ν : Measure Ω'}
    {g : E → Ω → ℝ} (h : Regular μ g θ₀) {T : Ω' → Ω} (hT : MeasurePreserving T ν μ) :
    Regular ν (fun θ ω => g θ (T ω)) θ₀ := by
  obtain ⟨s, hs, B, hB, hb⟩ := h.bound
  refine ⟨h.int.mono fun θ hθ => hT.integrable_comp_of_integrable hθ,
    h.measDeriv.comp_measurePreserving hT, s, hs, fun ω => B (T ω), hT.integrable_comp_of_integrable hB, ?_⟩
  exact hT.quasiMeasurePreserving.ae hb

theorem const_row (K : Nat) : MeasurePreserving (fun (x : Fin K → ℝ) (_ : Fin 1) => x) (cube K) (rows 1 K) :=
  (measurePreserving_funUnique (cube K) (Fin 1)).symm

/-- The variable of one row with the cost as its network. -/
noncomputable def rowVar (prob : E → Fin K → ℝ) (τ : ℝ) (f : E → (Fin K → ℝ) → ℝ) : RelaxVar E 1 K :=
  ⟨fun θ _ i => prob θ i, fun _ => τ, fun _ => 0, fun θ x => f θ (x 0)⟩

/-- The conditional row given the outcome `s`. -/
noncomputable def rowGiven (am : (Fin K → ℝ) → Fin K) (eps τ : ℝ) (s : Fin K) (p w : Fin K → ℝ) : Fin K → ℝ :=
  conditionalRow am eps τ (fun i => if i = s then 1 else 0) p w

variable {am : (Fin K → ℝ) → Fin K} {prob : E → Fin K → ℝ} {τ : ℝ} {f : E → (Fin K → ℝ) → ℝ}

theorem rowVar_smooth (ham : ∀ (s : Fin K → ℝ) i, s i ≤ s (am s)) (hτ : 0 < τ)
    (hpr : ∀ᶠ θ in 𝓝 θ₀, (∀ i, 0 < prob θ i) ∧ ∑ i, prob θ i = 1) (hp : ∀ i, ContDiffAt ℝ 1 (fun θ => prob θ i) θ₀)
    (hf : ContDiff ℝ 1 (fun q : E × (Fin K → ℝ) => f q.1 q.2)) :
    (rowVar prob τ f).Smooth am (fun _ _ => 0) θ₀ := by
  refine RelaxVar.smooth_of ham (hpr.mono fun θ h => ⟨fun _ => h.1, fun _ => h.2, hτ⟩) (fun _ => hp) contDiffAt_const
    (differentiableAt_const _) (fun _ => differentiableAt_const _) ?_
  have : ContDiff ℝ 1 (fun q : E × (Fin 1 → Fin K → ℝ) => (q.1, q.2 0)) :=
    contDiff_fst.prodMk ((contDiff_apply ℝ (Fin K → ℝ) (0 : Fin 1)).comp contDiff_snd)
  exact hf.comp this

theorem row_cond (ham : ∀ (s : Fin K → ℝ) i, s i ≤ s (am s)) (hτ : 0 < τ)
    (hpr : ∀ᶠ θ in 𝓝 θ₀, (∀ i, 0 < prob θ i) ∧ ∑ i, prob θ i = 1) (hp : ∀ i, ContDiffAt ℝ 1 (fun θ => prob θ i) θ₀)
    (hf : ContDiff ℝ 1 (fun q : E × (Fin K → ℝ) => f q.1 q.2)) (s : Fin K) :
    Regular (cube K) (fun θ w => f θ (rowGiven am 0 τ s (prob θ) w)) θ₀ := by
  have h := ((rowVar_smooth ham hτ hpr hp hf).cond (fun _ => s)).transport (const_row K)
  refine h.congr (P := fun _ => True) (Filter.Eventually.of_forall fun _ => trivial) (Filter.Eventually.of_forall fun w θ _ => ?_)
  show _ = f θ (conditionalRow am 0 τ _ _ (extRows (fun _ : Fin 1 => w) (0 : Fin 1).val))
  rw [extRows_fin]
  rfl

theorem row_relaxed (ham : ∀ (s : Fin K → ℝ) i, s i ≤ s (am s)) (hτ : 0 < τ)
    (hpr : ∀ᶠ θ in 𝓝 θ₀, (∀ i, 0 < prob θ i) ∧ ∑ i, prob θ i = 1) (hp : ∀ i, ContDiffAt ℝ 1 (fun θ => prob θ i) θ₀)
    (hf : ContDiff ℝ 1 (fun q : E × (Fin K → ℝ) => f q.1 q.2)) :
    Regular (cube K) (fun θ w => f θ (relaxedCategorical 0 τ (prob θ) w)) θ₀ := by
  have h := ((rowVar_smooth ham hτ hpr hp hf).relaxed).transport (const_row K)
  refine h.congr (P := fun _ => True) (Filter.Eventually.of_forall fun _ => trivial) (Filter.Eventually.of_forall fun w θ _ => ?_)
  show _ = f θ (relaxedCategorical 0 τ _ (extRows (fun _ : Fin 1 => w) (0 : Fin 1).val))
  rw [extRows_fin]
  rfl

theorem integral_row (G : (Fin 1 → Fin K → ℝ) → ℝ) : ∫ u, G u ∂rows 1 K = ∫ w, G (fun _ => w) ∂cube K :=
  ((measurePreserving_funUnique (cube K) (Fin 1)).symm.integral_comp' G).symm

/-- The expectation over a relaxed row is that of the conditional row over its outcome. -/
theorem row_mix (hK : 0 < K) (ham : ∀ (s : Fin K → ℝ) i, s i ≤ s (am s)) (hτ : 0 < τ)
    (hpr : ∀ᶠ θ in 𝓝 θ₀, (∀ i, 0 < prob θ i) ∧ ∑ i, prob θ i = 1) (hp : ∀ i, ContDiffAt ℝ 1 (fun θ => prob θ i) θ₀)
    (hf : ContDiff ℝ 1 (fun q : E × (Fin K → ℝ) => f q.1 q.2)) :
    ∀ᶠ θ in 𝓝 θ₀, ∫ w, f θ (relaxedCategorical 0 τ (prob θ) w) ∂cube K =
      ∑ s, prob θ s * ∫ w, f θ (rowGiven am 0 τ s (prob θ) w) ∂cube K := by
  have hs := rowVar_smooth ham hτ hpr hp hf
  filter_upwards [hs.good, hs.net, hs.relaxed.int] with θ h1 h2 h3
  have h := integral_net h1 hK ham h2 h3
  rw [integral_row] at h
  have e1 : ∀ w : Fin K → ℝ, (rowVar prob τ f).net θ ((rowVar prob τ f).zAt 0 (extRows (fun _ : Fin 1 => w)) θ) =
      f θ (relaxedCategorical 0 τ (prob θ) w) := by
    intro w
    show f θ (relaxedCategorical 0 τ _ (extRows (fun _ : Fin 1 => w) (0 : Fin 1).val)) = _
    rw [extRows_fin]
    rfl
  simp only [e1] at h
  rw [h, ← (Equiv.funUnique (Fin 1) (Fin K)).symm.sum_comp]
  refine Finset.sum_congr rfl (fun s _ => ?_)
  rw [integral_row, Fin.prod_univ_one]
  congr 1

end

end Storch
