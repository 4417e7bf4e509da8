import Verif.Lemmas.EntmaxGrad
import Verif.Props.EntmaxProps

/-!
# C96: gradients with `GumbelEntmax` and `GumbelSparseMax`
-/

namespace Storch
open Gumbel Entmax MeasureTheory Topology

section
variable {E : Type _} [NormedAddCommGroup E] [NormedSpace ℝ E] {θ₀ : E} {m K : Nat}

/-- C96 for exponents up to two: `x = GumbelEntmax(name, n_samples=n, …)(OneHotCategorical(p))` with `m` variables of `K`
outcomes and `add_cost(f(x))`.  The relaxed sample `X θ u` is the entmax of the Gumbel variables over the temperature.  For
all random numbers the surrogate loss can be computed, and it is the average cost of the relaxed samples as a function of the
parameters; for almost all it is differentiable; and the expectation of its gradient is the derivative of the expected cost
of the relaxed sample. -/
theorem C96_relaxed_partial {hook : UnwrapHook (AD E θ₀)} (hh : PlainHook hook) {inv : Nat → AD E θ₀}
    (hinv : ∀ k, inv k = AD.const (1 / (k : ℝ))) {lib : EntmaxLib} (hl : lib.Keeps) {a : EntmaxArgs} (ha : a.Good)
    (h2 : a.exponent ≤ 2) (hK : 0 < K) {eps : ℝ} {p : E → Fin m → Fin K → ℝ}
    (hg : ∀ᶠ θ in 𝓝 θ₀, ∀ r i, eps ≤ p θ r i ∧ p θ r i ≤ 1 - eps) (hpos : ∀ r i, 0 < p θ₀ r i)
    (hp : ∀ r i, ContDiffAt ℝ 1 (fun θ => p θ r i) θ₀) {f : E → (Fin m → Fin K → ℝ) → ℝ}
    (hf : ContDiff ℝ 1 (fun q : E × (Fin m → Fin K → ℝ) => f q.1 q.2)) (name : String) {n : Nat} (hn : 1 ≤ n) :
    ∃ (X : E → (Fin m → Fin K → ℝ) → Fin m → Fin K → ℝ) (L : (Fin n → Fin m → Fin K → ℝ) → STen (AD E θ₀)),
      (∀ᶠ θ in 𝓝 θ₀, ∀ u r, IsEntmax a.exponent
        (fun i => (Real.log (p θ r i) + -Real.log (-Real.log (u r i))) / a.temperature) (X θ u r)) ∧
      (∀ w, entmaxProgram hook inv lib a .oneHot eps (fun θ => entProbs (p θ)) f name n (entNoise w) = .ok (L w) ∧
        (L w).plates = [] ∧ (L w).ten.shape = [] ∧
        ∀ θ, (L w).ten.get [] θ = 1 / (n : ℝ) * ∑ k, f θ (X θ (w k))) ∧
      (∀ᵐ w ∂(Measure.pi fun _ : Fin n => rows m K), DifferentiableAt ℝ ((L w).ten.get []) θ₀) ∧
      Integrable (fun w => fderiv ℝ ((L w).ten.get []) θ₀) (Measure.pi fun _ : Fin n => rows m K) ∧
      HasFDerivAt (fun θ => ∫ u, f θ (X θ u) ∂rows m K)
        (∫ w, fderiv ℝ ((L w).ten.get []) θ₀ ∂(Measure.pi fun _ : Fin n => rows m K)) θ₀ := by
  have h1 := ha.exponent_gt
  have hT := ha.temp
  set G : (Fin K → ℝ) → Fin K → ℝ := a.choose lib K with hGd
  have hG : ∀ x, IsEntmax a.exponent x (G x) := choose_isEntmax hl ha hK
  set Φ : (Fin m → Fin K → ℝ) → Fin m → Fin K → ℝ := fun x r => G (x r) with hΦd
  set l : E → Fin m → Fin K → ℝ := fun θ r i => logitOf .oneHot eps (p θ r i) with hld
  set v : (Fin m → Fin K → ℝ) → Fin m → Fin K → ℝ := fun u r i => stdGum (u r i) with hvd
  set X : E → (Fin m → Fin K → ℝ) → Fin m → Fin K → ℝ := fun θ u => Φ (a.temperature⁻¹ • (l θ + v u)) with hXd
  have hlog : ∀ θ, (∀ r i, eps ≤ p θ r i ∧ p θ r i ≤ 1 - eps) → ∀ r i, l θ r i = Real.log (p θ r i) := fun θ h r i => by
    simp only [hld]
    rw [logitOf, clampProbs, max_eq_left (h r i).1, min_eq_left (h r i).2]
  have hLip : LipschitzWith K Φ := by
    refine LipschitzWith.of_dist_le_mul (fun x y => ?_)
    refine (dist_pi_le_iff (by positivity)).2 (fun r => ?_)
    exact ((lipschitz h1 h2 hG).dist_le_mul (x r) (y r)).trans (by gcongr; exact dist_le_pi_dist x y r)
  have hlc : ContDiffAt ℝ 1 l θ₀ := by
    refine contDiffAt_pi.2 (fun r => contDiffAt_pi.2 (fun i => ?_))
    refine ((hp r i).log (hpos r i).ne').congr_of_eventuallyEq ?_
    filter_upwards [hg] with θ hθ
    exact hlog θ hθ r i
  have hvm : Measurable v := measurable_pi_lambda _ fun r => measurable_pi_lambda _ fun i =>
    measurable_stdGum.comp ((measurable_pi_apply i).comp (measurable_pi_apply r))
  have hx : ∀ θ u r, (a.temperature⁻¹ • (l θ + v u)) r = fun i => (l θ r i + stdGum (u r i)) / a.temperature := by
    intro θ u r
    funext i
    simp only [hvd, Pi.smul_apply, Pi.add_apply, smul_eq_mul]
    rw [inv_mul_eq_div]
  have hdiff : ∀ᵐ u ∂rows m K, DifferentiableAt ℝ Φ (a.temperature⁻¹ • (l θ₀ + v u)) := by
    filter_upwards [rows_ae (P := fun r x => DifferentiableAt ℝ G (fun i => (l θ₀ r i + stdGum (x i)) / a.temperature))
      (fun r => ae_differentiable (lipschitz h1 h2 hG) hT (l θ₀ r))] with u hu
    refine differentiableAt_pi.2 (fun r => ?_)
    have := hu r
    rw [← hx θ₀ u r] at this
    exact this.comp (a.temperature⁻¹ • (l θ₀ + v u))
      (ContinuousLinearMap.proj (R := ℝ) (φ := fun _ : Fin m => Fin K → ℝ) r).differentiableAt
  obtain ⟨t1, t2, t3⟩ := lipschitz_deriv hLip (fun x r i => ⟨(hG (x r)).1.1 i, (hG (x r)).1.le_one i⟩) hvm hlc a.temperature
    hdiff hf
  choose t L L1 L2 L3 L4 L5 using fun w : Fin n → Fin m → Fin K → ℝ =>
    pathwise_run (θ₀ := θ₀) hh hinv f name hn
      (fun n => ⟨n :: (entProbs (p θ₀)).shape, fun idx θ =>
        (sampleGumbelEntmax lib a .oneHot eps (entProbs (p θ)) (entNoise w) n).get idx⟩)
      ⟨(entProbs (p θ₀)).shape, fun idx θ => (entProbs (p θ)).get idx⟩ rfl
  have hval : ∀ (w : Fin n → Fin m → Fin K → ℝ) (k : Fin n) θ (r : Fin m) (i : Fin K),
      (sampleGumbelEntmax lib a .oneHot eps (entProbs (p θ)) (entNoise w) n).get [k.val, r.val, i.val] = X θ (w k) r i := by
    intro w k θ r i
    have := alongLast_get (a.choose lib) (b := [n, m]) (K := K)
      (t := (rsampleGumbel .oneHot eps (entProbs (p θ)) (entNoise w) n).map (fun g => g / a.temperature)) rfl [k.val, r.val] i
    refine this.trans ?_
    simp only [hXd, hΦd, hx]
    refine congrFun (congrArg _ (funext fun j => ?_)) i
    have e1 : (entProbs (p θ)).get [r.val, j.val] = p θ r j := by
      unfold entProbs
      simp [r.isLt, j.isLt]
    have e2 : entNoise w [k.val, r.val, j.val] = w k r j := by
      unfold entNoise
      simp [j.isLt, drawsOf_fin, extRows_fin]
    change (logitOf .oneHot eps ((entProbs (p θ)).get [r.val, j.val]) +
      -Real.log (-Real.log (entNoise w [k.val, r.val, j.val]))) / a.temperature = _
    rw [e1, e2]
    rfl
  have hL : ∀ w, (L w).ten.get [] = fun θ => ∑ k : Fin n, 1 / (n : ℝ) * f θ (X θ (w k)) := by
    intro w
    funext θ
    rw [L5, Finset.sum_range]
    refine Finset.sum_congr rfl (fun k _ => ?_)
    congr 2
    funext r i
    exact hval w k θ r i
  have hae : ∀ᵐ w ∂(Measure.pi fun _ : Fin n => rows m K), ∀ k, DifferentiableAt ℝ (fun θ => f θ (X θ (w k))) θ₀ := by
    rw [ae_all_iff]
    intro k
    exact (measurePreserving_eval (fun _ : Fin n => rows m K) k).quasiMeasurePreserving.ae t1
  have hder : ∀ᵐ w ∂(Measure.pi fun _ : Fin n => rows m K), HasFDerivAt ((L w).ten.get [])
      (∑ k : Fin n, (1 / (n : ℝ)) • fderiv ℝ (fun θ => f θ (X θ (w k))) θ₀) θ₀ := by
    filter_upwards [hae] with w hw
    rw [hL]
    exact HasFDerivAt.fun_sum (fun k _ => (hw k).hasFDerivAt.const_mul _)
  have hgr : (fun w => fderiv ℝ ((L w).ten.get []) θ₀) =ᵐ[Measure.pi fun _ : Fin n => rows m K]
      fun w => ∑ k : Fin n, (1 / (n : ℝ)) • fderiv ℝ (fun θ => f θ (X θ (w k))) θ₀ := hder.mono fun w hw => hw.fderiv
  obtain ⟨a1, a2⟩ := average_integral_gen (μ := rows m K) hn t2
  refine ⟨X, L, ?_, fun w => ⟨?_, L3 w, L4 w, fun θ => ?_⟩, hder.mono fun w hw => hw.differentiableAt, a1.congr hgr.symm, ?_⟩
  · filter_upwards [hg] with θ hθ u r
    have := hG (fun i => (l θ r i + stdGum (u r i)) / a.temperature)
    simp only [hXd, hΦd, hx]
    simp only [hlog θ hθ] at this ⊢
    exact this
  · rw [entmaxProgram, L1 w]
    exact L2 w
  · rw [hL, Finset.mul_sum]
  · rw [integral_congr_ae hgr, a2]
    exact t3

end

namespace EntmaxCase

/-- A variable with two outcomes whose probabilities are `1/2 ± θ/4`, two samples, `GumbelSparseMax` and the square of the
first entry as the cost. -/
example := C96_relaxed_partial (E := ℝ) (θ₀ := 0) (m := 1) (K := 2) (hook := fun _ t => .ok t) (fun _ _ _ => rfl)
  (inv := fun k => AD.const (1 / (k : ℝ))) (fun _ => rfl) lib_keeps good_sparse
  (by norm_num [EntmaxArgs.exponent, sparseMaxArgs]) (by norm_num) (eps := 1 / 8)
  (p := fun θ _ i => if i = 0 then 1 / 2 + θ / 4 else 1 / 2 - θ / 4)
  (by
    filter_upwards [Metric.ball_mem_nhds (0 : ℝ) one_pos] with θ hθ r i
    rw [Metric.mem_ball, dist_zero_right, Real.norm_eq_abs, abs_lt] at hθ
    split <;> constructor <;> linarith)
  (by intro r i; split <;> norm_num)
  (by
    intro r i
    split
    · exact (contDiff_const.add (contDiff_id.div_const 4)).contDiffAt
    · exact (contDiff_const.sub (contDiff_id.div_const 4)).contDiffAt)
  (f := fun _ x => x 0 0 ^ 2)
  (by
    have : ContDiff ℝ 1 (fun q : ℝ × (Fin 1 → Fin 2 → ℝ) => q.2 0 0) :=
      contDiff_pi.1 (contDiff_pi.1 contDiff_snd 0) 0
    exact this.pow 2)
  "z" (n := 2) (by norm_num)

end EntmaxCase

end Storch
