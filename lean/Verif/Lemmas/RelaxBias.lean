import Verif.Props.RelaxLawProps
import Mathlib.MeasureTheory.Integral.Prod
import Mathlib.Analysis.Calculus.ParametricIntegral
import Mathlib.Analysis.SpecialFunctions.Log.Deriv

/-!
# Averages over the random numbers of RELAX
-/

namespace Storch.Gumbel

open MeasureTheory Filter Topology

variable {n : Nat}

/-- `lintegral_expo` as an equation between measures. -/
theorem map_expo {p : Fin n → ℝ} (hp : ∀ i, 0 < p i) (hsum : ∑ i, p i = 1) (j : Fin n) :
    ((cube n).restrict (First p Finset.univ j)).map (expo p) = ENNReal.ofReal (p j) • (cube n).map (condExpo p j) := by
  ext s hs
  have h := lintegral_expo hp hsum j (F := s.indicator 1) (measurable_one.indicator hs)
  have e1 : ∀ u, s.indicator (1 : (Fin n → ℝ) → ENNReal) (expo p u) = (expo p ⁻¹' s).indicator 1 u := fun u => rfl
  have e2 : ∀ u, s.indicator (1 : (Fin n → ℝ) → ENNReal) (condExpo p j u) = (condExpo p j ⁻¹' s).indicator 1 u := fun u => rfl
  simp only [e1, e2] at h
  rw [lintegral_indicator_one (measurable_expo p hs), lintegral_indicator_one (measurable_condExpo p j hs)] at h
  rw [Measure.map_apply (measurable_expo p) hs, Measure.smul_apply, Measure.map_apply (measurable_condExpo p j) hs,
    smul_eq_mul, h]

/-- The law of the random numbers for `m` variables with `n` outcomes. -/
noncomputable def rows (m n : Nat) : Measure (Fin m → Fin n → ℝ) := Measure.pi (fun _ => cube n)

instance (m n : Nat) : IsProbabilityMeasure (rows m n) := by unfold rows; infer_instance

variable {m : Nat}

theorem rows_ae {P : Fin m → (Fin n → ℝ) → Prop} (h : ∀ d, ∀ᵐ x ∂cube n, P d x) : ∀ᵐ u ∂rows m n, ∀ d, P d (u d) := by
  rw [ae_all_iff]
  intro d
  exact (measurePreserving_eval (fun _ : Fin m => cube n) d).quasiMeasurePreserving.ae (h d)

/-- The relaxed samples, in terms of the exponential variables. -/
noncomputable def zOf (τ : ℝ) (p u : Fin m → Fin n → ℝ) (d : Fin m) : Fin n → ℝ := ofExpo τ (expo (p d) (u d))

/-- The conditional samples, in terms of the exponential variables. -/
noncomputable def ztOf (τ : ℝ) (p : Fin m → Fin n → ℝ) (j : Fin m → Fin n) (v : Fin m → Fin n → ℝ) (d : Fin m) : Fin n → ℝ :=
  ofExpo τ (condExpo (p d) (j d) (v d))

theorem measurable_zOf (τ : ℝ) (p : Fin m → Fin n → ℝ) : Measurable (zOf τ p) :=
  measurable_pi_lambda _ (fun d => ((measurable_ofExpo τ).comp (measurable_expo (p d))).comp (measurable_pi_apply d))

theorem measurable_ztOf (τ : ℝ) (p : Fin m → Fin n → ℝ) (j : Fin m → Fin n) : Measurable (ztOf τ p j) :=
  measurable_pi_lambda _ (fun d =>
    ((measurable_ofExpo τ).comp (measurable_condExpo (p d) (j d))).comp (measurable_pi_apply d))

/-- The random numbers that give the hard samples `j`. -/
def Firsts (p : Fin m → Fin n → ℝ) (j : Fin m → Fin n) : Set (Fin m → Fin n → ℝ) :=
  Set.univ.pi (fun d => First (p d) Finset.univ (j d))

theorem measurable_Firsts (p : Fin m → Fin n → ℝ) (j : Fin m → Fin n) : MeasurableSet (Firsts p j) :=
  MeasurableSet.univ_pi (fun d => measurable_First (p d) _ (j d))

theorem rows_map {p : Fin m → Fin n → ℝ} (hp : ∀ d i, 0 < p d i) (hsum : ∀ d, ∑ i, p d i = 1) (τ : ℝ)
    (j : Fin m → Fin n) :
    ((rows m n).restrict (Firsts p j)).map (zOf τ p) =
      ENNReal.ofReal (∏ d, p d (j d)) • (rows m n).map (ztOf τ p j) := by
  have h1 : ((rows m n).restrict (Firsts p j)).map (fun u d => expo (p d) (u d)) =
      ENNReal.ofReal (∏ d, p d (j d)) • (rows m n).map (fun v d => condExpo (p d) (j d) (v d)) := by
    rw [rows, Firsts, Measure.restrict_pi_pi, Measure.pi_map_pi (fun d => (measurable_expo (p d)).aemeasurable),
      Measure.pi_map_pi (fun d => (measurable_condExpo (p d) (j d)).aemeasurable)]
    refine Measure.pi_eq (fun s hs => ?_)
    rw [Measure.smul_apply, Measure.pi_pi, smul_eq_mul, ENNReal.ofReal_prod_of_nonneg (fun d _ => (hp d (j d)).le),
      ← Finset.prod_mul_distrib]
    refine Finset.prod_congr rfl (fun d _ => ?_)
    rw [map_expo (hp d) (hsum d) (j d), Measure.smul_apply, smul_eq_mul]
  have hg : Measurable (fun (t : Fin m → Fin n → ℝ) d => ofExpo τ (t d)) :=
    measurable_pi_lambda _ (fun d => (measurable_ofExpo τ).comp (measurable_pi_apply d))
  have m1 : Measurable (fun (u : Fin m → Fin n → ℝ) d => expo (p d) (u d)) :=
    measurable_pi_lambda _ (fun d => (measurable_expo (p d)).comp (measurable_pi_apply d))
  have m2 : Measurable (fun (v : Fin m → Fin n → ℝ) d => condExpo (p d) (j d) (v d)) :=
    measurable_pi_lambda _ (fun d => (measurable_condExpo (p d) (j d)).comp (measurable_pi_apply d))
  have := congrArg (fun μ => μ.map (fun (t : Fin m → Fin n → ℝ) d => ofExpo τ (t d))) h1
  simp only [Measure.map_smul] at this
  rw [Measure.map_map hg m1, Measure.map_map hg m2] at this
  exact this

theorem disjoint_Firsts {p : Fin m → Fin n → ℝ} (hp : ∀ d i, 0 < p d i) {j k : Fin m → Fin n}
    {u : Fin m → Fin n → ℝ} (hu : ∀ d i, u d i ∈ Set.Ioo (0 : ℝ) 1) (h1 : u ∈ Firsts p j) (h2 : u ∈ Firsts p k) : j = k := by
  funext d
  by_contra hne
  exact disjoint_First (hp d) (Finset.mem_univ _) (Finset.mem_univ _) hne (hu d) (h1 d (Set.mem_univ d)) (h2 d (Set.mem_univ d))

theorem ae_Firsts {p : Fin m → Fin n → ℝ} (hp : ∀ d i, 0 < p d i) (hn : 0 < n) :
    ∀ᵐ u ∂rows m n, (∀ d i, u d i ∈ Set.Ioo (0 : ℝ) 1) ∧ ∃ j, u ∈ Firsts p j := by
  filter_upwards [rows_ae (P := fun _ x => ∀ i, x i ∈ Set.Ioo (0 : ℝ) 1) (fun _ => cube_mem n),
    rows_ae (P := fun d x => ∃ j ∈ Finset.univ, x ∈ First (p d) Finset.univ j)
      (fun d => ae_First (hp d) ⟨⟨0, hn⟩, Finset.mem_univ _⟩)] with u h1 h2
  refine ⟨h1, fun d => (h2 d).choose, fun d _ => (h2 d).choose_spec.2⟩

/-- The sum over the hard samples: exactly one of them happens. -/
theorem sum_Firsts {F : Type*} [AddCommMonoid F] {p : Fin m → Fin n → ℝ} (hp : ∀ d i, 0 < p d i) {j : Fin m → Fin n}
    {u : Fin m → Fin n → ℝ} (hu : ∀ d i, u d i ∈ Set.Ioo (0 : ℝ) 1) (hj : u ∈ Firsts p j) (g : (Fin m → Fin n) → F) :
    ∑ k, (Firsts p k).indicator (fun _ => g k) u = g j := by
  rw [Finset.sum_eq_single j]
  · rw [Set.indicator_of_mem hj]
  · intro k _ hne
    rw [Set.indicator_of_notMem]
    intro hk
    exact hne (disjoint_Firsts hp hu hk hj)
  · intro h; exact absurd (Finset.mem_univ j) h

/-- Averages of a function of the relaxed samples: first the hard samples, then the conditional samples. -/
theorem integral_rows {p : Fin m → Fin n → ℝ} (hp : ∀ d i, 0 < p d i) (hsum : ∀ d, ∑ i, p d i = 1) (hn : 0 < n) (τ : ℝ)
    {c : (Fin m → Fin n → ℝ) → ℝ} (hc : Measurable c) (hi : Integrable (fun u => c (zOf τ p u)) (rows m n)) :
    ∫ u, c (zOf τ p u) ∂rows m n = ∑ j : Fin m → Fin n, (∏ d, p d (j d)) * ∫ v, c (ztOf τ p j v) ∂rows m n := by
  have h1 : ∫ u, c (zOf τ p u) ∂rows m n = ∫ u, ∑ j, (Firsts p j).indicator (fun u => c (zOf τ p u)) u ∂rows m n := by
    refine integral_congr_ae ?_
    filter_upwards [ae_Firsts hp hn] with u hu
    obtain ⟨j, hj⟩ := hu.2
    rw [← sum_Firsts hp hu.1 hj (fun _ => c (zOf τ p u))]
    refine Finset.sum_congr rfl (fun k _ => ?_)
    by_cases hk : u ∈ Firsts p k
    · rw [Set.indicator_of_mem hk, Set.indicator_of_mem hk]
    · rw [Set.indicator_of_notMem hk, Set.indicator_of_notMem hk]
  rw [h1, integral_finsetSum _ (fun j _ => hi.indicator (measurable_Firsts p j))]
  refine Finset.sum_congr rfl (fun j _ => ?_)
  rw [integral_indicator (measurable_Firsts p j),
    ← integral_map (measurable_zOf τ p).aemeasurable hc.aestronglyMeasurable, rows_map hp hsum τ j,
    integral_smul_measure, integral_map (measurable_ztOf τ p j).aemeasurable hc.aestronglyMeasurable,
    ENNReal.toReal_ofReal (Finset.prod_nonneg (fun d _ => (hp d (j d)).le)), smul_eq_mul]

theorem measure_Firsts {p : Fin m → Fin n → ℝ} (hp : ∀ d i, 0 < p d i) (hsum : ∀ d, ∑ i, p d i = 1)
    (j : Fin m → Fin n) : (rows m n).real (Firsts p j) = ∏ d, p d (j d) := by
  rw [Measure.real, rows, Firsts, Measure.pi_pi, ENNReal.toReal_prod]
  refine Finset.prod_congr rfl (fun d _ => ?_)
  rw [measure_First _ (hp d) _ _ (Finset.mem_univ _), hsum d, div_one, ENNReal.toReal_ofReal (hp d _).le]

end Storch.Gumbel
