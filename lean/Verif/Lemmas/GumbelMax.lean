import Verif.Model.Gumbel
import Mathlib.MeasureTheory.Constructions.Pi
import Mathlib.Analysis.SpecialFunctions.Integrals.Basic
import Mathlib.MeasureTheory.Measure.Lebesgue.Basic

/-!
# The largest of independent Gumbel variables

The uniform random numbers are points of the unit cube; outcome `i` has the Gumbel variable `log (p i) - log (-log (u i))`.
-/

namespace Storch.Gumbel

open MeasureTheory

/-- The law of one uniform random number. -/
noncomputable def unif : Measure ℝ := volume.restrict (Set.Ioo 0 1)

instance : SigmaFinite unif := by unfold unif; infer_instance

/-- The law of independent uniform random numbers. -/
noncomputable def cube (n : Nat) : Measure (Fin n → ℝ) := Measure.pi (fun _ => unif)

theorem unif_univ : unif Set.univ = 1 := by simp [unif]

instance : IsProbabilityMeasure unif := ⟨unif_univ⟩

instance (n : Nat) : IsProbabilityMeasure (cube n) := by unfold cube; infer_instance

theorem unif_Iio {c : ℝ} (h1 : c ≤ 1) : unif (Set.Iio c) = ENNReal.ofReal c := by
  rw [unif, Measure.restrict_apply measurableSet_Iio]
  have : Set.Iio c ∩ Set.Ioo (0 : ℝ) 1 = Set.Ioo 0 c := by
    ext x
    simp only [Set.mem_inter_iff, Set.mem_Iio, Set.mem_Ioo]
    constructor
    · rintro ⟨a, b, _⟩; exact ⟨b, a⟩
    · rintro ⟨a, b⟩; exact ⟨b, a, by linarith⟩
  rw [this, Real.volume_Ioo, sub_zero]

theorem lintegral_rpow {s : ℝ} (hs : 0 ≤ s) : ∫⁻ x, ENNReal.ofReal (x ^ s) ∂unif = ENNReal.ofReal (1 / (s + 1)) := by
  have h1 : ∫⁻ x in Set.Ioo (0 : ℝ) 1, ENNReal.ofReal (x ^ s) = ∫⁻ x in Set.Ioc (0 : ℝ) 1, ENNReal.ofReal (x ^ s) :=
    setLIntegral_congr Ioo_ae_eq_Ioc
  rw [unif, h1, ← ofReal_integral_eq_lintegral_ofReal]
  · rw [← intervalIntegral.integral_of_le zero_le_one, integral_rpow (Or.inl (by linarith)), Real.one_rpow,
      Real.zero_rpow (by linarith), sub_zero]
  · exact (intervalIntegral.intervalIntegrable_rpow' (by linarith)).1
  · exact (ae_restrict_iff' measurableSet_Ioc).2 (Filter.Eventually.of_forall (fun x hx => Real.rpow_nonneg hx.1.le s))

variable {n : Nat}

/-- The random numbers for which outcome `j` comes out strictly first among `R`. -/
def First (p : Fin n → ℝ) (R : Finset (Fin n)) (j : Fin n) : Set (Fin n → ℝ) :=
  {u | ∀ i ∈ R, i ≠ j → u i < (u j) ^ (p i / p j)}

theorem measurable_First (p : Fin n → ℝ) (R : Finset (Fin n)) (j : Fin n) : MeasurableSet (First p R j) := by
  have : First p R j = ⋂ i ∈ R, ⋂ (_ : i ≠ j), {u | u i < (u j) ^ (p i / p j)} := by
    ext u; simp [First]
  rw [this]
  refine MeasurableSet.biInter R.countable_toSet (fun i _ => MeasurableSet.iInter (fun _ => ?_))
  exact measurableSet_lt (measurable_pi_apply i) ((measurable_pi_apply j).pow_const _)

theorem measure_First (p : Fin n → ℝ) (hp : ∀ i, 0 < p i) (R : Finset (Fin n)) (j : Fin n) (hj : j ∈ R) :
    cube n (First p R j) = ENNReal.ofReal (p j / ∑ i ∈ R, p i) := by
  cases n with
  | zero => exact j.elim0
  | succ N =>
    have hmp := measurePreserving_piFinSuccAbove (fun _ : Fin (N + 1) => unif) j
    set e := MeasurableEquiv.piFinSuccAbove (fun _ : Fin (N + 1) => ℝ) j with he
    let B : Set (ℝ × (Fin N → ℝ)) := {z | ∀ i, j.succAbove i ∈ R → z.2 i < z.1 ^ (p (j.succAbove i) / p j)}
    have hB : MeasurableSet B := by
      have : B = ⋂ i, ⋂ (_ : j.succAbove i ∈ R), {z | z.2 i < z.1 ^ (p (j.succAbove i) / p j)} := by
        ext z; simp [B]
      rw [this]
      refine MeasurableSet.iInter (fun i => MeasurableSet.iInter (fun _ => ?_))
      exact measurableSet_lt ((measurable_pi_apply i).comp measurable_snd) (measurable_fst.pow_const _)
    have hpre : First p R j = e ⁻¹' B := by
      ext u
      have e1 : (e u).1 = u j := rfl
      have e2 : ∀ i, (e u).2 i = u (j.succAbove i) := fun i => rfl
      simp only [Set.mem_preimage, First, Set.mem_ofPred_eq, B, e1, e2]
      constructor
      · intro h i hi
        exact h _ hi (Fin.succAbove_ne j i)
      · intro h i hi hne
        obtain ⟨k, rfl⟩ := Fin.exists_succAbove_eq hne
        exact h k hi
    rw [cube, hpre, hmp.measure_preimage hB.nullMeasurableSet, Measure.prod_apply hB]
    -- the exponent
    set s := ∑ i ∈ Finset.univ.filter (fun i => j.succAbove i ∈ R), p (j.succAbove i) / p j with hs
    have hs0 : 0 ≤ s := Finset.sum_nonneg (fun i _ => div_nonneg (hp _).le (hp _).le)
    have hval : ∀ x ∈ Set.Ioo (0 : ℝ) 1, (Measure.pi (fun _ : Fin N => unif)) (Prod.mk x ⁻¹' B) = ENNReal.ofReal (x ^ s) := by
      intro x hx
      have hset : Prod.mk x ⁻¹' B = Set.univ.pi (fun i => if j.succAbove i ∈ R then Set.Iio (x ^ (p (j.succAbove i) / p j))
          else Set.univ) := by
        ext y
        simp only [B, Set.mem_preimage, Set.mem_ofPred_eq, Set.mem_pi, Set.mem_univ, true_implies]
        refine forall_congr' (fun i => ?_)
        split <;> simp_all
      rw [hset, Measure.pi_pi]
      have hfac : ∀ i, unif (if j.succAbove i ∈ R then Set.Iio (x ^ (p (j.succAbove i) / p j)) else Set.univ) =
          ENNReal.ofReal (if j.succAbove i ∈ R then x ^ (p (j.succAbove i) / p j) else 1) := by
        intro i
        split
        · exact unif_Iio (Real.rpow_le_one hx.1.le hx.2.le (div_nonneg (hp _).le (hp _).le))
        · rw [unif_univ]; simp
      rw [Finset.prod_congr rfl (fun i _ => hfac i), ← ENNReal.ofReal_prod_of_nonneg (fun i _ => by
        split
        · exact Real.rpow_nonneg hx.1.le _
        · exact zero_le_one)]
      congr 1
      rw [Finset.prod_ite, Finset.prod_const_one, mul_one, hs, Real.rpow_sum_of_pos hx.1]
    have hcongr : ∫⁻ x, (Measure.pi (fun _ : Fin N => unif)) (Prod.mk x ⁻¹' B) ∂unif =
        ∫⁻ x, ENNReal.ofReal (x ^ s) ∂unif := by
      unfold unif
      exact setLIntegral_congr_fun measurableSet_Ioo hval
    rw [hcongr, lintegral_rpow hs0]
    congr 1
    -- the sum over the others
    have hsum : ∑ i ∈ R, p i = p j + p j * s := by
      have h1 : ∑ i ∈ R, p i = ∑ i, if i ∈ R then p i else 0 := by simp
      rw [h1, Fin.sum_univ_succAbove _ j, if_pos hj, hs, Finset.mul_sum, Finset.sum_filter]
      congr 1
      refine Finset.sum_congr rfl (fun i _ => ?_)
      split
      · rw [mul_div_cancel₀ _ (hp j).ne']
      · rfl
    rw [hsum]
    have := (hp j).ne'
    field_simp
    ring

theorem disjoint_First {p : Fin n → ℝ} (hp : ∀ i, 0 < p i) {R : Finset (Fin n)} {i j : Fin n} (hi : i ∈ R) (hj : j ∈ R)
    (hij : i ≠ j) {u : Fin n → ℝ} (hu : ∀ i, u i ∈ Set.Ioo (0 : ℝ) 1) (h1 : u ∈ First p R i) (h2 : u ∈ First p R j) : False := by
  have a := h1 j hj hij.symm
  have b := h2 i hi hij
  have hpow : ((u j) ^ (p i / p j)) ^ (p j / p i) = u j := by
    rw [← Real.rpow_mul (hu j).1.le]
    have := (hp i).ne'
    have := (hp j).ne'
    rw [show p i / p j * (p j / p i) = 1 by field_simp, Real.rpow_one]
  have c := Real.rpow_lt_rpow (hu i).1.le b (div_pos (hp j) (hp i))
  rw [hpow] at c
  linarith

theorem cube_mem (n : Nat) : ∀ᵐ u ∂cube n, ∀ i, u i ∈ Set.Ioo (0 : ℝ) 1 := by
  rw [ae_all_iff]
  intro i
  have h : ∀ᵐ x ∂unif, x ∈ Set.Ioo (0 : ℝ) 1 := by unfold unif; exact ae_restrict_mem measurableSet_Ioo
  exact (measurePreserving_eval (fun _ : Fin n => unif) i).quasiMeasurePreserving.ae h

/-- Almost surely some outcome comes out strictly first. -/
theorem ae_First {p : Fin n → ℝ} (hp : ∀ i, 0 < p i) {R : Finset (Fin n)} (hR : R.Nonempty) :
    ∀ᵐ u ∂cube n, ∃ j ∈ R, u ∈ First p R j := by
  have hdisj : (R : Set (Fin n)).PairwiseDisjoint (fun j => First p R j ∩ {u | ∀ i, u i ∈ Set.Ioo (0 : ℝ) 1}) := by
    intro i hi j hj hij
    rw [Function.onFun, Set.disjoint_left]
    rintro u ⟨h1, h2⟩ ⟨h3, _⟩
    exact disjoint_First hp hi hj hij h2 h1 h3
  have hmc : MeasurableSet {u : Fin n → ℝ | ∀ i, u i ∈ Set.Ioo (0 : ℝ) 1} := by
    rw [Set.ofPred_forall]
    exact MeasurableSet.iInter (fun i => measurableSet_Ioo.preimage (measurable_pi_apply i))
  have hm : ∀ j ∈ R, MeasurableSet (First p R j ∩ {u | ∀ i, u i ∈ Set.Ioo (0 : ℝ) 1}) :=
    fun j _ => (measurable_First p R j).inter hmc
  have hae : ∀ j, cube n (First p R j ∩ {u | ∀ i, u i ∈ Set.Ioo (0 : ℝ) 1}) = cube n (First p R j) := by
    intro j
    refine measure_congr ?_
    filter_upwards [cube_mem n] with u hu
    exact propext ⟨fun h => h.1, fun h => ⟨h, hu⟩⟩
  have hP : 0 < ∑ i ∈ R, p i := Finset.sum_pos (fun i _ => hp i) hR
  have htot : cube n (⋃ j ∈ R, First p R j ∩ {u | ∀ i, u i ∈ Set.Ioo (0 : ℝ) 1}) = 1 := by
    rw [measure_biUnion_finset hdisj hm]
    rw [Finset.sum_congr rfl (fun j hj => by rw [hae j, measure_First p hp R j hj]),
      ← ENNReal.ofReal_sum_of_nonneg (fun j _ => div_nonneg (hp j).le hP.le), ← Finset.sum_div, div_self hP.ne',
      ENNReal.ofReal_one]
  have := (prob_compl_eq_zero_iff (Finset.measurableSet_biUnion R hm)).2 htot
  rw [ae_iff]
  refine measure_mono_null ?_ this
  intro u hu
  simp only [Set.mem_ofPred_eq, not_exists, not_and] at hu
  simp only [Set.mem_compl_iff, Set.mem_iUnion, not_exists, Set.mem_inter_iff, not_and]
  intro j hj h
  exact absurd h (hu j hj)

/-- The Gumbel variable of outcome `i`. -/
noncomputable def gum (p u : Fin n → ℝ) (i : Fin n) : ℝ := Real.log (p i) + -Real.log (-Real.log (u i))

theorem gum_lt {p u : Fin n → ℝ} (hp : ∀ i, 0 < p i) (hu : ∀ i, u i ∈ Set.Ioo (0 : ℝ) 1) {i j : Fin n}
    (h : u i < (u j) ^ (p i / p j)) : gum p u i < gum p u j := by
  have h1 := Real.log_lt_log (hu i).1 h
  rw [Real.log_rpow (hu j).1] at h1
  have a1 : 0 < -Real.log (u i) := by have := Real.log_neg (hu i).1 (hu i).2; linarith
  have a2 : 0 < -Real.log (u j) := by have := Real.log_neg (hu j).1 (hu j).2; linarith
  have h2 : p i * -Real.log (u j) < p j * -Real.log (u i) := by
    have : p j * Real.log (u i) < p j * (p i / p j * Real.log (u j)) := mul_lt_mul_of_pos_left h1 (hp j)
    have e : p j * (p i / p j * Real.log (u j)) = p i * Real.log (u j) := by
      have := (hp j).ne'
      field_simp
    linarith
  have h3 := Real.log_lt_log (mul_pos (hp i) a2) h2
  rw [Real.log_mul (hp i).ne' a2.ne', Real.log_mul (hp j).ne' a1.ne'] at h3
  simp only [gum]
  linarith

/-- The Gumbel-max trick: an outcome with the largest Gumbel variable among `R` is distributed according to the
probabilities restricted to `R`. -/
theorem gumbel_max {p : Fin n → ℝ} (hp : ∀ i, 0 < p i) {R : Finset (Fin n)} (hR : R.Nonempty)
    (J : (Fin n → ℝ) → Fin n) (hJ : ∀ u, (∀ i, u i ∈ Set.Ioo (0 : ℝ) 1) → J u ∈ R ∧ ∀ i ∈ R, gum p u i ≤ gum p u (J u))
    (f : Fin n → ℝ) : ∫ u, f (J u) ∂cube n = ∑ j ∈ R, p j / (∑ i ∈ R, p i) * f j := by
  have hP : 0 < ∑ i ∈ R, p i := Finset.sum_pos (fun i _ => hp i) hR
  have heq : (fun u => f (J u)) =ᵐ[cube n] fun u => ∑ j ∈ R, (First p R j).indicator (fun _ => f j) u := by
    filter_upwards [ae_First hp hR, cube_mem n] with u hf hu
    obtain ⟨j, hj, hfj⟩ := hf
    have hJj : J u = j := by
      by_contra hne
      have h1 := gum_lt hp hu (hfj _ (hJ u hu).1 hne)
      have h2 := (hJ u hu).2 j hj
      linarith
    rw [hJj, Finset.sum_eq_single j]
    · rw [Set.indicator_of_mem hfj]
    · intro i hi hij
      rw [Set.indicator_of_notMem]
      intro h
      exact disjoint_First hp hi hj hij hu h hfj
    · intro h; exact absurd hj h
  rw [integral_congr_ae heq, integral_finsetSum]
  · refine Finset.sum_congr rfl (fun j hj => ?_)
    rw [integral_indicator_const _ (measurable_First p R j), Measure.real, measure_First p hp R j hj,
      ENNReal.toReal_ofReal (div_nonneg (hp j).le hP.le), smul_eq_mul]
  · intro j _
    exact (integrable_const _).indicator (measurable_First p R j)

end Storch.Gumbel
