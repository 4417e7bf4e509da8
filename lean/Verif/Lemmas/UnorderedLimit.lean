import Verif.Lemmas.UnorderedSecond
import Mathlib.Analysis.Convex.SpecificFunctions.Basic
import Mathlib.MeasureTheory.Integral.IntervalIntegral.FundThmCalculus

/-!
# The limit of the second leave-one-out ratios of the code
-/

namespace Storch.SetLaw

open MeasureTheory Filter Topology

variable {ι : Type _} [DecidableEq ι]

/-- The integral that `twiceSum` discretises. -/
noncomputable def twiceInt (b : ι → ℝ) (A : ℝ) (T : Finset ι) (s : ι) : ℝ :=
  ∫ v in (0 : ℝ)..1, v ^ (A - 1) * ((∏ t ∈ T.erase s, (1 - v ^ b t)) / (1 - v ^ b s))

/-- One factor is bounded by a multiple of another one. -/
theorem factor_le {b c v : ℝ} (hb : 0 < b) (hc : 0 < c) (hv : v ∈ Set.Ioo (0 : ℝ) 1) :
    1 - v ^ b ≤ max 1 (b / c) * (1 - v ^ c) := by
  have hx0 : 0 < v ^ c := Real.rpow_pos_of_pos hv.1 _
  have hx1 : v ^ c < 1 := Real.rpow_lt_one hv.1.le hv.2 hc
  by_cases h : c ≤ b
  · have hr : 1 ≤ b / c := (one_le_div hc).2 h
    have hpow : v ^ b = (1 + (v ^ c - 1)) ^ (b / c) := by
      rw [add_sub_cancel, ← Real.rpow_mul hv.1.le]
      congr 1
      field_simp
    have := one_add_mul_self_le_rpow_one_add (s := v ^ c - 1) (by linarith) hr
    rw [← hpow] at this
    have h2 : b / c * (1 - v ^ c) ≤ max 1 (b / c) * (1 - v ^ c) :=
      mul_le_mul_of_nonneg_right (le_max_right _ _) (by linarith)
    linarith
  · have : v ^ c ≤ v ^ b := Real.rpow_le_rpow_of_exponent_ge hv.1 hv.2.le (le_of_not_ge h)
    have h2 : 1 * (1 - v ^ c) ≤ max 1 (b / c) * (1 - v ^ c) :=
      mul_le_mul_of_nonneg_right (le_max_left _ _) (by linarith)
    linarith

/-- The sums converge to the integral, while `ε` vanishes. -/
theorem twiceSum_tendsto {b : ι → ℝ} (hb : ∀ t, 0 < b t) {A c : ℝ} (hA : 0 < A) (hc : 0 ≤ c) {T : Finset ι} {s u : ι}
    (hu : u ∈ T.erase s) :
    Tendsto (fun z : Nat × ℝ => twiceSum b (A + c * z.2) z.2 T s z.1 / z.1) (atTop ×ˢ 𝓝[≥] 0) (𝓝 (twiceInt b A T s)) := by
  set C := max 1 (b u / b s) with hC
  have hC1 : 1 ≤ C := le_max_left _ _
  refine riemann_tendsto (fun ε v => v ^ (A + c * ε - 1) * ((∏ t ∈ T.erase s, (1 - v ^ b t + ε)) / (1 - v ^ b s + ε)))
    (fun v => v ^ (A - 1) * ((∏ t ∈ T.erase s, (1 - v ^ b t)) / (1 - v ^ b s)))
    (C := C * 2 ^ ((T.erase s).erase u).card) (c := min A 1) (lt_min hA one_pos) (min_le_right _ _)
    (by positivity) ?_ ?_
  · have h1 : ∀ᶠ ε : ℝ in 𝓝[≥] 0, ε ∈ Set.Ico (0 : ℝ) 1 := Ico_mem_nhdsGE one_pos
    filter_upwards [h1] with ε hε v hv
    have hf : ∀ t, 0 < 1 - v ^ b t + ε ∧ 1 - v ^ b t + ε ≤ 2 := by
      intro t
      refine ⟨factor_pos (hb t) hε.1 hv, ?_⟩
      have := Real.rpow_nonneg hv.1.le (b t)
      have := hε.2
      linarith
    have hprod : 0 ≤ ∏ t ∈ T.erase s, (1 - v ^ b t + ε) := Finset.prod_nonneg (fun t _ => (hf t).1.le)
    rw [abs_of_nonneg (mul_nonneg (Real.rpow_nonneg hv.1.le _) (div_nonneg hprod (hf s).1.le)), mul_comm]
    refine mul_le_mul ?_ ?_ (Real.rpow_nonneg hv.1.le _) (by positivity)
    · rw [← Finset.mul_prod_erase _ _ hu, mul_div_right_comm]
      refine mul_le_mul ?_ ?_ (Finset.prod_nonneg (fun t _ => (hf t).1.le)) (by positivity)
      · rw [div_le_iff₀ (hf s).1]
        have h3 := factor_le (hb u) (hb s) hv
        rw [← hC] at h3
        have h4 : ε ≤ C * ε := le_mul_of_one_le_left hε.1 hC1
        linarith
      · have := Finset.prod_le_prod (fun t (_ : t ∈ (T.erase s).erase u) => (hf t).1.le) (fun t _ => (hf t).2)
        simpa using this
    · refine Real.rpow_le_rpow_of_exponent_ge hv.1 hv.2.le ?_
      have := min_le_left A 1
      have := mul_nonneg hc hε.1
      linarith
  · intro v hv
    have hcont : ContinuousAt (fun z : ℝ × ℝ => z.2 ^ (A + c * z.1 - 1) *
        ((∏ t ∈ T.erase s, (1 - z.2 ^ b t + z.1)) / (1 - z.2 ^ b s + z.1))) (0, v) := by
      have hfac : ∀ t, ContinuousAt (fun z : ℝ × ℝ => 1 - z.2 ^ b t + z.1) (0, v) := by
        intro t
        refine ContinuousAt.add (ContinuousAt.sub continuousAt_const ?_) continuousAt_fst
        exact continuousAt_snd.rpow continuousAt_const (Or.inl hv.1.ne')
      refine ContinuousAt.mul ?_ (ContinuousAt.div ?_ (hfac s) ?_)
      · exact continuousAt_snd.rpow (by fun_prop) (Or.inl hv.1.ne')
      · exact tendsto_finsetProd _ (fun t _ => hfac t)
      · exact (factor_pos (hb s) le_rfl hv).ne'
    have := hcont.tendsto
    rw [nhds_prod_eq] at this
    simp only [mul_zero, add_zero] at this
    exact this.mono_left (Filter.prod_mono nhdsWithin_le_nhds le_rfl)

/-- The limit of the ratio of the code, in a domain `D`. -/
noncomputable def limitRatio (p : ι → ℝ) (a : ℝ) (D S : Finset ι) (s : ι) : ℝ :=
  twiceInt (fun i => Real.exp a * p i) (Real.exp a * ∑ i ∈ D \ S, p i) S s /
    setInt (fun i => Real.exp a * p i) (Real.exp a * ∑ i ∈ D \ S, p i) (S.erase s)

theorem codeRatio_tendsto {p : ι → ℝ} (hp : ∀ i, 0 < p i) (a : ℝ) {D S : Finset ι} (hS : S ⊆ D) (h1 : ∑ i ∈ D, p i = 1)
    (hA : S ≠ D) {s u : ι} (hu : u ∈ S.erase s) :
    Tendsto (fun z : Nat × ℝ => codeRatio p a z.2 z.1 S s) (atTop ×ˢ 𝓝[≥] 0) (𝓝 (limitRatio p a D S s)) := by
  have hea := Real.exp_pos a
  have hb : ∀ i, 0 < Real.exp a * p i := fun i => mul_pos hea (hp i)
  have hsplit : ∑ i ∈ D \ S, p i + ∑ i ∈ S, p i = 1 := by rw [Finset.sum_sdiff hS, h1]
  have hq : 0 < ∑ i ∈ D \ S, p i := Finset.sum_pos (fun i _ => hp i) (by
    rw [Finset.sdiff_nonempty]
    exact fun h => hA (Finset.Subset.antisymm hS h))
  rw [limitRatio]
  set A := Real.exp a * ∑ i ∈ D \ S, p i with hAdef
  have hA0 : 0 < A := mul_pos hea hq
  have hlim := (twiceSum_tendsto hb hA0 hea.le hu).div (riemannSum_tendsto hb hA0 hea.le (S.erase s))
    (setInt_pos hb hA0 _).ne'
  refine hlim.congr' ?_
  have hev : ∀ᶠ z : Nat × ℝ in atTop ×ˢ 𝓝[≥] (0 : ℝ), 0 < z.1 := tendsto_fst.eventually (eventually_gt_atTop 0)
  filter_upwards [hev] with z hz
  have hz' : (z.1 : ℝ) ≠ 0 := (Nat.cast_pos.2 hz).ne'
  have e2 : Real.exp a * (1 - ∑ i ∈ S, p i + z.2) = A + Real.exp a * z.2 := by rw [hAdef, ← hsplit]; ring
  rw [codeRatio, e2]
  simp only [Pi.div_apply]
  rw [div_div_div_cancel_right₀ hz']

/-- The limit of the baseline of the code. -/
noncomputable def limitBaseline (p : ι → ℝ) (a : ℝ) (D S : Finset ι) (f : ι → ℝ) (s : ι) : ℝ :=
  p s * f s + ∑ t ∈ S.erase s, p t * limitRatio p a D S t * f t

theorem codeBaseline_tendsto {p : ι → ℝ} (hp : ∀ i, 0 < p i) (a : ℝ) {D S : Finset ι} (hS : S ⊆ D) (h1 : ∑ i ∈ D, p i = 1)
    (hA : S ≠ D) (f : ι → ℝ) {s : ι} (hs : s ∈ S) :
    Tendsto (fun z : Nat × ℝ => codeBaseline p a z.2 z.1 S f s) (atTop ×ˢ 𝓝[≥] 0) (𝓝 (limitBaseline p a D S f s)) := by
  refine tendsto_const_nhds.add (tendsto_finsetSum _ (fun t ht => ?_))
  refine Tendsto.mul_const _ (Tendsto.const_mul _ (codeRatio_tendsto hp a hS h1 hA (u := s) ?_))
  exact Finset.mem_erase.2 ⟨(Finset.ne_of_mem_erase ht).symm, hs⟩

/-- The baseline of the documentation (unordered.py:39; Kool et al., equations 17 and 18): the ratios leave out the second
sample from what is left without the first one. -/
noncomputable def documentedBaseline (p : ι → ℝ) (D S : Finset ι) (f : ι → ℝ) (s : ι) : ℝ :=
  p s * f s + ∑ t ∈ S.erase s, p t * (drawLaw p (S.card - 2) ((D.erase s).erase t) ((S.erase s).erase t) /
    drawLaw p (S.card - 1) (D.erase s) (S.erase s)) * f t

/-- The exact expectation of weighted terms with a factor that depends on the set. -/
noncomputable def expectedTerm (p : ι → ℝ) (D : Finset ι) (k : Nat) (B : Finset ι → ι → ℝ) (g : ι → ℝ) : ℝ :=
  ∑ T ∈ D.powersetCard k, drawLaw p k D T *
    ∑ s ∈ T, p s * drawLaw p (k - 1) (D.erase s) (T.erase s) / drawLaw p k D T * (B T s * g s)

theorem expectedTerm_eq {p : ι → ℝ} (hp : ∀ i, 0 < p i) (D : Finset ι) (k : Nat) (B : Finset ι → ι → ℝ) (g : ι → ℝ) :
    expectedTerm p D k B g =
      ∑ T ∈ D.powersetCard k, ∑ s ∈ T, p s * drawLaw p (k - 1) (D.erase s) (T.erase s) * (B T s * g s) := by
  refine Finset.sum_congr rfl (fun T hT => ?_)
  obtain ⟨h1, h2⟩ := Finset.mem_powersetCard.1 hT
  have hpos := (drawLaw_pos hp k D T h1 h2).ne'
  rw [Finset.mul_sum]
  refine Finset.sum_congr rfl (fun s _ => ?_)
  field_simp

/-- The baseline of the documentation does not change the expectation of the gradient. -/
theorem documented_unbiased {p : ι → ℝ} (hp : ∀ i, 0 < p i) {D : Finset ι} {k : Nat} (hk : 2 ≤ k) (hkD : k ≤ D.card)
    (f g : ι → ℝ) (hg : ∑ s ∈ D, p s * g s = 0) :
    expectedTerm p D k (fun T s => documentedBaseline p D T f s) g = 0 := by
  obtain ⟨n, rfl⟩ : ∃ n, k = n + 1 := ⟨k - 1, by omega⟩
  rw [expectedTerm_eq hp, Nat.add_sub_cancel]
  have h1 : ∀ T ∈ D.powersetCard (n + 1), ∑ s ∈ T, p s * drawLaw p n (D.erase s) (T.erase s) *
      (documentedBaseline p D T f s * g s) = ∑ s ∈ T, (fun s T' => p s * g s * (drawLaw p n (D.erase s) T' *
        (p s * f s + ∑ t ∈ T', p t * drawLaw p (n - 1) ((D.erase s).erase t) (T'.erase t) / drawLaw p n (D.erase s) T' * f t)))
          s (T.erase s) := by
    intro T hT
    obtain ⟨_, h2⟩ := Finset.mem_powersetCard.1 hT
    refine Finset.sum_congr rfl (fun s _ => ?_)
    simp only [documentedBaseline, h2]
    have e1 : n + 1 - 2 = n - 1 := by omega
    rw [e1, Nat.add_sub_cancel]
    have e2 : ∀ t, p t * (drawLaw p (n - 1) ((D.erase s).erase t) ((T.erase s).erase t) /
        drawLaw p n (D.erase s) (T.erase s)) * f t = p t * drawLaw p (n - 1) ((D.erase s).erase t) ((T.erase s).erase t) /
        drawLaw p n (D.erase s) (T.erase s) * f t := by
      intro t; ring
    simp only [e2]
    ring
  rw [Finset.sum_congr rfl h1]
  refine (sum_powersetCard_succ D n (fun s T' => p s * g s * (drawLaw p n (D.erase s) T' *
        (p s * f s + ∑ t ∈ T', p t * drawLaw p (n - 1) ((D.erase s).erase t) (T'.erase t) / drawLaw p n (D.erase s) T' *
          f t)))).trans ?_
  have h2 : ∀ s ∈ D, ∑ T' ∈ (D.erase s).powersetCard n, p s * g s * (drawLaw p n (D.erase s) T' *
        (p s * f s + ∑ t ∈ T', p t * drawLaw p (n - 1) ((D.erase s).erase t) (T'.erase t) / drawLaw p n (D.erase s) T' * f t)) =
      p s * g s * ∑ t ∈ D, p t * f t := by
    intro s hs
    have hc : n ≤ (D.erase s).card := by rw [Finset.card_erase_of_mem hs]; omega
    rw [← Finset.mul_sum]
    congr 1
    simp only [mul_add]
    rw [Finset.sum_add_distrib, ← Finset.sum_mul, drawLaw_total hp n _ hc, one_mul,
      ratio_expectation hp (by omega) hc f, Finset.add_sum_erase D (fun t => p t * f t) hs]
  rw [Finset.sum_congr rfl h2, ← Finset.sum_mul, hg, zero_mul]

/-! ### The integrals of the example -/

theorem integral_power {c : ℝ} (hc : 0 < c) : ∫ v in (0 : ℝ)..1, v ^ (c - 1) = 1 / c := by
  rw [integral_rpow (Or.inl (by linarith))]
  simp [Real.zero_rpow hc.ne']

theorem integral_log {c : ℝ} (hc : 0 < c) : ∫ v in (0 : ℝ)..1, v ^ (c - 1) * (1 / (1 + v ^ c)) = Real.log 2 / c := by
  have hpos : ∀ v ∈ Set.Icc (0 : ℝ) 1, 0 < 1 + v ^ c := fun v hv => by
    have := Real.rpow_nonneg hv.1 c
    linarith
  have hcont : ContinuousOn (fun v : ℝ => 1 + v ^ c) (Set.Icc 0 1) :=
    continuousOn_const.add (continuousOn_id.rpow_const (fun x _ => Or.inr hc.le))
  have h := intervalIntegral.integral_eq_sub_of_hasDerivAt_of_le (a := 0) (b := 1) zero_le_one
    (f := fun v : ℝ => Real.log (1 + v ^ c) / c) (f' := fun v => v ^ (c - 1) * (1 / (1 + v ^ c)))
    ((hcont.log (fun v hv => (hpos v hv).ne')).div_const c) (by
      intro v hv
      have h1 : HasDerivAt (fun v : ℝ => 1 + v ^ c) (c * v ^ (c - 1)) v :=
        (Real.hasDerivAt_rpow_const (Or.inl hv.1.ne')).const_add 1
      have h2 := (h1.log (hpos v ⟨hv.1.le, hv.2.le⟩).ne').div_const c
      have e : c * v ^ (c - 1) / (1 + v ^ c) / c = v ^ (c - 1) * (1 / (1 + v ^ c)) := by
        have := (hpos v ⟨hv.1.le, hv.2.le⟩).ne'
        field_simp
      rw [e] at h2
      exact h2) (by
      refine (intervalIntegral.intervalIntegrable_rpow' (by linarith)).mul_continuousOn ?_
      rw [Set.uIcc_of_le zero_le_one]
      exact continuousOn_const.div hcont (fun v hv => (hpos v hv).ne'))
  rw [h]
  simp only [Real.one_rpow, Real.zero_rpow hc.ne', add_zero, Real.log_one, zero_div, sub_zero]
  norm_num

theorem integral_power_gap {A b : ℝ} (hA : 0 < A) (hb : 0 < b) :
    ∫ v in (0 : ℝ)..1, v ^ (A - 1) * (1 - v ^ b) = 1 / A - 1 / (A + b) := by
  have e : ∀ᵐ v ∂volume, v ∈ Set.uIoc (0 : ℝ) 1 → v ^ (A - 1) * (1 - v ^ b) = v ^ (A - 1) - v ^ (A + b - 1) := by
    refine Eventually.of_forall (fun v hv => ?_)
    rw [Set.uIoc_of_le zero_le_one] at hv
    rw [mul_sub, mul_one, ← Real.rpow_add hv.1]
    congr 2
    ring
  rw [intervalIntegral.integral_congr_ae e, intervalIntegral.integral_sub
    (intervalIntegral.intervalIntegrable_rpow' (by linarith)) (intervalIntegral.intervalIntegrable_rpow' (by linarith)),
    integral_power hA, integral_power (by linarith)]

/-- Two elements: the ratio is a quotient of two integrals. -/
theorem limitRatio_pair (p : ι → ℝ) (a : ℝ) (D : Finset ι) {S : Finset ι} {s t : ι} (h : S.erase t = {s}) :
    limitRatio p a D S t =
      (∫ v in (0 : ℝ)..1, v ^ (Real.exp a * ∑ i ∈ D \ S, p i - 1) *
          ((1 - v ^ (Real.exp a * p s)) / (1 - v ^ (Real.exp a * p t)))) /
        ∫ v in (0 : ℝ)..1, v ^ (Real.exp a * ∑ i ∈ D \ S, p i - 1) * (1 - v ^ (Real.exp a * p s)) := by
  simp only [limitRatio, twiceInt, setInt, h, Finset.prod_singleton]

/-- The element has half the weight of the other one, and as much as all outside. -/
theorem ratio_small {c : ℝ} (hc : 0 < c) :
    (∫ v in (0 : ℝ)..1, v ^ (c - 1) * ((1 - v ^ (2 * c)) / (1 - v ^ c))) /
      ∫ v in (0 : ℝ)..1, v ^ (c - 1) * (1 - v ^ (2 * c)) = 9 / 4 := by
  have e : ∀ᵐ v ∂volume, v ∈ Set.uIoc (0 : ℝ) 1 → v ^ (c - 1) * ((1 - v ^ (2 * c)) / (1 - v ^ c)) =
      v ^ (c - 1) + v ^ (2 * c - 1) := by
    filter_upwards [compl_mem_ae_iff.2 (measure_singleton (1 : ℝ))] with v hv1 hv
    rw [Set.uIoc_of_le zero_le_one] at hv
    have hlt : v < 1 := lt_of_le_of_ne hv.2 hv1
    have h1 : v ^ c < 1 := Real.rpow_lt_one hv.1.le hlt hc
    have h2 : v ^ (2 * c) = v ^ c * v ^ c := by rw [← Real.rpow_add hv.1]; congr 1; ring
    have h3 : v ^ (2 * c - 1) = v ^ (c - 1) * v ^ c := by rw [← Real.rpow_add hv.1]; congr 1; ring
    have h4 : 1 - v ^ c ≠ 0 := by linarith
    rw [h2, h3]
    field_simp
    ring
  rw [intervalIntegral.integral_congr_ae e, intervalIntegral.integral_add
    (intervalIntegral.intervalIntegrable_rpow' (by linarith)) (intervalIntegral.intervalIntegrable_rpow' (by linarith)),
    integral_power hc, integral_power (by linarith), integral_power_gap hc (by linarith)]
  field_simp
  norm_num

/-- The element has twice the weight of the other one, which has as much as all outside. -/
theorem ratio_large {c : ℝ} (hc : 0 < c) :
    (∫ v in (0 : ℝ)..1, v ^ (c - 1) * ((1 - v ^ c) / (1 - v ^ (2 * c)))) /
      ∫ v in (0 : ℝ)..1, v ^ (c - 1) * (1 - v ^ c) = 2 * Real.log 2 := by
  have e : ∀ᵐ v ∂volume, v ∈ Set.uIoc (0 : ℝ) 1 → v ^ (c - 1) * ((1 - v ^ c) / (1 - v ^ (2 * c))) =
      v ^ (c - 1) * (1 / (1 + v ^ c)) := by
    filter_upwards [compl_mem_ae_iff.2 (measure_singleton (1 : ℝ))] with v hv1 hv
    rw [Set.uIoc_of_le zero_le_one] at hv
    have hlt : v < 1 := lt_of_le_of_ne hv.2 hv1
    have h1 : v ^ c < 1 := Real.rpow_lt_one hv.1.le hlt hc
    have h0 : 0 < v ^ c := Real.rpow_pos_of_pos hv.1 _
    have h2 : 1 - v ^ (2 * c) = (1 - v ^ c) * (1 + v ^ c) := by
      rw [two_mul, Real.rpow_add hv.1]; ring
    have h4 : 1 - v ^ c ≠ 0 := by linarith
    rw [h2]
    field_simp
  rw [intervalIntegral.integral_congr_ae e, integral_log hc, integral_power_gap hc hc]
  field_simp
  norm_num

/-- Both elements have half the weight of all outside. -/
theorem ratio_equal {c : ℝ} (hc : 0 < c) :
    (∫ v in (0 : ℝ)..1, v ^ (2 * c - 1) * ((1 - v ^ c) / (1 - v ^ c))) /
      ∫ v in (0 : ℝ)..1, v ^ (2 * c - 1) * (1 - v ^ c) = 3 := by
  have e : ∀ᵐ v ∂volume, v ∈ Set.uIoc (0 : ℝ) 1 → v ^ (2 * c - 1) * ((1 - v ^ c) / (1 - v ^ c)) = v ^ (2 * c - 1) := by
    filter_upwards [compl_mem_ae_iff.2 (measure_singleton (1 : ℝ))] with v hv1 hv
    rw [Set.uIoc_of_le zero_le_one] at hv
    have hlt : v < 1 := lt_of_le_of_ne hv.2 hv1
    have h1 : v ^ c < 1 := Real.rpow_lt_one hv.1.le hlt hc
    rw [div_self (by linarith), mul_one]
  rw [intervalIntegral.integral_congr_ae e, integral_power (by linarith), integral_power_gap (by linarith) hc]
  field_simp
  norm_num

/-- Three values with the probabilities one half, one quarter and one quarter. -/
noncomputable def halfQuarter : Fin 3 → ℝ := ![1 / 2, 1 / 4, 1 / 4]

theorem halfQuarter_pos (i : Fin 3) : 0 < halfQuarter i := by
  fin_cases i <;> norm_num [halfQuarter]

/-- The bias of the example: a constant cost of one. -/
theorem halfQuarter_term (a : ℝ) :
    expectedTerm halfQuarter Finset.univ 2 (limitBaseline halfQuarter a Finset.univ · (fun _ => 1)) ![2, -2, -2] =
      9 / 16 - 2 / 3 * Real.log 2 := by
  set c := Real.exp a / 4 with hcdef
  have hc : 0 < c := by positivity
  have hb0 : Real.exp a * halfQuarter 0 = 2 * c := by simp only [halfQuarter, hcdef, Matrix.cons_val_zero]; ring
  have hb1 : Real.exp a * halfQuarter 1 = c := by simp only [halfQuarter, hcdef, Matrix.cons_val_one]; simp; ring
  have hb2 : Real.exp a * halfQuarter 2 = c := by simp [halfQuarter, hcdef]; ring
  have hps : (Finset.univ : Finset (Fin 3)).powersetCard 2 = {{0, 1}, {0, 2}, {1, 2}} := by decide
  have c01 : (Finset.univ : Finset (Fin 3)) \ {0, 1} = {2} := by decide
  have c02 : (Finset.univ : Finset (Fin 3)) \ {0, 2} = {1} := by decide
  have c12 : (Finset.univ : Finset (Fin 3)) \ {1, 2} = {0} := by decide
  have e010 : ({0, 1} : Finset (Fin 3)).erase 0 = {1} := by decide
  have e011 : ({0, 1} : Finset (Fin 3)).erase 1 = {0} := by decide
  have e020 : ({0, 2} : Finset (Fin 3)).erase 0 = {2} := by decide
  have e022 : ({0, 2} : Finset (Fin 3)).erase 2 = {0} := by decide
  have e121 : ({1, 2} : Finset (Fin 3)).erase 1 = {2} := by decide
  have e122 : ({1, 2} : Finset (Fin 3)).erase 2 = {1} := by decide
  have u0 : (Finset.univ : Finset (Fin 3)).erase 0 = {1, 2} := by decide
  have u1 : (Finset.univ : Finset (Fin 3)).erase 1 = {0, 2} := by decide
  have u2 : (Finset.univ : Finset (Fin 3)).erase 2 = {0, 1} := by decide
  have r1 : limitRatio halfQuarter a Finset.univ {0, 1} 1 = 9 / 4 := by
    rw [limitRatio_pair _ _ _ e011, c01, Finset.sum_singleton, hb0, hb1, hb2]
    exact ratio_small hc
  have r2 : limitRatio halfQuarter a Finset.univ {0, 1} 0 = 2 * Real.log 2 := by
    rw [limitRatio_pair _ _ _ e010, c01, Finset.sum_singleton, hb0, hb1, hb2]
    exact ratio_large hc
  have r3 : limitRatio halfQuarter a Finset.univ {0, 2} 2 = 9 / 4 := by
    rw [limitRatio_pair _ _ _ e022, c02, Finset.sum_singleton, hb0, hb1, hb2]
    exact ratio_small hc
  have r4 : limitRatio halfQuarter a Finset.univ {0, 2} 0 = 2 * Real.log 2 := by
    rw [limitRatio_pair _ _ _ e020, c02, Finset.sum_singleton, hb0, hb1, hb2]
    exact ratio_large hc
  have r5 : limitRatio halfQuarter a Finset.univ {1, 2} 2 = 3 := by
    rw [limitRatio_pair _ _ _ e122, c12, Finset.sum_singleton, hb0, hb1, hb2]
    exact ratio_equal hc
  have r6 : limitRatio halfQuarter a Finset.univ {1, 2} 1 = 3 := by
    rw [limitRatio_pair _ _ _ e121, c12, Finset.sum_singleton, hb0, hb1, hb2]
    exact ratio_equal hc
  have d : ∀ (D : Finset (Fin 3)) t, t ∈ D → drawLaw halfQuarter 1 D {t} = halfQuarter t / ∑ i ∈ D, halfQuarter i := by
    intro D t h
    simp [drawLaw, Finset.inter_singleton_of_mem h]
  have n1 : ({0, 1} : Finset (Fin 3)) ∉ ({{0, 2}, {1, 2}} : Finset (Finset (Fin 3))) := by decide
  have n2 : ({0, 2} : Finset (Fin 3)) ≠ {1, 2} := by decide
  rw [expectedTerm_eq halfQuarter_pos, hps, Finset.sum_insert n1, Finset.sum_pair n2]
  rw [Finset.sum_pair (by decide), Finset.sum_pair (by decide), Finset.sum_pair (by decide)]
  simp only [limitBaseline, e010, e011, e020, e022, e121, e122, u0, u1, u2, Finset.sum_singleton, r1, r2, r3, r4, r5, r6,
    show 2 - 1 = 1 from rfl]
  rw [d {1, 2} 1 (by decide), d {1, 2} 2 (by decide), d {0, 2} 0 (by decide), d {0, 2} 2 (by decide),
    d {0, 1} 0 (by decide), d {0, 1} 1 (by decide)]
  rw [Finset.sum_pair (by decide), Finset.sum_pair (by decide), Finset.sum_pair (by decide)]
  simp [halfQuarter]
  ring

end Storch.SetLaw
