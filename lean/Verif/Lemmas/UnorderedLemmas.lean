import Verif.Lemmas.SetLaw
import Verif.Lemmas.RiemannLemmas
import Mathlib.Analysis.SpecialFunctions.Pow.Continuity

/-!
# The discretised integrals behind the weights of unordered sets
-/

namespace Storch.SetLaw

open MeasureTheory Filter Topology

variable {ι : Type _}

/-- The Riemann sum over `1/N, ..., (N-1)/N` of the integrand of `setInt`, with `ε` added to the factors. -/
noncomputable def riemannSum (b : ι → ℝ) (A ε : ℝ) (T : Finset ι) (N : Nat) : ℝ :=
  ∑ i ∈ Finset.range (N - 1), ((i + 1 : Nat) / N : ℝ) ^ (A - 1) * ∏ t ∈ T, (1 - ((i + 1 : Nat) / N : ℝ) ^ b t + ε)

theorem point_mem {N i : Nat} (hi : i < N - 1) : ((i + 1 : Nat) / N : ℝ) ∈ Set.Ioo (0 : ℝ) 1 := by
  have hN : (0 : ℝ) < N := Nat.cast_pos.2 (by omega)
  exact ⟨div_pos (Nat.cast_pos.2 (by omega)) hN, (div_lt_one hN).2 (Nat.cast_lt.2 (by omega))⟩

theorem factor_pos {b ε v : ℝ} (hb : 0 < b) (hε : 0 ≤ ε) (hv : v ∈ Set.Ioo (0 : ℝ) 1) : 0 < 1 - v ^ b + ε := by
  have := Real.rpow_lt_one hv.1.le hv.2 hb
  linarith

theorem riemannSum_pos {b : ι → ℝ} (hb : ∀ t, 0 < b t) (A : ℝ) {ε : ℝ} (hε : 0 ≤ ε) (T : Finset ι) {N : Nat} (hN : 2 ≤ N) :
    0 < riemannSum b A ε T N := by
  refine Finset.sum_pos (fun i hi => ?_) ⟨0, Finset.mem_range.2 (by omega)⟩
  have hm := point_mem (Finset.mem_range.1 hi)
  exact mul_pos (Real.rpow_pos_of_pos hm.1 _) (Finset.prod_pos (fun t _ => factor_pos (hb t) hε hm))

/-- The Riemann sums converge to the integral, while `ε` vanishes. -/
theorem riemannSum_tendsto {b : ι → ℝ} (hb : ∀ t, 0 < b t) {A c : ℝ} (hA : 0 < A) (hc : 0 ≤ c) (T : Finset ι) :
    Tendsto (fun z : Nat × ℝ => riemannSum b (A + c * z.2) z.2 T z.1 / z.1) (atTop ×ˢ 𝓝[≥] 0) (𝓝 (setInt b A T)) := by
  refine riemann_tendsto (fun ε v => v ^ (A + c * ε - 1) * ∏ t ∈ T, (1 - v ^ b t + ε))
    (fun v => v ^ (A - 1) * ∏ t ∈ T, (1 - v ^ b t)) (C := 2 ^ T.card) (c := min A 1) (lt_min hA one_pos) (min_le_right _ _)
    (by positivity) ?_ ?_
  · have h1 : ∀ᶠ ε : ℝ in 𝓝[≥] 0, ε ∈ Set.Ico (0 : ℝ) 1 := Ico_mem_nhdsGE one_pos
    filter_upwards [h1] with ε hε v hv
    have hf : ∀ t ∈ T, 0 ≤ 1 - v ^ b t + ε ∧ 1 - v ^ b t + ε ≤ 2 := by
      intro t _
      refine ⟨(factor_pos (hb t) hε.1 hv).le, ?_⟩
      have := Real.rpow_nonneg hv.1.le (b t)
      have := hε.2
      linarith
    rw [abs_of_nonneg (mul_nonneg (Real.rpow_nonneg hv.1.le _) (Finset.prod_nonneg (fun t ht => (hf t ht).1))), mul_comm]
    refine mul_le_mul ?_ ?_ (Real.rpow_nonneg hv.1.le _) (by positivity)
    · have := Finset.prod_le_prod (fun t ht => (hf t ht).1) (fun t ht => (hf t ht).2)
      simpa using this
    · refine Real.rpow_le_rpow_of_exponent_ge hv.1 hv.2.le ?_
      have := min_le_left A 1
      have := mul_nonneg hc hε.1
      linarith
  · intro v hv
    have hcont : ContinuousAt (fun z : ℝ × ℝ => z.2 ^ (A + c * z.1 - 1) * ∏ t ∈ T, (1 - z.2 ^ b t + z.1)) (0, v) := by
      refine ContinuousAt.mul ?_ ?_
      · exact continuousAt_snd.rpow (by fun_prop) (Or.inl hv.1.ne')
      · refine tendsto_finsetProd T (fun t _ => ?_)
        refine Tendsto.add (Tendsto.sub tendsto_const_nhds ?_) continuousAt_fst
        exact continuousAt_snd.rpow continuousAt_const (Or.inl hv.1.ne')
    have := hcont.tendsto
    rw [nhds_prod_eq] at this
    simp only [mul_zero, add_zero] at this
    exact this.mono_left (Filter.prod_mono nhdsWithin_le_nhds le_rfl)

variable [DecidableEq ι]

/-- The discretised weight of the sample `s` of the set `S`: its probability times the leave-one-out ratio. -/
noncomputable def approxWeight (p : ι → ℝ) (a ε : ℝ) (N : Nat) (S : Finset ι) (s : ι) : ℝ :=
  p s * riemannSum (fun i => Real.exp a * p i) (Real.exp a * (1 - ∑ i ∈ S, p i + ε)) ε (S.erase s) N /
    riemannSum (fun i => Real.exp a * p i) (Real.exp a * (1 - ∑ i ∈ S, p i + ε)) ε S N

/-- The discretised weights converge to the exact ones. -/
theorem approxWeight_tendsto {p : ι → ℝ} (hp : ∀ i, 0 < p i) (a : ℝ) {D S : Finset ι} (hS : S ⊆ D) (h1 : ∑ i ∈ D, p i = 1)
    (hA : S ≠ D) {s : ι} (hs : s ∈ S) :
    Tendsto (fun z : Nat × ℝ => approxWeight p a z.2 z.1 S s) (atTop ×ˢ 𝓝[≥] 0)
      (𝓝 (p s * drawLaw p (S.card - 1) (D.erase s) (S.erase s) / drawLaw p S.card D S)) := by
  have hea := Real.exp_pos a
  have hb : ∀ i, 0 < Real.exp a * p i := fun i => mul_pos hea (hp i)
  have hsplit : ∑ i ∈ D \ S, p i + ∑ i ∈ S, p i = 1 := by rw [Finset.sum_sdiff hS, h1]
  have hq : 0 < ∑ i ∈ D \ S, p i := Finset.sum_pos (fun i _ => hp i) (by
    rw [Finset.sdiff_nonempty]
    exact fun h => hA (Finset.Subset.antisymm hS h))
  have hsd : D.erase s \ S.erase s = D \ S := by
    ext i
    simp only [Finset.mem_sdiff, Finset.mem_erase, not_and]
    constructor
    · rintro ⟨⟨a, b⟩, d⟩; exact ⟨b, d a⟩
    · rintro ⟨a, b⟩; exact ⟨⟨fun h => b (h ▸ hs), a⟩, fun _ => b⟩
  rw [drawLaw_eq hp hea S.card D S hS rfl hq, drawLaw_eq hp hea (S.card - 1) (D.erase s) (S.erase s)
    (Finset.erase_subset_erase _ hS) (Finset.card_erase_of_mem hs) (by rw [hsd]; exact hq), hsd]
  set A := Real.exp a * ∑ i ∈ D \ S, p i with hAdef
  have hA0 : 0 < A := mul_pos hea hq
  have hlim := ((riemannSum_tendsto hb hA0 hea.le (S.erase s)).div (riemannSum_tendsto hb hA0 hea.le S)
    (setInt_pos hb hA0 S).ne').const_mul (p s)
  have e1 : p s * (A * setInt (fun i => Real.exp a * p i) A (S.erase s)) / (A * setInt (fun i => Real.exp a * p i) A S) =
      p s * (setInt (fun i => Real.exp a * p i) A (S.erase s) / setInt (fun i => Real.exp a * p i) A S) := by
    rw [mul_div_assoc, mul_div_mul_left _ _ hA0.ne']
  rw [e1]
  refine hlim.congr' ?_
  have hev : ∀ᶠ z : Nat × ℝ in atTop ×ˢ 𝓝[≥] (0 : ℝ), 0 < z.1 := tendsto_fst.eventually (eventually_gt_atTop 0)
  filter_upwards [hev] with z hz
  have hz' : (z.1 : ℝ) ≠ 0 := (Nat.cast_pos.2 hz).ne'
  have e2 : Real.exp a * (1 - ∑ i ∈ S, p i + z.2) = A + Real.exp a * z.2 := by rw [hAdef, ← hsplit]; ring
  rw [approxWeight, e2]
  simp only [Pi.div_apply]
  rw [div_div_div_cancel_right₀ hz', mul_div_assoc]

end Storch.SetLaw
