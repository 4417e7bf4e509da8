import Verif.Lemmas.GumbelMax
import Verif.Lemmas.SetLaw

/-!
# The set of the largest of independent Gumbel variables
-/

namespace Storch.Gumbel

open MeasureTheory SetLaw

theorem unif_Ioi {c : ℝ} (h0 : 0 ≤ c) : unif (Set.Ioi c) = ENNReal.ofReal (1 - c) := by
  rw [unif, Measure.restrict_apply measurableSet_Ioi]
  have : Set.Ioi c ∩ Set.Ioo (0 : ℝ) 1 = Set.Ioo c 1 := by
    ext x
    simp only [Set.mem_inter_iff, Set.mem_Ioi, Set.mem_Ioo]
    constructor
    · rintro ⟨a, _, b⟩; exact ⟨a, b⟩
    · rintro ⟨a, b⟩; exact ⟨a, by linarith, b⟩
  rw [this, Real.volume_Ioo]

variable {n : Nat}

/-- The random numbers for which outcome `j` comes out strictly before the others outside of `T` and strictly after those
of `T`. -/
def Split (p : Fin n → ℝ) (T : Finset (Fin n)) (j : Fin n) : Set (Fin n → ℝ) :=
  {u | ∀ i, i ≠ j → (i ∉ T → u i < (u j) ^ (p i / p j)) ∧ (i ∈ T → (u j) ^ (p i / p j) < u i)}

theorem measurable_Split (p : Fin n → ℝ) (T : Finset (Fin n)) (j : Fin n) : MeasurableSet (Split p T j) := by
  have : Split p T j = ⋂ i, ⋂ (_ : i ≠ j), ((⋂ (_ : i ∉ T), {u | u i < (u j) ^ (p i / p j)}) ∩
      ⋂ (_ : i ∈ T), {u | (u j) ^ (p i / p j) < u i}) := by
    ext u; simp [Split]
  rw [this]
  refine MeasurableSet.iInter (fun i => MeasurableSet.iInter (fun _ => ?_))
  refine (MeasurableSet.iInter (fun _ => ?_)).inter (MeasurableSet.iInter (fun _ => ?_))
  · exact measurableSet_lt (measurable_pi_apply i) ((measurable_pi_apply j).pow_const _)
  · exact measurableSet_lt ((measurable_pi_apply j).pow_const _) (measurable_pi_apply i)

theorem measure_Split (p : Fin n → ℝ) (hp : ∀ i, 0 < p i) (T : Finset (Fin n)) (j : Fin n) (hj : j ∉ T) :
    cube n (Split p T j) =
      ENNReal.ofReal (p j / (∑ i ∈ Finset.univ \ T, p i) * drawLaw p T.card Finset.univ T) := by
  cases n with
  | zero => exact j.elim0
  | succ N =>
    have hmp := measurePreserving_piFinSuccAbove (fun _ : Fin (N + 1) => unif) j
    set e := MeasurableEquiv.piFinSuccAbove (fun _ : Fin (N + 1) => ℝ) j with he
    let box : ℝ → Fin N → Set ℝ := fun x i => if j.succAbove i ∈ T then Set.Ioi (x ^ (p (j.succAbove i) / p j))
      else Set.Iio (x ^ (p (j.succAbove i) / p j))
    let B : Set (ℝ × (Fin N → ℝ)) := {z | ∀ i, (j.succAbove i ∉ T → z.2 i < z.1 ^ (p (j.succAbove i) / p j)) ∧
      (j.succAbove i ∈ T → z.1 ^ (p (j.succAbove i) / p j) < z.2 i)}
    have hB : MeasurableSet B := by
      have : B = ⋂ i, ((⋂ (_ : j.succAbove i ∉ T), {z | z.2 i < z.1 ^ (p (j.succAbove i) / p j)}) ∩
          ⋂ (_ : j.succAbove i ∈ T), {z | z.1 ^ (p (j.succAbove i) / p j) < z.2 i}) := by
        ext z; simp [B]
      rw [this]
      refine MeasurableSet.iInter (fun i => (MeasurableSet.iInter (fun _ => ?_)).inter (MeasurableSet.iInter (fun _ => ?_)))
      · exact measurableSet_lt ((measurable_pi_apply i).comp measurable_snd) (measurable_fst.pow_const _)
      · exact measurableSet_lt (measurable_fst.pow_const _) ((measurable_pi_apply i).comp measurable_snd)
    have hpre : Split p T j = e ⁻¹' B := by
      ext u
      have e1 : (e u).1 = u j := rfl
      have e2 : ∀ i, (e u).2 i = u (j.succAbove i) := fun i => rfl
      simp only [Set.mem_preimage, Split, Set.mem_ofPred_eq, B, e1, e2]
      constructor
      · intro h i
        exact h _ (Fin.succAbove_ne j i)
      · intro h i hne
        obtain ⟨k, rfl⟩ := Fin.exists_succAbove_eq hne
        exact h k
    rw [cube, hpre, hmp.measure_preimage hB.nullMeasurableSet, Measure.prod_apply hB]
    have hc : 0 < 1 / p j := one_div_pos.2 (hp j)
    set A := ∑ i ∈ Finset.univ \ T, p i with hAdef
    have hA : 0 < A := Finset.sum_pos (fun i _ => hp i) ⟨j, by simpa using hj⟩
    set b : Fin (N + 1) → ℝ := fun i => 1 / p j * p i with hb
    have hb0 : ∀ i, 0 < b i := fun i => mul_pos hc (hp i)
    have hbe : ∀ i, p i / p j = b i := fun i => by rw [hb]; ring
    have hval : ∀ x ∈ Set.Ioo (0 : ℝ) 1, (Measure.pi (fun _ : Fin N => unif)) (Prod.mk x ⁻¹' B) =
        ENNReal.ofReal (x ^ (1 / p j * A - 1) * ∏ t ∈ T, (1 - x ^ b t)) := by
      intro x hx
      have hset : Prod.mk x ⁻¹' B = Set.univ.pi (box x) := by
        ext y
        simp only [B, box, Set.mem_preimage, Set.mem_ofPred_eq, Set.mem_pi, Set.mem_univ, true_implies]
        refine forall_congr' (fun i => ?_)
        split <;> simp_all
      have hle : ∀ i, x ^ b i ≤ 1 := fun i => Real.rpow_le_one hx.1.le hx.2.le (hb0 i).le
      have hge : ∀ i, 0 ≤ x ^ b i := fun i => Real.rpow_nonneg hx.1.le _
      rw [hset, Measure.pi_pi]
      have hfac : ∀ i, unif (box x i) = ENNReal.ofReal (if j.succAbove i ∈ T then 1 - x ^ b (j.succAbove i)
          else x ^ b (j.succAbove i)) := by
        intro i
        simp only [box, hbe]
        split
        · exact unif_Ioi (hge _)
        · exact unif_Iio (hle _)
      rw [Finset.prod_congr rfl (fun i _ => hfac i), ← ENNReal.ofReal_prod_of_nonneg (fun i _ => by
        split
        · have := hle (j.succAbove i); linarith
        · exact hge _)]
      congr 1
      -- the product over all outcomes
      have hall : x * ∏ i : Fin N, (if j.succAbove i ∈ T then 1 - x ^ b (j.succAbove i) else x ^ b (j.succAbove i)) =
          x ^ (1 / p j * A) * ∏ t ∈ T, (1 - x ^ b t) := by
        have h1 := Fin.prod_univ_succAbove (fun i => if i ∈ T then 1 - x ^ b i else x ^ b i) j
        rw [if_neg hj] at h1
        have h2 : x ^ b j = x := by
          rw [hb]; simp only []; rw [one_div, inv_mul_cancel₀ (hp j).ne', Real.rpow_one]
        rw [h2] at h1
        rw [← h1, Finset.prod_ite, mul_comm]
        congr 1
        · rw [← Real.rpow_sum_of_pos hx.1, hAdef, Finset.mul_sum]
          congr 1
          refine Finset.sum_congr ?_ (fun i _ => rfl)
          ext i; simp
        · refine Finset.prod_congr ?_ (fun i _ => rfl)
          ext i; simp
      have hx0 := hx.1.ne'
      rw [Real.rpow_sub_one hx0, div_mul_eq_mul_div, ← hall, mul_div_cancel_left₀ _ hx0]
    have hcongr : ∫⁻ x, (Measure.pi (fun _ : Fin N => unif)) (Prod.mk x ⁻¹' B) ∂unif =
        ∫⁻ x in Set.Ioc (0 : ℝ) 1, ENNReal.ofReal (x ^ (1 / p j * A - 1) * ∏ t ∈ T, (1 - x ^ b t)) := by
      refine Eq.trans ?_ (setLIntegral_congr Ioo_ae_eq_Ioc)
      exact setLIntegral_congr_fun measurableSet_Ioo hval
    rw [hcongr, ← ofReal_integral_eq_lintegral_ofReal]
    · rw [← intervalIntegral.integral_of_le zero_le_one]
      congr 1
      rw [drawLaw_eq hp hc T.card Finset.univ T (Finset.subset_univ _) rfl hA, ← hAdef]
      change setInt b (1 / p j * A) T = p j / A * (1 / p j * A * setInt b (1 / p j * A) T)
      have := (hp j).ne'
      field_simp
    · exact (setInt_integrable hb0 (mul_pos hc hA) T).1
    · refine (ae_restrict_iff' measurableSet_Ioc).2 (Filter.Eventually.of_forall (fun x hx => ?_))
      refine mul_nonneg (Real.rpow_nonneg hx.1.le _) (Finset.prod_nonneg (fun t _ => ?_))
      have := Real.rpow_le_one hx.1.le hx.2 (hb0 t).le
      simp only [sub_nonneg]
      exact this

theorem Split_gum {p u : Fin n → ℝ} (hp : ∀ i, 0 < p i) (hu : ∀ i, u i ∈ Set.Ioo (0 : ℝ) 1) {T : Finset (Fin n)} {j : Fin n}
    (h : u ∈ Split p T j) {i : Fin n} (hi : i ≠ j) : (i ∉ T → gum p u i < gum p u j) ∧ (i ∈ T → gum p u j < gum p u i) := by
  refine ⟨fun ht => gum_lt hp hu ((h i hi).1 ht), fun ht => gum_lt hp hu ?_⟩
  have h1 := (h i hi).2 ht
  have hpow : ((u j) ^ (p i / p j)) ^ (p j / p i) = u j := by
    rw [← Real.rpow_mul (hu j).1.le]
    have := (hp i).ne'
    have := (hp j).ne'
    rw [show p i / p j * (p j / p i) = 1 by field_simp, Real.rpow_one]
  have c := Real.rpow_lt_rpow (Real.rpow_nonneg (hu j).1.le _) h1 (div_pos (hp j) (hp i))
  rwa [hpow] at c

/-- A set of as many outcomes that nothing outside of it exceeds is the set before the split. -/
theorem Split_set {p u : Fin n → ℝ} (hp : ∀ i, 0 < p i) (hu : ∀ i, u i ∈ Set.Ioo (0 : ℝ) 1) {T K : Finset (Fin n)} {j : Fin n}
    (hj : j ∉ T) (h : u ∈ Split p T j) (hc : K.card = T.card) (hK : ∀ t ∈ K, ∀ i ∉ K, gum p u i ≤ gum p u t) : K = T := by
  refine (Finset.eq_of_subset_of_card_le ?_ hc.ge)
  intro t ht
  by_contra hn
  obtain ⟨i, hiT, hiK⟩ : ∃ i ∈ T, i ∉ K := by
    by_contra hall
    push Not at hall
    have : T ⊂ K := ⟨hall, fun hsub => hn (hsub ht)⟩
    have := Finset.card_lt_card this
    omega
  have h1 := hK t ht i hiK
  have hij : i ≠ j := fun e => hj (e ▸ hiT)
  have h2 := (Split_gum hp hu h hij).2 hiT
  rcases eq_or_ne t j with rfl | htj
  · linarith
  · have := (Split_gum hp hu h htj).1 hn
    linarith

theorem Split_unique {p u : Fin n → ℝ} (hp : ∀ i, 0 < p i) (hu : ∀ i, u i ∈ Set.Ioo (0 : ℝ) 1) {T T' : Finset (Fin n)}
    {j j' : Fin n} (hj : j ∉ T) (hj' : j' ∉ T') (hc : T'.card = T.card) (h : u ∈ Split p T j) (h' : u ∈ Split p T' j') :
    T' = T ∧ j' = j := by
  have hT : T' = T := by
    refine Split_set hp hu hj h hc (fun t ht i hi => ?_)
    have htj : t ≠ j' := fun e => hj' (e ▸ ht)
    have h1 := (Split_gum hp hu h' htj).2 ht
    rcases eq_or_ne i j' with rfl | hij
    · exact h1.le
    · have := (Split_gum hp hu h' hij).1 hi
      linarith
  subst hT
  refine ⟨rfl, ?_⟩
  by_contra hne
  have a := (Split_gum hp hu h hne).1 hj'
  have b := (Split_gum hp hu h' (Ne.symm hne)).1 hj
  linarith

/-- The set of the `k` largest Gumbel variables is distributed like `k` draws without replacement. -/
theorem gumbel_top {p : Fin n → ℝ} (hp : ∀ i, 0 < p i) {k : Nat} (hk : k < n) (K : (Fin n → ℝ) → Finset (Fin n))
    (hK : ∀ u, (∀ i, u i ∈ Set.Ioo (0 : ℝ) 1) → (K u).card = k ∧ ∀ t ∈ K u, ∀ i ∉ K u, gum p u i ≤ gum p u t)
    (f : Finset (Fin n) → ℝ) :
    ∫ u, f (K u) ∂cube n = ∑ T ∈ Finset.univ.powersetCard k, drawLaw p k Finset.univ T * f T := by
  set I : Finset (Σ _ : Finset (Fin n), Fin n) := (Finset.univ.powersetCard k).sigma (fun T => Finset.univ \ T) with hI
  have hmem : ∀ z ∈ I, z.1.card = k ∧ z.2 ∉ z.1 := by
    rintro ⟨T, j⟩ hz
    simpa [hI, Finset.mem_powersetCard] using hz
  have hsumI : ∀ g : Finset (Fin n) → ℝ, ∑ z ∈ I, p z.2 / (∑ i ∈ Finset.univ \ z.1, p i) * g z.1 =
      ∑ T ∈ Finset.univ.powersetCard k, g T := by
    intro g
    rw [hI, Finset.sum_sigma]
    refine Finset.sum_congr rfl (fun T hT => ?_)
    have hc := (Finset.mem_powersetCard.1 hT).2
    have hne : (Finset.univ \ T).Nonempty := by
      rw [Finset.sdiff_nonempty]
      intro h
      have := Finset.card_le_card h
      simp only [Finset.card_univ, Fintype.card_fin] at this
      omega
    have hA : (∑ i ∈ Finset.univ \ T, p i) ≠ 0 := (Finset.sum_pos (fun i _ => hp i) hne).ne'
    change ∑ s ∈ Finset.univ \ T, p s / (∑ i ∈ Finset.univ \ T, p i) * g T = g T
    rw [← Finset.sum_mul, ← Finset.sum_div, div_self hA, one_mul]
  have hmeas : ∀ z ∈ I, cube n (Split p z.1 z.2) =
      ENNReal.ofReal (p z.2 / (∑ i ∈ Finset.univ \ z.1, p i) * drawLaw p k Finset.univ z.1) := by
    intro z hz
    rw [measure_Split p hp z.1 z.2 (hmem z hz).2, (hmem z hz).1]
  have hnn : ∀ z ∈ I, 0 ≤ p z.2 / (∑ i ∈ Finset.univ \ z.1, p i) * drawLaw p k Finset.univ z.1 := by
    intro z hz
    exact mul_nonneg (div_nonneg (hp _).le (Finset.sum_nonneg (fun i _ => (hp i).le)))
      (drawLaw_pos hp k _ _ (Finset.subset_univ _) (hmem z hz).1).le
  -- almost surely there is a split
  have hmc : MeasurableSet {u : Fin n → ℝ | ∀ i, u i ∈ Set.Ioo (0 : ℝ) 1} := by
    rw [Set.ofPred_forall]
    exact MeasurableSet.iInter (fun i => measurableSet_Ioo.preimage (measurable_pi_apply i))
  have hm : ∀ z ∈ I, MeasurableSet (Split p z.1 z.2 ∩ {u | ∀ i, u i ∈ Set.Ioo (0 : ℝ) 1}) :=
    fun z _ => (measurable_Split p z.1 z.2).inter hmc
  have hae : ∀ z : (Σ _ : Finset (Fin n), Fin n), cube n (Split p z.1 z.2 ∩ {u | ∀ i, u i ∈ Set.Ioo (0 : ℝ) 1}) =
      cube n (Split p z.1 z.2) := by
    intro z
    refine measure_congr ?_
    filter_upwards [cube_mem n] with u hu
    exact propext ⟨fun h => h.1, fun h => ⟨h, hu⟩⟩
  have hdisj : (I : Set (Σ _ : Finset (Fin n), Fin n)).PairwiseDisjoint
      (fun z => Split p z.1 z.2 ∩ {u | ∀ i, u i ∈ Set.Ioo (0 : ℝ) 1}) := by
    rintro ⟨T, j⟩ hz ⟨T', j'⟩ hz' hne
    rw [Function.onFun, Set.disjoint_left]
    rintro u ⟨h1, h2⟩ ⟨h3, _⟩
    obtain ⟨c1, c2⟩ := hmem _ hz
    obtain ⟨c3, c4⟩ := hmem _ hz'
    obtain ⟨rfl, rfl⟩ := Split_unique hp h2 c2 c4 (c3.trans c1.symm) h1 h3
    exact hne rfl
  have htot : cube n (⋃ z ∈ I, Split p z.1 z.2 ∩ {u | ∀ i, u i ∈ Set.Ioo (0 : ℝ) 1}) = 1 := by
    rw [measure_biUnion_finset hdisj hm, Finset.sum_congr rfl (fun z hz => by rw [hae z, hmeas z hz]),
      ← ENNReal.ofReal_sum_of_nonneg hnn, hsumI (drawLaw p k Finset.univ),
      drawLaw_total hp k _ (by simp; omega), ENNReal.ofReal_one]
  have hex : ∀ᵐ u ∂cube n, ∃ z ∈ I, u ∈ Split p z.1 z.2 := by
    have := (prob_compl_eq_zero_iff (Finset.measurableSet_biUnion I hm)).2 htot
    rw [ae_iff]
    refine measure_mono_null ?_ this
    intro u hu
    simp only [Set.mem_ofPred_eq, not_exists, not_and] at hu
    simp only [Set.mem_compl_iff, Set.mem_iUnion, not_exists, Set.mem_inter_iff, not_and]
    intro z hz h
    exact absurd h (hu z hz)
  have heq : (fun u => f (K u)) =ᵐ[cube n] fun u => ∑ z ∈ I, (Split p z.1 z.2).indicator (fun _ => f z.1) u := by
    filter_upwards [hex, cube_mem n] with u hf hu
    obtain ⟨z, hz, hfz⟩ := hf
    obtain ⟨c1, c2⟩ := hmem z hz
    obtain ⟨k1, k2⟩ := hK u hu
    have hKz : K u = z.1 := Split_set hp hu c2 hfz (k1.trans c1.symm) k2
    rw [hKz, Finset.sum_eq_single z]
    · rw [Set.indicator_of_mem hfz]
    · intro z' hz' hne
      rw [Set.indicator_of_notMem]
      intro h
      obtain ⟨c3, c4⟩ := hmem z' hz'
      obtain ⟨e1, e2⟩ := Split_unique hp hu c2 c4 (c3.trans c1.symm) hfz h
      exact hne (by cases z; cases z'; simp only at e1 e2; subst e1; subst e2; rfl)
    · intro h; exact absurd hz h
  rw [integral_congr_ae heq, integral_finsetSum]
  · rw [← hsumI (fun T => drawLaw p k Finset.univ T * f T)]
    refine Finset.sum_congr rfl (fun z hz => ?_)
    rw [integral_indicator_const _ (measurable_Split p z.1 z.2), Measure.real, hmeas z hz,
      ENNReal.toReal_ofReal (hnn z hz), smul_eq_mul, mul_assoc]
  · intro z _
    exact (integrable_const _).indicator (measurable_Split p z.1 z.2)

end Storch.Gumbel
