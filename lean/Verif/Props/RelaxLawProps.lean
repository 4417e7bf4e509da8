import Verif.Model.Relaxed
import Verif.Lemmas.ConditionalLaw
import Verif.Props.GumbelProps
import Mathlib.MeasureTheory.Measure.Real
import Mathlib.Tactic.FinCases

/-!
# C75: the conditional relaxed sample has the law of the relaxed sample given the hard sample
-/

namespace Storch.Gumbel

open MeasureTheory

variable {n : Nat}

theorem clamp_id {eps x : ℝ} (h1 : eps ≤ x) (h2 : x ≤ 1 - eps) : clampProbs eps x = x := by
  rw [clampProbs, max_eq_left h1, min_eq_left h2]

/-- The relaxed sample that belongs to exponential variables. -/
noncomputable def ofExpo (τ : ℝ) (t : Fin n → ℝ) : Fin n → ℝ := normaliseScores (fun i => -Real.log (t i) / τ)

theorem measurable_ofExpo (τ : ℝ) : Measurable (ofExpo (n := n) τ) := by
  have h : ∀ i : Fin n, Measurable (fun t : Fin n → ℝ => -Real.log (t i) / τ) := fun i =>
    ((Real.measurable_log.comp (measurable_pi_apply i)).neg).div_const _
  refine measurable_pi_lambda _ (fun i => ?_)
  unfold ofExpo normaliseScores
  exact Real.measurable_exp.comp ((h i).sub (Real.measurable_log.comp
    (Finset.measurable_sum _ (fun j _ => Real.measurable_exp.comp (h j)))))

theorem neg_log_pos {x : ℝ} (hx : x ∈ Set.Ioo (0 : ℝ) 1) : 0 < -Real.log x := by
  have := Real.log_neg hx.1 hx.2
  linarith

theorem relaxed_expo {eps τ : ℝ} {p u : Fin n → ℝ} (hp : ∀ i, 0 < p i) (hc : ∀ i, eps ≤ p i ∧ p i ≤ 1 - eps)
    (hu : ∀ i, u i ∈ Set.Ioo (0 : ℝ) 1) (hcu : ∀ i, eps ≤ u i ∧ u i ≤ 1 - eps) :
    relaxedCategorical eps τ p u = ofExpo τ (expo p u) := by
  unfold relaxedCategorical ofExpo
  congr 1
  funext i
  rw [clamp_id (hc i).1 (hc i).2, clamp_id (hcu i).1 (hcu i).2, expo,
    Real.log_div (neg_log_pos (hu i)).ne' (hp i).ne']
  ring

theorem conditional_expo {eps τ : ℝ} {p v : Fin n → ℝ} (hc : ∀ i, eps ≤ p i ∧ p i ≤ 1 - eps)
    (hcv : ∀ i, eps ≤ v i ∧ v i ≤ 1 - eps) (j : Fin n) :
    conditionalCategorical eps τ (fun i => if i = j then 1 else 0) j p v = ofExpo τ (condExpo p j v) := by
  unfold conditionalCategorical ofExpo
  congr 1
  funext i
  simp only [conditionalScores, condExpo]
  rw [clamp_id (hcv i).1 (hcv i).2]
  by_cases h : i = j
  · subst h; simp
  · rw [if_neg h, if_neg h, if_neg (by simp), clamp_id (hc i).1 (hc i).2, clamp_id (hcv j).1 (hcv j).2]
    ring_nf

/-- The index of the largest entry of a relaxed sample is the one that comes out first. -/
theorem argmax_First {τ : ℝ} (hτ : 0 < τ) {p u : Fin n → ℝ} (hp : ∀ i, 0 < p i) (hu : ∀ i, u i ∈ Set.Ioo (0 : ℝ) 1)
    {am : (Fin n → ℝ) → Fin n} (ham : ∀ (s : Fin n → ℝ) i, s i ≤ s (am s)) {j : Fin n} (h : u ∈ First p Finset.univ j) :
    am (ofExpo τ (expo p u)) = j := by
  by_contra hne
  have h1 := ham (ofExpo τ (expo p u)) j
  have h2 := gum_lt hp hu (h _ (Finset.mem_univ _) hne)
  simp only [ofExpo, normaliseScores, Real.exp_le_exp, sub_le_sub_iff_right] at h1
  rw [div_le_div_iff_of_pos_right hτ, expo, expo, Real.log_div (neg_log_pos (hu _)).ne' (hp _).ne',
    Real.log_div (neg_log_pos (hu _)).ne' (hp _).ne'] at h1
  simp only [gum, ofExpo] at h2 h1
  linarith

/-- A clamp that does something is unlikely. -/
theorem unif_clamped {eps : ℝ} (h0 : 0 ≤ eps) (h1 : eps ≤ 1 / 2) :
    unif {x | ¬ (eps ≤ x ∧ x ≤ 1 - eps)} = ENNReal.ofReal (2 * eps) := by
  have hm : MeasurableSet {x : ℝ | eps ≤ x ∧ x ≤ 1 - eps} := measurableSet_Icc
  have hin : {x : ℝ | eps ≤ x ∧ x ≤ 1 - eps} = Set.Icc eps (1 - eps) := rfl
  have hv : unif (Set.Icc eps (1 - eps)) = ENNReal.ofReal (1 - 2 * eps) := by
    rw [unif, ← Measure.restrict_congr_set Ioo_ae_eq_Icc.symm, Measure.restrict_apply measurableSet_Icc,
      Set.inter_eq_left.2 (Set.Icc_subset_Icc h0 (by linarith)), Real.volume_Icc]
    congr 1; ring
  have := prob_compl_eq_one_sub (μ := unif) hm
  rw [hin, hv] at this
  have hc : {x : ℝ | ¬ (eps ≤ x ∧ x ≤ 1 - eps)} = (Set.Icc eps (1 - eps))ᶜ := rfl
  rw [hc, this, ← ENNReal.ofReal_one, ← ENNReal.ofReal_sub _ (by linarith)]
  congr 1; ring

theorem cube_clamped {eps : ℝ} (h0 : 0 ≤ eps) (h1 : eps ≤ 1 / 2) :
    (cube n).real {u | ¬ ∀ i, eps ≤ u i ∧ u i ≤ 1 - eps} ≤ 2 * n * eps := by
  have hs : {u : Fin n → ℝ | ¬ ∀ i, eps ≤ u i ∧ u i ≤ 1 - eps} = ⋃ i, {u | ¬ (eps ≤ u i ∧ u i ≤ 1 - eps)} := by
    ext u
    simp only [Set.mem_iUnion, Set.mem_ofPred_eq]
    push Not
    rfl
  rw [hs]
  refine (measureReal_iUnion_fintype_le _).trans ?_
  have hi : ∀ i : Fin n, (cube n).real {u | ¬ (eps ≤ u i ∧ u i ≤ 1 - eps)} = 2 * eps := by
    intro i
    have hmp := measurePreserving_eval (fun _ : Fin n => unif) i
    have hm : MeasurableSet {x : ℝ | ¬ (eps ≤ x ∧ x ≤ 1 - eps)} := (measurableSet_Icc (a := eps) (b := 1 - eps)).compl
    have := hmp.measure_preimage hm.nullMeasurableSet
    rw [Measure.real, cube]
    have e : {u : Fin n → ℝ | ¬ (eps ≤ u i ∧ u i ≤ 1 - eps)} = Function.eval i ⁻¹' {x | ¬ (eps ≤ x ∧ x ≤ 1 - eps)} := rfl
    rw [e, this, unif_clamped h0 h1, ENNReal.toReal_ofReal (by linarith)]
  rw [Finset.sum_congr rfl (fun i _ => hi i), Finset.sum_const, Finset.card_univ, Fintype.card_fin, nsmul_eq_mul]
  linarith

/-- Two events that agree when a third one does not happen. -/
theorem real_close {Ω : Type*} [MeasurableSpace Ω] (μ : Measure Ω) [IsProbabilityMeasure μ] {A B N : Set Ω}
    (h : ∀ᵐ x ∂μ, x ∉ N → (x ∈ A ↔ x ∈ B)) : |μ.real A - μ.real B| ≤ μ.real N := by
  have key : ∀ {A B : Set Ω}, (∀ᵐ x ∂μ, x ∉ N → (x ∈ A ↔ x ∈ B)) → μ.real A ≤ μ.real B + μ.real N := by
    intro A B h
    have h1 : A ≤ᵐ[μ] (B ∪ N : Set Ω) := by
      filter_upwards [h] with x hx hA
      by_cases hN : x ∈ N
      · exact Or.inr hN
      · exact Or.inl ((hx hN).1 hA)
    have h2 : μ A ≤ μ (B ∪ N) := measure_mono_ae h1
    have h3 : μ.real A ≤ μ.real (B ∪ N) := ENNReal.toReal_mono (measure_ne_top _ _) h2
    exact h3.trans (measureReal_union_le _ _)
  rw [abs_le]
  have a := key h
  have b := key (A := B) (B := A) (h.mono (fun x hx hN => (hx hN).symm))
  constructor <;> linarith

/-- C75: let `u` be the random numbers of the relaxed sample of a categorical distribution and `v` those of the conditional
sample.  The probability that the relaxed sample is in `B` and that it is discretized to the outcome `j` is the
probability of `j` times the probability that the conditional sample for the hard sample `j` is in `B`, up to the
probability that torch has to clamp one of the random numbers away from 0 or 1. -/
theorem C75_law {eps τ : ℝ} (h0 : 0 ≤ eps) (h1 : eps ≤ 1 / 2) (hτ : 0 < τ) {p : Fin n → ℝ} (hp : ∀ i, 0 < p i)
    (hc : ∀ i, eps ≤ p i ∧ p i ≤ 1 - eps) (hsum : ∑ i, p i = 1) {am : (Fin n → ℝ) → Fin n}
    (ham : ∀ (s : Fin n → ℝ) i, s i ≤ s (am s)) (j : Fin n) {B : Set (Fin n → ℝ)} (hB : MeasurableSet B) :
    |(cube n).real {u | discretizeRow am (relaxedCategorical eps τ p u) = (fun i => if i = j then 1 else 0) ∧
        relaxedCategorical eps τ p u ∈ B} -
      p j * (cube n).real {v | conditionalRow am eps τ (fun i => if i = j then 1 else 0) p v ∈ B}| ≤ 4 * n * eps := by
  -- what `am` finds in a one-hot row
  have hone : am (fun i => if i = j then 1 else 0) = j := by
    by_contra hne
    have := ham (fun i => if i = j then 1 else 0) j
    simp only [if_true, if_neg hne] at this
    linarith
  have hdisc : ∀ s, discretizeRow am s = (fun i => if i = j then 1 else 0) ↔ am s = j := by
    intro s
    constructor
    · intro h
      have := congrFun h j
      simp only [discretizeRow, if_true] at this
      by_contra hne
      rw [if_neg (Ne.symm hne)] at this
      exact zero_ne_one this
    · intro h; funext i; simp only [discretizeRow, h]
  -- the law without clamping
  have hlaw : (cube n).real {u | u ∈ First p Finset.univ j ∧ ofExpo τ (expo p u) ∈ B} =
      p j * (cube n).real {v | ofExpo τ (condExpo p j v) ∈ B} := by
    have hG : MeasurableSet (ofExpo (n := n) τ ⁻¹' B) := measurable_ofExpo τ hB
    have h := lintegral_expo hp hsum j (F := (ofExpo τ ⁻¹' B).indicator 1) (measurable_one.indicator hG)
    have e1 : ∀ u, (ofExpo (n := n) τ ⁻¹' B).indicator (1 : (Fin n → ℝ) → ENNReal) (expo p u) =
        ((fun u => ofExpo τ (expo p u)) ⁻¹' B).indicator 1 u := fun u => rfl
    have e2 : ∀ u, (ofExpo (n := n) τ ⁻¹' B).indicator (1 : (Fin n → ℝ) → ENNReal) (condExpo p j u) =
        ((fun u => ofExpo τ (condExpo p j u)) ⁻¹' B).indicator 1 u := fun u => rfl
    have m1 : MeasurableSet ((fun u => ofExpo τ (expo p u)) ⁻¹' B) := ((measurable_ofExpo τ).comp (measurable_expo p)) hB
    have m2 : MeasurableSet ((fun u => ofExpo τ (condExpo p j u)) ⁻¹' B) :=
      ((measurable_ofExpo τ).comp (measurable_condExpo p j)) hB
    simp only [e1, e2] at h
    rw [lintegral_indicator_one m1, lintegral_indicator_one m2, Measure.restrict_apply m1] at h
    have hs : {u | u ∈ First p Finset.univ j ∧ ofExpo τ (expo p u) ∈ B} =
        (fun u => ofExpo τ (expo p u)) ⁻¹' B ∩ First p Finset.univ j := by
      ext u; exact and_comm
    rw [Measure.real, hs, h, ENNReal.toReal_mul, ENNReal.toReal_ofReal (hp j).le]
    rfl
  -- the two clamps
  have hA : |(cube n).real {u | discretizeRow am (relaxedCategorical eps τ p u) = (fun i => if i = j then 1 else 0) ∧
        relaxedCategorical eps τ p u ∈ B} -
      (cube n).real {u | u ∈ First p Finset.univ j ∧ ofExpo τ (expo p u) ∈ B}| ≤ 2 * n * eps := by
    refine (real_close (cube n) ?_).trans (cube_clamped h0 h1)
    filter_upwards [cube_mem n, ae_First hp ⟨j, Finset.mem_univ j⟩] with u hu hf hN
    simp only [not_not] at hN ⊢
    obtain ⟨k, -, hk⟩ := hf
    rw [hdisc, relaxed_expo hp hc hu hN, argmax_First hτ hp hu ham hk]
    constructor
    · rintro ⟨rfl, hb⟩; exact ⟨hk, hb⟩
    · rintro ⟨hj, hb⟩
      refine ⟨?_, hb⟩
      by_contra hne
      exact disjoint_First hp (Finset.mem_univ k) (Finset.mem_univ j) hne hu hk hj
  have hC : |(cube n).real {v | conditionalRow am eps τ (fun i => if i = j then 1 else 0) p v ∈ B} -
      (cube n).real {v | ofExpo τ (condExpo p j v) ∈ B}| ≤ 2 * n * eps := by
    refine (real_close (cube n) ?_).trans (cube_clamped h0 h1)
    refine Filter.Eventually.of_forall (fun v hN => ?_)
    have hN : ∀ i, eps ≤ v i ∧ v i ≤ 1 - eps := not_not.1 hN
    simp only [Set.mem_ofPred_eq]
    rw [conditionalRow, hone, conditional_expo hc hN]
  have hpj : p j ≤ 1 := by
    rw [← hsum]
    exact Finset.single_le_sum (fun i _ => (hp i).le) (Finset.mem_univ j)
  rw [hlaw] at hA
  rw [abs_le] at hA hC ⊢
  have hn : 0 ≤ 2 * n * eps := by positivity
  constructor <;> nlinarith [hp j, hA.1, hA.2, hC.1, hC.2]

/-- There is an index of the largest entry. -/
theorem exists_argmax (hn : 0 < n) : ∃ am : (Fin n → ℝ) → Fin n, ∀ (s : Fin n → ℝ) i, s i ≤ s (am s) := by
  have : Nonempty (Fin n) := ⟨⟨0, hn⟩⟩
  exact Classical.axiom_of_choice (fun s => Finite.exists_max s)

/-- Three classes, exact arithmetic: for instance, the probability that the relaxed sample has an entry above 0.9 and
that it is discretized to the second class. -/
example (am : (Fin 3 → ℝ) → Fin 3) (ham : ∀ (s : Fin 3 → ℝ) i, s i ≤ s (am s)) :
    (cube 3).real {u | discretizeRow am (relaxedCategorical 0 (1 / 2) ![1 / 2, 1 / 3, 1 / 6] u) =
        (fun i => if i = 1 then 1 else 0) ∧ relaxedCategorical 0 (1 / 2) ![1 / 2, 1 / 3, 1 / 6] u ∈ {x | 9 / 10 < x 1}} =
      1 / 3 * (cube 3).real {v | conditionalRow am 0 (1 / 2) (fun i => if i = 1 then 1 else 0) ![1 / 2, 1 / 3, 1 / 6] v ∈
        {x | 9 / 10 < x 1}} := by
  have h := C75_law (n := 3) (le_refl (0 : ℝ)) (by norm_num) (show (0 : ℝ) < 1 / 2 by norm_num)
    (p := ![1 / 2, 1 / 3, 1 / 6]) (by intro i; fin_cases i <;> norm_num) (by intro i; fin_cases i <;> norm_num)
    (by rw [Fin.sum_univ_three]; norm_num [Matrix.cons_val_two]) ham 1 (B := {x | 9 / 10 < x 1})
    (measurableSet_lt measurable_const (measurable_pi_apply 1))
  rw [mul_zero, abs_nonpos_iff, sub_eq_zero] at h
  exact h

/-- C75: hence resampling does not change anything: first draw a relaxed sample and discretize it, then draw the
conditional sample for the hard sample from fresh random numbers; hard sample and conditional sample are distributed as
hard sample and relaxed sample are. -/
theorem C75_resample {eps τ : ℝ} (h0 : 0 ≤ eps) (h1 : eps ≤ 1 / 2) (hτ : 0 < τ) {p : Fin n → ℝ} (hp : ∀ i, 0 < p i)
    (hc : ∀ i, eps ≤ p i ∧ p i ≤ 1 - eps) (hsum : ∑ i, p i = 1) {am : (Fin n → ℝ) → Fin n}
    (ham : ∀ (s : Fin n → ℝ) i, s i ≤ s (am s)) (j : Fin n) {B : Set (Fin n → ℝ)} (hB : MeasurableSet B) :
    |((cube n).prod (cube n)).real {w | discretizeRow am (relaxedCategorical eps τ p w.1) = (fun i => if i = j then 1 else 0) ∧
        conditionalRow am eps τ (discretizeRow am (relaxedCategorical eps τ p w.1)) p w.2 ∈ B} -
      (cube n).real {u | discretizeRow am (relaxedCategorical eps τ p u) = (fun i => if i = j then 1 else 0) ∧
        relaxedCategorical eps τ p u ∈ B}| ≤ 8 * n * eps := by
  have hset : {w : (Fin n → ℝ) × (Fin n → ℝ) |
      discretizeRow am (relaxedCategorical eps τ p w.1) = (fun i => if i = j then 1 else 0) ∧
        conditionalRow am eps τ (discretizeRow am (relaxedCategorical eps τ p w.1)) p w.2 ∈ B} =
      {u | discretizeRow am (relaxedCategorical eps τ p u) = (fun i => if i = j then 1 else 0)} ×ˢ
        {v | conditionalRow am eps τ (fun i => if i = j then 1 else 0) p v ∈ B} := by
    ext w
    simp only [Set.mem_ofPred_eq, Set.mem_prod]
    exact and_congr_right (fun h => by rw [h])
  rw [hset, measureReal_prod_prod]
  have a := C75_law h0 h1 hτ hp hc hsum ham j hB
  have b := C75_law h0 h1 hτ hp hc hsum ham j (B := Set.univ) MeasurableSet.univ
  have e : (cube n).real {v | conditionalRow am eps τ (fun i => if i = j then 1 else 0) p v ∈ (Set.univ : Set (Fin n → ℝ))} = 1 := by
    simp
  have e' : {u | discretizeRow am (relaxedCategorical eps τ p u) = (fun i => if i = j then 1 else 0) ∧
      relaxedCategorical eps τ p u ∈ (Set.univ : Set (Fin n → ℝ))} =
      {u | discretizeRow am (relaxedCategorical eps τ p u) = (fun i => if i = j then 1 else 0)} := by
    ext u; simp
  rw [e, e', mul_one] at b
  have c0 : 0 ≤ (cube n).real {v | conditionalRow am eps τ (fun i => if i = j then 1 else 0) p v ∈ B} := measureReal_nonneg
  have c1 : (cube n).real {v | conditionalRow am eps τ (fun i => if i = j then 1 else 0) p v ∈ B} ≤ 1 := measureReal_le_one
  have hn : 0 ≤ 4 * n * eps := by positivity
  rw [abs_le] at a b ⊢
  constructor <;> nlinarith [a.1, a.2, b.1, b.2]

/-- The smallest interesting case in single precision: two classes, temperature one. -/
example (B : Set (Fin 2 → ℝ)) (hB : MeasurableSet B) (am : (Fin 2 → ℝ) → Fin 2) (ham : ∀ (s : Fin 2 → ℝ) i, s i ≤ s (am s)) :
    |((cube 2).prod (cube 2)).real {w | discretizeRow am (relaxedCategorical 1.2e-7 1 ![1 / 4, 3 / 4] w.1) =
          (fun i => if i = 0 then 1 else 0) ∧
        conditionalRow am 1.2e-7 1 (discretizeRow am (relaxedCategorical 1.2e-7 1 ![1 / 4, 3 / 4] w.1)) ![1 / 4, 3 / 4] w.2 ∈ B} -
      (cube 2).real {u | discretizeRow am (relaxedCategorical 1.2e-7 1 ![1 / 4, 3 / 4] u) = (fun i => if i = 0 then 1 else 0) ∧
        relaxedCategorical 1.2e-7 1 ![1 / 4, 3 / 4] u ∈ B}| ≤ 8 * (2 : ℕ) * 1.2e-7 :=
  C75_resample (by norm_num) (by norm_num) one_pos (by intro i; fin_cases i <;> norm_num)
    (by intro i; fin_cases i <;> norm_num) (by rw [Fin.sum_univ_two]; norm_num) ham 0 hB

/-! ### Bernoulli -/

theorem relaxedBernoulli_gt {eps τ p u : ℝ} (h0 : 0 < eps) (h1 : eps < p) (h2 : p < 1 - eps) (hτ : 0 < τ) :
    1 / 2 < relaxedBernoulli eps τ p u ↔ 1 - p < u := by
  have hc : 1 - p < clampProbs eps u ↔ 1 - p < u := by
    rw [clampProbs, lt_min_iff, lt_max_iff]
    constructor
    · rintro ⟨h | h, -⟩
      · exact h
      · linarith
    · intro h; exact ⟨Or.inl h, by linarith⟩
  obtain ⟨v1, v2⟩ := clamp_mem h0 (by linarith) u
  simp only [relaxedBernoulli]
  rw [clamp_id h1.le h2.le, ← hc]
  set v := clampProbs eps u
  have e : Real.log v - log1p (-v) + Real.log p - log1p (-p) = Real.log (v * p) - Real.log ((1 - v) * (1 - p)) := by
    rw [log1p, log1p, Real.log_mul v1.ne' (by linarith), Real.log_mul (by linarith) (by linarith)]
    ring_nf
  have hs : ∀ x : ℝ, 1 / 2 < sigmoid x ↔ 0 < x := by
    intro x
    rw [sigmoid, div_lt_div_iff₀ (by norm_num) (by positivity)]
    have : Real.exp (-x) < 1 ↔ 0 < x := by rw [Real.exp_lt_one_iff, neg_lt_zero]
    rw [← this]
    constructor <;> intro h <;> linarith
  rw [hs, e, div_pos_iff_of_pos_right hτ, sub_pos, Real.log_lt_log_iff (mul_pos (by linarith) (by linarith))
    (mul_pos v1 (by linarith))]
  constructor <;> intro h <;> nlinarith

/-- C75 is false for Bernoulli distributions: with a probability of at most one third, the relaxed sample is discretized
to 1 with probability `p` and is then never below one half, while the conditional sample for the hard sample 1 always
is. -/
theorem C75_bernoulli_refuted {eps τ p : ℝ} (h0 : 0 < eps) (h1 : eps < p) (h2 : p ≤ 1 / 3) (hτ : 0 < τ) :
    unif {u | discretizeElt (relaxedBernoulli eps τ p u) = 1} = ENNReal.ofReal p ∧
    unif {u | discretizeElt (relaxedBernoulli eps τ p u) = 1 ∧ relaxedBernoulli eps τ p u ∈ Set.Iio (1 / 2)} = 0 ∧
    unif {v | conditionalBernoulli eps τ 1 p v ∈ Set.Iio (1 / 2)} = 1 := by
  have hd : ∀ u, discretizeElt (relaxedBernoulli eps τ p u) = 1 ↔ 1 - p < u := by
    intro u
    rw [← relaxedBernoulli_gt h0 h1 (by linarith) hτ, discretizeElt]
    split <;> simp_all
  refine ⟨?_, ?_, ?_⟩
  · simp only [hd]
    have hi : {u : ℝ | 1 - p < u} = Set.Ioi (1 - p) := rfl
    have hcap : Set.Ioi (1 - p) ∩ Set.Ioo (0 : ℝ) 1 = Set.Ioo (1 - p) 1 := by
      ext x
      simp only [Set.mem_inter_iff, Set.mem_Ioi, Set.mem_Ioo]
      constructor
      · rintro ⟨a, -, b⟩; exact ⟨a, b⟩
      · rintro ⟨a, b⟩; exact ⟨a, by linarith, b⟩
    rw [hi, unif, Measure.restrict_apply measurableSet_Ioi, hcap, Real.volume_Ioo]
    congr 1; ring
  · convert measure_empty (μ := unif)
    ext u
    simp only [Set.mem_ofPred_eq, Set.mem_Iio, Set.mem_empty_iff_false, iff_false, not_and, not_lt]
    intro h
    exact ((relaxedBernoulli_gt h0 h1 (by linarith) hτ).2 ((hd u).1 h)).le
  · have : {v | conditionalBernoulli eps τ 1 p v ∈ Set.Iio (1 / 2)} = Set.univ := by
      ext v
      simp only [Set.mem_ofPred_eq, Set.mem_Iio, Set.mem_univ, iff_true]
      exact C51_refuted h0 (by linarith) hτ h2 v
    rw [this, unif_univ]

/-- A probability of one quarter in single precision. -/
example : unif {u | discretizeElt (relaxedBernoulli 1.2e-7 (2 / 3) (1 / 4) u) = 1} = ENNReal.ofReal (1 / 4) ∧
    unif {u | discretizeElt (relaxedBernoulli 1.2e-7 (2 / 3) (1 / 4) u) = 1 ∧
      relaxedBernoulli 1.2e-7 (2 / 3) (1 / 4) u ∈ Set.Iio (1 / 2)} = 0 ∧
    unif {v | conditionalBernoulli 1.2e-7 (2 / 3) 1 (1 / 4) v ∈ Set.Iio (1 / 2)} = 1 :=
  C75_bernoulli_refuted (by norm_num) (by norm_num) (by norm_num) (by norm_num)

end Storch.Gumbel
