import Mathlib.Analysis.Convex.SpecificFunctions.Basic
import Mathlib.Analysis.SpecialFunctions.Pow.Continuity
import Mathlib.Topology.Order.IntermediateValue
import Mathlib.Algebra.BigOperators.Fin
import Mathlib.Algebra.BigOperators.Field

/-!
# The α-entmax of a vector

The vector of probabilities that maximises the expected score plus the Tsallis entropy, and its form with a threshold.
-/

namespace Storch
namespace Entmax

variable {d : Nat}

/-- A vector of probabilities. -/
def Simplex (p : Fin d → ℝ) : Prop := (∀ i, 0 ≤ p i) ∧ ∑ i, p i = 1

/-- The expected score plus the Tsallis entropy. -/
noncomputable def objective (a : ℝ) (x p : Fin d → ℝ) : ℝ :=
  ∑ i, p i * x i + 1 / (a * (a - 1)) * ∑ i, (p i - p i ^ a)

/-- The documentation of the functions of the package `entmax`: `p` maximises the objective among the vectors of
probabilities. -/
def IsEntmax (a : ℝ) (x p : Fin d → ℝ) : Prop :=
  Simplex p ∧ ∀ q, Simplex q → objective a x q ≤ objective a x p

/-- The entries above a threshold. -/
noncomputable def above (a : ℝ) (x : Fin d → ℝ) (τ : ℝ) (i : Fin d) : ℝ := max ((a - 1) * x i - τ) 0 ^ (1 / (a - 1))

theorem above_nonneg {a : ℝ} {x : Fin d → ℝ} {τ : ℝ} (i : Fin d) : 0 ≤ above a x τ i :=
  Real.rpow_nonneg (le_max_right _ _) _

theorem above_pow {a : ℝ} (ha : 1 < a) {x : Fin d → ℝ} {τ : ℝ} (i : Fin d) :
    above a x τ i ^ (a - 1) = max ((a - 1) * x i - τ) 0 := by
  have : a - 1 ≠ 0 := by linarith
  rw [above, ← Real.rpow_mul (le_max_right _ _), one_div, inv_mul_cancel₀ this, Real.rpow_one]

/-- Some threshold gives a vector of probabilities. -/
theorem exists_threshold {a : ℝ} (ha : 1 < a) (hd : 0 < d) (x : Fin d → ℝ) : ∃ τ, Simplex (above a x τ) := by
  have ha' : 0 < a - 1 := by linarith
  have hr : 0 < 1 / (a - 1) := by positivity
  have hcont : Continuous (fun τ => ∑ i, above a x τ i) := by
    refine continuous_finsetSum _ (fun i _ => ?_)
    exact ((continuous_const.sub continuous_id).max continuous_const).rpow_const (fun _ => Or.inr hr.le)
  obtain ⟨j, -, hj⟩ := Finset.exists_max_image Finset.univ x ⟨⟨0, hd⟩, Finset.mem_univ _⟩
  have hhi : ∑ i, above a x ((a - 1) * x j) i = 0 := by
    refine Finset.sum_eq_zero (fun i _ => ?_)
    have : (a - 1) * x i - (a - 1) * x j ≤ 0 := by
      have := mul_le_mul_of_nonneg_left (hj i (Finset.mem_univ _)) ha'.le
      linarith
    rw [above, max_eq_right this, Real.zero_rpow hr.ne']
  have hlo : 1 ≤ ∑ i, above a x ((a - 1) * x j - 1) i := by
    have h1 : above a x ((a - 1) * x j - 1) j = 1 := by
      rw [above, sub_sub_cancel, max_eq_left zero_le_one, Real.one_rpow]
    exact h1.ge.trans (Finset.single_le_sum (f := above a x ((a - 1) * x j - 1)) (fun i _ => above_nonneg i) (Finset.mem_univ j))
  have himg := intermediate_value_Icc' (show (a - 1) * x j - 1 ≤ (a - 1) * x j by linarith) hcont.continuousOn
  obtain ⟨τ, -, hτ⟩ := himg (show (1 : ℝ) ∈ _ from ⟨by rw [hhi]; exact zero_le_one, hlo⟩)
  exact ⟨τ, fun i => above_nonneg i, hτ⟩

/-- The tangent of a power lies below it. -/
theorem tangent {a : ℝ} (ha : 1 < a) {p q : ℝ} (hp : 0 ≤ p) (hq : 0 ≤ q) (hne : q ≠ p) :
    p ^ a + a * p ^ (a - 1) * (q - p) < q ^ a := by
  rcases hp.eq_or_lt with rfl | hp
  · rw [Real.zero_rpow (by linarith), Real.zero_rpow (by linarith), mul_zero, zero_mul, add_zero]
    exact Real.rpow_pos_of_pos (lt_of_le_of_ne hq (Ne.symm hne)) a
  · have hs : -1 ≤ q / p - 1 := by have := div_nonneg hq hp.le; linarith
    have hs' : q / p - 1 ≠ 0 := by
      intro h
      apply hne
      have : q / p = 1 := by linarith
      rwa [div_eq_one_iff_eq hp.ne'] at this
    have h := one_add_mul_self_lt_rpow_one_add hs hs' ha
    rw [add_sub_cancel, Real.div_rpow hq hp.le, lt_div_iff₀ (Real.rpow_pos_of_pos hp a)] at h
    have e : p ^ a = p ^ (a - 1) * p := by
      rw [← Real.rpow_add_one hp.ne', sub_add_cancel]
    refine lt_of_eq_of_lt ?_ h
    rw [e]
    field_simp

/-- The objective is smaller everywhere else. -/
theorem objective_lt {a : ℝ} (ha : 1 < a) {x : Fin d → ℝ} {τ : ℝ} (hp : Simplex (above a x τ)) {q : Fin d → ℝ}
    (hq : Simplex q) (hne : q ≠ above a x τ) : objective a x q < objective a x (above a x τ) := by
  set p := above a x τ with hpd
  have ha' : 0 < a - 1 := by linarith
  have ha0 : 0 < a := by linarith
  have hle : ∀ i, q i * x i - q i ^ a / (a * (a - 1)) - (p i * x i - p i ^ a / (a * (a - 1))) ≤
      τ / (a - 1) * (q i - p i) ∧
      (q i ≠ p i → q i * x i - q i ^ a / (a * (a - 1)) - (p i * x i - p i ^ a / (a * (a - 1))) <
      τ / (a - 1) * (q i - p i)) := by
    intro i
    by_cases hqp : q i = p i
    · rw [hqp]; simp
    · have h := tangent ha (hp.1 i) (hq.1 i) hqp
      have hpow : p i ^ (a - 1) = max ((a - 1) * x i - τ) 0 := above_pow ha i
      have h2 : (x i - p i ^ (a - 1) / (a - 1)) * (q i - p i) ≤ τ / (a - 1) * (q i - p i) := by
        by_cases hc : 0 ≤ (a - 1) * x i - τ
        · rw [hpow, max_eq_left hc]
          refine le_of_eq ?_
          field_simp
          ring
        · have hc := not_le.1 hc
          have hp0 : p i = 0 := by
            rw [hpd, above, max_eq_right hc.le, Real.zero_rpow (by positivity)]
          rw [hpow, max_eq_right hc.le, zero_div, sub_zero, hp0, sub_zero]
          refine mul_le_mul_of_nonneg_right ?_ (hq.1 i)
          rw [le_div_iff₀ ha']
          linarith
      have h3 : (p i ^ a + a * p i ^ (a - 1) * (q i - p i)) / (a * (a - 1)) < q i ^ a / (a * (a - 1)) :=
        div_lt_div_of_pos_right h (by positivity)
      have h4 : (p i ^ a + a * p i ^ (a - 1) * (q i - p i)) / (a * (a - 1)) =
          p i ^ a / (a * (a - 1)) + p i ^ (a - 1) / (a - 1) * (q i - p i) := by
        field_simp
      have h5 : q i * x i - q i ^ a / (a * (a - 1)) - (p i * x i - p i ^ a / (a * (a - 1))) <
          τ / (a - 1) * (q i - p i) := by
        rw [h4] at h3
        nlinarith
      exact ⟨h5.le, fun _ => h5⟩
  obtain ⟨j, hj⟩ : ∃ j, q j ≠ p j := by
    by_contra h
    push Not at h
    exact hne (funext h)
  have hsum : ∑ i, (q i * x i - q i ^ a / (a * (a - 1)) - (p i * x i - p i ^ a / (a * (a - 1)))) <
      ∑ i, τ / (a - 1) * (q i - p i) :=
    Finset.sum_lt_sum (fun i _ => (hle i).1) ⟨j, Finset.mem_univ j, (hle j).2 hj⟩
  have hz : ∑ i, τ / (a - 1) * (q i - p i) = 0 := by
    rw [← Finset.mul_sum, Finset.sum_sub_distrib, hp.2, hq.2, sub_self, mul_zero]
  rw [hz] at hsum
  have e : ∀ v : Fin d → ℝ, Simplex v → objective a x v =
      ∑ i, (v i * x i - v i ^ a / (a * (a - 1))) + 1 / (a * (a - 1)) := by
    intro v hv
    rw [objective, Finset.sum_sub_distrib, Finset.sum_sub_distrib, hv.2, ← Finset.sum_div]
    ring
  rw [Finset.sum_sub_distrib] at hsum
  rw [e q hq, e p hp]
  linarith

/-- The entmax is the vector with a threshold. -/
theorem IsEntmax.eq_above {a : ℝ} (ha : 1 < a) {x p : Fin d → ℝ} (h : IsEntmax a x p) {τ : ℝ}
    (hτ : Simplex (above a x τ)) : p = above a x τ := by
  by_contra hne
  exact absurd (h.2 _ hτ) (not_le.2 (objective_lt ha hτ h.1 hne))

theorem pos_of_simplex {p : Fin d → ℝ} (h : Simplex p) : 0 < d := by
  rcases Nat.eq_zero_or_pos d with rfl | hd
  · have := h.2; simp at this
  · exact hd

theorem IsEntmax.threshold {a : ℝ} (ha : 1 < a) {x p : Fin d → ℝ} (h : IsEntmax a x p) :
    ∃ τ, Simplex (above a x τ) ∧ p = above a x τ := by
  obtain ⟨τ, hτ⟩ := exists_threshold ha (pos_of_simplex h.1) x
  exact ⟨τ, hτ, h.eq_above ha hτ⟩

/-- Every vector has exactly one entmax. -/
theorem existsUnique_entmax {a : ℝ} (ha : 1 < a) (hd : 0 < d) (x : Fin d → ℝ) : ∃! p, IsEntmax a x p := by
  obtain ⟨τ, hτ⟩ := exists_threshold ha hd x
  refine ⟨above a x τ, ⟨hτ, fun q hq => ?_⟩, fun p hp => hp.eq_above ha hτ⟩
  by_cases hne : q = above a x τ
  · rw [hne]
  · exact (objective_lt ha hτ hq hne).le

/-- Larger scores have larger probabilities, unless they have probability zero. -/
theorem IsEntmax.lt {a : ℝ} (ha : 1 < a) {x p : Fin d → ℝ} (h : IsEntmax a x p) {i j : Fin d} (hx : x i < x j)
    (hj : p j ≠ 0) : p i < p j := by
  obtain ⟨τ, hτ, rfl⟩ := h.threshold ha
  have ha' : 0 < a - 1 := by linarith
  have hpos : 0 < (a - 1) * x j - τ := by
    by_contra hc
    apply hj
    rw [above, max_eq_right (not_lt.1 hc), Real.zero_rpow (by positivity)]
  have hm := mul_lt_mul_of_pos_left hx ha'
  rw [above, above, max_eq_left hpos.le]
  exact Real.rpow_lt_rpow (le_max_right _ _) (max_lt (by linarith) hpos) (by positivity)

theorem IsEntmax.le {a : ℝ} (ha : 1 < a) {x p : Fin d → ℝ} (h : IsEntmax a x p) {i j : Fin d} (hx : x i ≤ x j) :
    p i ≤ p j := by
  obtain ⟨τ, hτ, rfl⟩ := h.threshold ha
  have ha' : 0 < a - 1 := by linarith
  have hm := mul_le_mul_of_nonneg_left hx ha'.le
  rw [above, above]
  exact Real.rpow_le_rpow (le_max_right _ _) (max_le_max (by linarith) le_rfl) (by positivity)

/-- Some outcome has a positive probability. -/
theorem Simplex.exists_pos {p : Fin d → ℝ} (h : Simplex p) : ∃ i, 0 < p i := by
  by_contra hc
  push Not at hc
  have : ∑ i, p i ≤ 0 := Finset.sum_nonpos (fun i _ => hc i)
  rw [h.2] at this
  linarith

/-- The largest score has the largest probability, which is positive. -/
theorem IsEntmax.max_pos {a : ℝ} (ha : 1 < a) {x p : Fin d → ℝ} (h : IsEntmax a x p) {j : Fin d}
    (hj : ∀ i, x i ≤ x j) : 0 < p j := by
  obtain ⟨i, hi⟩ := h.1.exists_pos
  exact lt_of_lt_of_le hi (h.le ha (hj i))

/-- A score that is larger than the others by `1 / (a - 1)` gets all the probability, and only then. -/
theorem IsEntmax.oneHot_iff {a : ℝ} (ha : 1 < a) {x p : Fin d → ℝ} (h : IsEntmax a x p) (j : Fin d) :
    (p = fun i => if i = j then 1 else 0) ↔ ∀ i, i ≠ j → x i + 1 / (a - 1) ≤ x j := by
  have ha' : 0 < a - 1 := by linarith
  have hr : (0 : ℝ) < 1 / (a - 1) := by positivity
  constructor
  · intro hp i hi
    obtain ⟨τ, hτ, rfl⟩ := h.threshold ha
    have e1 := congrArg (fun f => f j ^ (a - 1)) hp
    have e2 := congrArg (fun f => f i ^ (a - 1)) hp
    simp only [above_pow ha, if_true, Real.one_rpow, if_neg hi, Real.zero_rpow ha'.ne'] at e1 e2
    have h1 : (a - 1) * x j - τ = 1 := by
      rcases max_choice ((a - 1) * x j - τ) 0 with h | h
      · rw [← h, e1]
      · rw [h] at e1; exact absurd e1 zero_ne_one
    have h2 : (a - 1) * x i - τ ≤ 0 := by rw [← e2]; exact le_max_left _ _
    have h3 : (a - 1) * (x i + 1 / (a - 1)) ≤ (a - 1) * x j := by
      rw [mul_add, mul_one_div_cancel ha'.ne']
      linarith
    exact le_of_mul_le_mul_left h3 ha'
  · intro hx
    have he : above a x ((a - 1) * x j - 1) = fun i => if i = j then 1 else 0 := by
      funext i
      by_cases hi : i = j
      · rw [if_pos hi, hi, above, sub_sub_cancel, max_eq_left zero_le_one, Real.one_rpow]
      · rw [if_neg hi, above, max_eq_right, Real.zero_rpow hr.ne']
        have h3 := mul_le_mul_of_nonneg_left (hx i hi) ha'.le
        rw [mul_add, mul_one_div_cancel ha'.ne'] at h3
        linarith
    have hs : Simplex (above a x ((a - 1) * x j - 1)) := by
      rw [he]
      refine ⟨fun i => ?_, by simp⟩
      dsimp only
      split
      · exact zero_le_one
      · exact le_rfl
    rw [h.eq_above ha hs, he]

end Entmax
end Storch
