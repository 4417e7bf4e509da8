import Verif.Model.Gumbel
import Mathlib.Analysis.SpecialFunctions.Log.Basic
import Mathlib.Analysis.Complex.ExponentialBounds
import Mathlib.Algebra.BigOperators.Field
import Mathlib.Tactic.Linarith
import Mathlib.Tactic.NormNum

/-!
# C49, C50, C51: conditional Gumbel samples
-/

namespace Storch.Gumbel

/-! ### C49 -/

/-- C49: both branches of `log1mexp` compute the same function, the logarithm of `1 - exp(-|a|)` plus a small
constant. -/
theorem C49_log1mexp (a : ℝ) : log1mexp a = Real.log (1 - Real.exp (-|a|) + 1e-6) := by
  simp only [log1mexp, expm1, log1p]
  split <;> ring_nf

theorem arg_pos {z g : ℝ} : 0 < 1 - Real.exp (-|g - z|) + 1e-6 := by
  have : Real.exp (-|g - z|) ≤ 1 := Real.exp_le_one_iff.2 (by simp)
  have : (0 : ℝ) < 1e-6 := by norm_num
  linarith

theorem relu_softplus (v : ℝ) : relu v + softplus (-|v|) = Real.log (1 + Real.exp v) := by
  rcases le_total v 0 with h | h
  · rw [relu, softplus, max_eq_right h, abs_of_nonpos h, neg_neg, zero_add]
  · rw [relu, softplus, max_eq_left h, abs_of_nonneg h]
    have : 1 + Real.exp v = Real.exp v * (1 + Real.exp (-v)) := by
      rw [mul_add, mul_one, ← Real.exp_add, add_neg_cancel, Real.exp_zero, add_comm]
    rw [this, Real.log_mul (Real.exp_ne_zero _) (by positivity), Real.log_exp]

/-- The conditioned variable in closed form. -/
theorem exp_condElt (t z g : ℝ) :
    Real.exp (-condElt t z g) = Real.exp (-t) + Real.exp (-g) * (1 - Real.exp (-|g - z|) + 1e-6) := by
  have h : condElt t z g = t - Real.log (1 + Real.exp (t - g + log1mexp (g - z))) := by
    rw [← relu_softplus, condElt]; ring
  rw [h, neg_sub, Real.exp_sub, Real.exp_log (by positivity), Real.exp_add, C49_log1mexp, Real.exp_log arg_pos,
    Real.exp_neg t, Real.exp_neg g, Real.exp_sub]
  field_simp

theorem foldl_max (gs : List ℝ) (g : ℝ) :
    g ≤ gs.foldl max g ∧ (∀ x ∈ gs, x ≤ gs.foldl max g) ∧ (gs.foldl max g = g ∨ gs.foldl max g ∈ gs) := by
  induction gs generalizing g with
  | nil => simp
  | cons a gs ih =>
    obtain ⟨h1, h2, h3⟩ := ih (max g a)
    refine ⟨le_trans (le_max_left _ _) h1, ?_, ?_⟩
    · intro x hx
      rcases List.mem_cons.1 hx with rfl | hx
      · exact le_trans (le_max_right _ _) h1
      · exact h2 x hx
    · rcases h3 with h3 | h3
      · rw [List.foldl_cons, h3]
        rcases max_choice g a with h | h
        · exact Or.inl h
        · exact Or.inr (by rw [h]; simp)
      · exact Or.inr (List.mem_cons_of_mem _ h3)

theorem rowMax_spec {g : List ℝ} {z : ℝ} (h : rowMax g = .ok z) : z ∈ g ∧ ∀ x ∈ g, x ≤ z := by
  cases g with
  | nil => simp [rowMax] at h
  | cons a g =>
    simp only [rowMax, Except.ok.injEq] at h
    subst h
    obtain ⟨h1, h2, h3⟩ := foldl_max g a
    refine ⟨?_, ?_⟩
    · rcases h3 with h3 | h3
      · rw [h3]; simp
      · exact List.mem_cons_of_mem _ h3
    · intro x hx
      rcases List.mem_cons.1 hx with rfl | hx
      · exact h1
      · exact h2 x hx

/-- What `cond_gumbel_sample` computes: `exp(-r) = exp(-t) + (exp(-g) - exp(-z)) + 1e-6 * exp(-g)`, where `z` is
the largest Gumbel variable of the row. -/
theorem condGumbel_spec {logProbs noise : List ℝ} (hl : logProbs.length = noise.length) (hne : logProbs ≠ []) (t : ℝ) :
    ∃ r z, condGumbelSample logProbs noise t = .ok r ∧ r.length = logProbs.length ∧
      (∃ i, ∃ h : i < logProbs.length, logProbs[i] + noise[i] = z) ∧
      ∀ (i : Nat) (h : i < logProbs.length) (h' : i < r.length), logProbs[i] + noise[i] ≤ z ∧
        r[i] = condElt t z (logProbs[i] + noise[i]) := by
  set g := List.zipWith (fun a b => a + b) logProbs noise with hg
  have hlen : g.length = logProbs.length := by rw [hg, List.length_zipWith]; omega
  have hget : ∀ (i : Nat) (h : i < logProbs.length) (h' : i < g.length), g[i] = logProbs[i] + noise[i] := by
    intro i h h'
    simp [hg]
  obtain ⟨z, hz⟩ : ∃ z, rowMax g = .ok z := by
    cases hc : g with
    | nil => rw [hc] at hlen; exact absurd (List.length_eq_zero_iff.1 hlen.symm) hne
    | cons a g' => exact ⟨_, rfl⟩
  obtain ⟨z1, z2⟩ := rowMax_spec hz
  refine ⟨g.map (condElt t z), z, ?_, by simp [hlen], ?_, ?_⟩
  · rw [condGumbelSample, ← hg]
    simp only [hz]
  · obtain ⟨i, hi, e⟩ := List.getElem_of_mem z1
    exact ⟨i, by omega, by rw [← hget i (by omega) hi, e]⟩
  · intro i h h'
    have hi : i < g.length := by omega
    refine ⟨?_, ?_⟩
    · rw [← hget i h hi]; exact z2 _ (List.getElem_mem _)
    · rw [List.getElem_map, hget i h hi]

theorem abs_sub_max {g z : ℝ} (h : g ≤ z) : -|g - z| = g - z := by
  rw [abs_of_nonpos (by linarith)]; ring

theorem cond_exp {t z g : ℝ} (h : g ≤ z) :
    Real.exp (-condElt t z g) = Real.exp (-t) + (Real.exp (-g) - Real.exp (-z)) + 1e-6 * Real.exp (-g) := by
  rw [exp_condElt, abs_sub_max h]
  have : Real.exp (-g) * Real.exp (g - z) = Real.exp (-z) := by rw [← Real.exp_add]; ring_nf
  linear_combination -this

/-- C49: the values stay (strictly) below the maximum they are conditioned on. -/
theorem C49_below {logProbs noise : List ℝ} (hl : logProbs.length = noise.length) (hne : logProbs ≠ []) (t : ℝ) :
    ∃ r, condGumbelSample logProbs noise t = .ok r ∧ r.length = logProbs.length ∧ ∀ x ∈ r, x < t := by
  obtain ⟨r, z, h1, h2, -, h4⟩ := condGumbel_spec hl hne t
  refine ⟨r, h1, h2, fun x hx => ?_⟩
  obtain ⟨i, hi, rfl⟩ := List.getElem_of_mem hx
  obtain ⟨h5, h6⟩ := h4 i (h2 ▸ hi) hi
  rw [h6]
  have h7 := cond_exp (t := t) h5
  have h8 : Real.exp (-z) ≤ Real.exp (-(logProbs[i] + noise[i])) := Real.exp_le_exp.2 (by linarith)
  have h9 : (0 : ℝ) < 1e-6 * Real.exp (-(logProbs[i] + noise[i])) := by positivity
  have : Real.exp (-t) < Real.exp (-condElt t z (logProbs[i] + noise[i])) := by rw [h7]; linarith
  have := Real.exp_lt_exp.1 this
  linarith

/-- C49: the values are in the order of the unconditioned Gumbel variables. -/
theorem C49_order {logProbs noise : List ℝ} (hl : logProbs.length = noise.length) (hne : logProbs ≠ []) (t : ℝ) :
    ∃ r, condGumbelSample logProbs noise t = .ok r ∧ r.length = logProbs.length ∧
      ∀ (i j : Nat) (hi : i < logProbs.length) (hj : j < logProbs.length) (hi' : i < r.length) (hj' : j < r.length),
        r[i] < r[j] ↔ logProbs[i] + noise[i] < logProbs[j] + noise[j] := by
  obtain ⟨r, z, h1, h2, -, h4⟩ := condGumbel_spec hl hne t
  refine ⟨r, h1, h2, fun i j hi hj hi' hj' => ?_⟩
  obtain ⟨h5, h6⟩ := h4 i hi hi'
  obtain ⟨h7, h8⟩ := h4 j hj hj'
  rw [h6, h8, ← neg_lt_neg_iff, ← Real.exp_lt_exp, cond_exp h5, cond_exp h7]
  have : ∀ a b : ℝ, a < b ↔ Real.exp (-b) < Real.exp (-a) := fun a b => by
    rw [Real.exp_lt_exp, neg_lt_neg_iff]
  rw [this (logProbs[i] + noise[i])]
  constructor <;> intro h <;> linarith

/-- C49: the largest value is the one they are conditioned on, up to the constant `1e-6` in `log1mexp`. -/
theorem C49_max {logProbs noise : List ℝ} (hl : logProbs.length = noise.length) (hne : logProbs ≠ []) (t : ℝ) :
    ∃ r, condGumbelSample logProbs noise t = .ok r ∧ ∃ z, (∃ i, ∃ h : i < logProbs.length, logProbs[i] + noise[i] = z) ∧
      ∃ m ∈ r, (∀ x ∈ r, x ≤ m) ∧ Real.exp (-m) = Real.exp (-t) + 1e-6 * Real.exp (-z) := by
  obtain ⟨r, z, h1, h2, ⟨k, hk, hkz⟩, h4⟩ := condGumbel_spec hl hne t
  refine ⟨r, h1, z, ⟨k, hk, hkz⟩, r[k]'(by omega), List.getElem_mem _, ?_, ?_⟩
  · intro x hx
    obtain ⟨i, hi, rfl⟩ := List.getElem_of_mem hx
    obtain ⟨h5, h6⟩ := h4 i (h2 ▸ hi) hi
    obtain ⟨h7, h8⟩ := h4 k hk (by omega)
    rw [h6, h8, ← neg_le_neg_iff, ← Real.exp_le_exp, cond_exp h5, cond_exp h7, hkz]
    have : Real.exp (-z) ≤ Real.exp (-(logProbs[i] + noise[i])) := Real.exp_le_exp.2 (by linarith)
    linarith
  · obtain ⟨h7, h8⟩ := h4 k hk (by omega)
    rw [h8, cond_exp h7, hkz]; ring

/-- A case for `C49_max`: the largest of the perturbed values is that of the second entry, 1. -/
example : ∃ r, condGumbelSample [-1, -2, -3] [0, 3, 1/2] 4 = .ok r ∧ ∃ m ∈ r, (∀ x ∈ r, x ≤ m) ∧
    ∃ z, Real.exp (-m) = Real.exp (-4) + 1e-6 * Real.exp (-z) := by
  obtain ⟨r, h1, z, -, m, h2, h3, h4⟩ := C49_max (logProbs := [-1, -2, -3]) (noise := [0, 3, 1/2]) rfl (by simp) 4
  exact ⟨r, h1, m, h2, h3, z, h4⟩

/-- A row of three. -/
example : ∃ r, condGumbelSample [-1, -2, -3] [0, 3, 1/2] 4 = .ok r ∧ r.length = 3 ∧ ∀ x ∈ r, x < 4 :=
  C49_below (logProbs := [-1, -2, -3]) (noise := [0, 3, 1/2]) rfl (by simp) 4

/-! ### C50 -/

theorem clamp_mem {eps : ℝ} (h0 : 0 < eps) (h1 : eps < 1 / 2) (p : ℝ) : 0 < clampProbs eps p ∧ clampProbs eps p < 1 := by
  rw [clampProbs]
  refine ⟨lt_min (lt_of_lt_of_le h0 (le_max_right _ _)) (by linarith), lt_of_le_of_lt (min_le_right _ _) (by linarith)⟩

/-- C50: for a one-hot hard sample with its one at `c`, the entry `c` of the conditional sample is larger than
all others, for any probabilities, noise and positive temperature.  `b` is what `hard_sample.max(-1).indices`
returns: an index of the largest entry. -/
theorem C50_argmax {n : Nat} {eps temperature : ℝ} (h0 : 0 < eps) (h1 : eps < 1 / 2) (ht : 0 < temperature)
    (hard : Fin n → ℝ) (c : Fin n) (hb : ∀ i, hard i = if i = c then 1 else 0) (b : Fin n)
    (hmax : ∀ i, hard i ≤ hard b) (prob u : Fin n → ℝ) (i : Fin n) (hi : i ≠ c) :
    conditionalCategorical eps temperature hard b prob u i < conditionalCategorical eps temperature hard b prob u c := by
  obtain rfl : b = c := by
    by_contra hne
    have := hmax c
    rw [hb c, hb b, if_neg hne, if_pos rfl] at this
    linarith
  rw [conditionalCategorical, normaliseScores, normaliseScores, Real.exp_lt_exp, sub_lt_sub_iff_right,
    conditionalScores, conditionalScores]
  simp only [hb, if_neg hi, if_true, ne_eq, not_true, if_false, one_ne_zero, not_false_iff]
  rw [div_lt_div_iff_of_pos_right ht, neg_lt_neg_iff]
  obtain ⟨v1, v2⟩ := clamp_mem h0 h1 (u b)
  obtain ⟨w1, w2⟩ := clamp_mem h0 h1 (u i)
  obtain ⟨p1, -⟩ := clamp_mem h0 h1 (prob i)
  have l1 := Real.log_neg v1 v2
  have l2 := div_neg_of_neg_of_pos (Real.log_neg w1 w2) p1
  exact Real.log_lt_log (by linarith) (by linarith)

/-- C50: the conditional sample is a probability vector. -/
theorem C50_normalised {n : Nat} (eps temperature : ℝ) (hard : Fin n → ℝ) (b : Fin n) (prob u : Fin n → ℝ) :
    (∀ i, 0 < conditionalCategorical eps temperature hard b prob u i) ∧
      ∑ i, conditionalCategorical eps temperature hard b prob u i = 1 := by
  refine ⟨fun i => Real.exp_pos _, ?_⟩
  simp only [conditionalCategorical, normaliseScores, Real.exp_sub]
  have hpos : 0 < ∑ j, Real.exp (conditionalScores eps temperature hard b prob u j) :=
    Finset.sum_pos (fun _ _ => Real.exp_pos _) ⟨b, Finset.mem_univ b⟩
  rw [Real.exp_log hpos, ← Finset.sum_div, div_self hpos.ne']

/-- A case for `C50_normalised`: three classes. -/
example (u : Fin 3 → ℝ) : ∑ i, conditionalCategorical (1 / 1000) 2 ![0, 1, 0] 1 ![1 / 2, 1 / 100, 49 / 100] u i = 1 :=
  (C50_normalised _ _ _ _ _ _).2

/-- Three classes, the hard sample is the second one although its probability is small. -/
example (u : Fin 3 → ℝ) : conditionalCategorical (1 / 1000) 2 ![0, 1, 0] 1 ![1 / 2, 1 / 100, 49 / 100] u 0 <
    conditionalCategorical (1 / 1000) 2 ![0, 1, 0] 1 ![1 / 2, 1 / 100, 49 / 100] u 1 :=
  C50_argmax (by norm_num) (by norm_num) (by norm_num) _ _ (by intro i; fin_cases i <;> simp) _
    (by intro i; fin_cases i <;> simp) _ _ _ (by decide)

/-! ### C51 -/

theorem sigmoid_lt_half {x : ℝ} : sigmoid x < 1 / 2 ↔ x < 0 := by
  rw [sigmoid, div_lt_div_iff₀ (by positivity) (by norm_num)]
  have : Real.exp (-x) > 1 ↔ x < 0 := by rw [gt_iff_lt, Real.one_lt_exp_iff]; exact neg_pos
  rw [← this]
  constructor <;> intro h <;> linarith

theorem log_sum {p v : ℝ} (hp : 0 < p) (hv : 0 < v) :
    Real.log p + log1p p + Real.log v + log1p v = Real.log (p * (1 + p) * v * (1 + v)) := by
  rw [Real.log_mul (by positivity) (by positivity), Real.log_mul (by positivity) (by positivity),
    Real.log_mul (by positivity) (by positivity), log1p, log1p]

/-- C51, what holds: a hard sample 0 gives a relaxed sample below one half.  Missing: hard sample 1, for which
it is false (`C51_refuted`). -/
theorem C51_zero_partial {eps temperature : ℝ} (h0 : 0 < eps) (h1 : eps < 1 / 2) (ht : 0 < temperature) (prob u : ℝ) :
    conditionalBernoulli eps temperature 0 prob u < 1 / 2 := by
  obtain ⟨p1, p2⟩ := clamp_mem h0 h1 prob
  obtain ⟨v1, v2⟩ := clamp_mem h0 h1 u
  simp only [conditionalBernoulli, zero_ne_one, if_false, if_true]
  set p := clampProbs eps prob
  set v := clampProbs eps u
  have hv : 0 < v * (1 - p) := mul_pos v1 (by linarith)
  have hv' : v * (1 - p) < 1 - p := by nlinarith
  rw [sigmoid_lt_half, log_sum p1 hv]
  apply div_neg_of_neg_of_pos _ ht
  apply Real.log_neg (by positivity)
  have a1 : p * (1 + p) * (v * (1 - p)) < p * (1 + p) * (1 - p) := mul_lt_mul_of_pos_left hv' (by positivity)
  have a2 : p * (1 + p) * (v * (1 - p)) * (1 + v * (1 - p)) < p * (1 + p) * (1 - p) * (2 - p) :=
    mul_lt_mul'' a1 (by linarith) (by positivity) (by positivity)
  nlinarith [sq_nonneg (p * (1 - p)), mul_pos p1 (sub_pos.2 p2), sq_nonneg (p - 1 / 2)]

/-- C51 is false: for every probability up to one third, the conditional sample for the hard sample 1 is below
one half whatever the noise, so it rounds to 0. -/
theorem C51_refuted {eps temperature : ℝ} (h0 : 0 < eps) (h1 : eps < 1 / 3) (ht : 0 < temperature) {prob : ℝ}
    (hp : prob ≤ 1 / 3) (u : ℝ) : conditionalBernoulli eps temperature 1 prob u < 1 / 2 := by
  obtain ⟨p1, p2⟩ := clamp_mem h0 (by linarith) prob
  obtain ⟨v1, v2⟩ := clamp_mem h0 (by linarith) u
  have p3 : clampProbs eps prob ≤ 1 / 3 := le_trans (min_le_left _ _) (max_le hp h1.le)
  simp only [conditionalBernoulli, if_true]
  set p := clampProbs eps prob
  set v := clampProbs eps u
  have hv : 0 < v * p + (1 - p) := add_pos (mul_pos v1 p1) (by linarith)
  have hv' : v * p + (1 - p) < 1 := by nlinarith
  rw [sigmoid_lt_half, log_sum p1 hv]
  apply div_neg_of_neg_of_pos _ ht
  apply Real.log_neg (by positivity)
  set w := v * p + (1 - p)
  have a0 : p * (1 + p) < 1 / 2 := by nlinarith
  have a1 : w * (1 + w) < 2 := by nlinarith
  have a2 : p * (1 + p) * (w * (1 + w)) < 1 / 2 * 2 := mul_lt_mul'' a0 a1 (by positivity) (by positivity)
  nlinarith

/-- `C51_refuted` applies to a fair-sized probability and machine precision. -/
example (u : ℝ) : conditionalBernoulli 1.2e-7 (2 / 3) 1 (1 / 4) u < 1 / 2 :=
  C51_refuted (by norm_num) (by norm_num) (by norm_num) (by norm_num) u

end Storch.Gumbel
