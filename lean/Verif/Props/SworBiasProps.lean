import Verif.Props.SworWeightProps
import Verif.Props.GumbelProps
import Mathlib.Analysis.SpecialFunctions.Integrals.Basic
import Mathlib.Analysis.Complex.ExponentialBounds
import Mathlib.MeasureTheory.Integral.IntervalIntegral.Basic

/-!
# The estimate of sampling without replacement is biased (C60)

The first variable is drawn with `perturbed_log_probs = 0.0` (swor.py:65-66): its Gumbel variables are conditioned on their
maximum being zero.  The importance weights however are those of Gumbel variables that are not conditioned.
-/

namespace Storch.Decode

open MeasureTheory Storch.Gumbel

/-- A fair coin. -/
noncomputable def coinR : Var ℝ := ⟨2, [], false, fun _ _ _ => -Real.log 2⟩

/-- `Gumbel(0, 1).rsample()` as a function of the uniform random number that torch draws. -/
noncomputable def gumbelOf (u : ℝ) : ℝ := -Real.log (-Real.log u)

/-- `e` is the weighted sum of the cost `f` over the samples of a fair coin drawn without replacement, two samples, where
`u` and `v` are the uniform random numbers used.  The Gumbel variables of the first variable are conditioned on zero
(swor.py:65-66, 90); `plate.weight` is used as the weight of the samples (`storch.reduce_plates`, modelled in
`Verif.Model.Reduce`). -/
def Estimate (f : List Nat → ℝ) (u v e : ℝ) : Prop :=
  ∃ r s w, condGumbelSample [-Real.log 2, -Real.log 2] [gumbelOf u, gumbelOf v] 0 = .ok r ∧
    runSwor 2 none sortTop [(coinR, fun _ _ t => ((r.getD t 0 : ℝ) : WithBot ℝ))] blank = .ok s ∧
    weightSwor false s = .ok (some w) ∧ e = (List.zipWith (fun x c => x * f c) w s.sequences).sum

theorem sortTop_two (a b : ℝ) (j : List ℝ) : sortTop 2 [(a : WithBot ℝ), (b : WithBot ℝ)] j = if b ≤ a then [0, 1] else [1, 0] := by
  unfold sortTop
  by_cases h : b ≤ a
  · simp [List.range_succ, List.insertionSort, h]
  · simp [List.range_succ, List.insertionSort, List.orderedInsert, h]

theorem two_run (a b : ℝ) (n : Nat → Nat → Nat → WithBot ℝ) (h0 : n 0 0 0 = (a : WithBot ℝ)) (h1 : n 0 0 1 = (b : WithBot ℝ)) :
    ∃ s, runSwor 2 none sortTop [(coinR, n)] blank = .ok s ∧
      s.sequences = (if b ≤ a then [[0], [1]] else [[1], [0]]) ∧
      s.plates = [⟨2, 0, [-Real.log 2, -Real.log 2], [((max a b : ℝ) : WithBot ℝ), ((min a b : ℝ) : WithBot ℝ)], none⟩] := by
  by_cases h : b ≤ a
  · have hs : ∀ j, sortTop 2 [(a : WithBot ℝ), (b : WithBot ℝ)] j = [0, 1] := fun j => by rw [sortTop_two, if_pos h]
    refine ⟨⟨some [-Real.log 2, -Real.log 2], none, 1,
      [⟨2, 0, [-Real.log 2, -Real.log 2], [((max a b : ℝ) : WithBot ℝ), ((min a b : ℝ) : WithBot ℝ)], none⟩], none,
      [[[0], [1]]], some [((max a b : ℝ) : WithBot ℝ), ((min a b : ℝ) : WithBot ℝ)], []⟩, ?_, ?_, rfl⟩
    · rw [max_eq_left h, min_eq_right h]
      simp [runSwor, sampleSwor, decode, decodeLoop, decodeStep, coinR, Var.dist, blank, startBeam, Dist.cells, Ten.numel,
        allJoint, applyFinished, List.range_succ, hs, gatherL, setCells, finishedOf, createPlateSwor, createPlate,
        St.parentOk, sizeBad, reindexSeq, h0, h1]
    · rw [if_pos h]; rfl
  · have hs : ∀ j, sortTop 2 [(a : WithBot ℝ), (b : WithBot ℝ)] j = [1, 0] := fun j => by rw [sortTop_two, if_neg h]
    have h' := le_of_not_ge h
    refine ⟨⟨some [-Real.log 2, -Real.log 2], none, 1,
      [⟨2, 0, [-Real.log 2, -Real.log 2], [((max a b : ℝ) : WithBot ℝ), ((min a b : ℝ) : WithBot ℝ)], none⟩], none,
      [[[1], [0]]], some [((max a b : ℝ) : WithBot ℝ), ((min a b : ℝ) : WithBot ℝ)], []⟩, ?_, ?_, rfl⟩
    · rw [max_eq_right h', min_eq_left h']
      simp [runSwor, sampleSwor, decode, decodeLoop, decodeStep, coinR, Var.dist, blank, startBeam, Dist.cells, Ten.numel,
        allJoint, applyFinished, List.range_succ, hs, gatherL, setCells, finishedOf, createPlateSwor, createPlate,
        St.parentOk, sizeBad, reindexSeq, h0, h1]
    · rw [if_neg h]; rfl

/-- The smallest perturbed log-probability of the two. -/
noncomputable def kappa (u v : ℝ) : ℝ :=
  let g := -Real.log 2 + gumbelOf u
  let h := -Real.log 2 + gumbelOf v
  min (condElt 0 (max g h) g) (condElt 0 (max g h) h)

/-- The estimate exists, and this is its value for the cost 1. -/
theorem estimate_iff (u v e : ℝ) : Estimate (fun _ => 1) u v e ↔
    e = 1 / 2 / (1 - Real.exp (-(1 / 2 * Real.exp (-kappa u v))) + 1e-8) := by
  have hexp : Real.exp (-Real.log 2) = 1 / 2 := by rw [Real.exp_neg, Real.exp_log (by norm_num)]; norm_num
  have key : ∃ r s, condGumbelSample [-Real.log 2, -Real.log 2] [gumbelOf u, gumbelOf v] 0 = .ok r ∧
      runSwor 2 none sortTop [(coinR, fun _ _ t => ((r.getD t 0 : ℝ) : WithBot ℝ))] blank = .ok s ∧
      weightSwor false s = .ok (some [1 / 2 / (1 - Real.exp (-(1 / 2 * Real.exp (-kappa u v))) + 1e-8), 0]) ∧
      s.sequences.length = 2 := by
    refine ⟨[condElt 0 (max (-Real.log 2 + gumbelOf u) (-Real.log 2 + gumbelOf v)) (-Real.log 2 + gumbelOf u),
      condElt 0 (max (-Real.log 2 + gumbelOf u) (-Real.log 2 + gumbelOf v)) (-Real.log 2 + gumbelOf v)], ?_⟩
    simp only [condGumbelSample, List.zipWith_cons_cons, List.zipWith_nil_right, rowMax, List.foldl_cons, List.foldl_nil,
      List.map_cons, List.map_nil]
    obtain ⟨s, h1, h2, h3⟩ := two_run (condElt 0 (max (-Real.log 2 + gumbelOf u) (-Real.log 2 + gumbelOf v)) (-Real.log 2 + gumbelOf u))
      (condElt 0 (max (-Real.log 2 + gumbelOf u) (-Real.log 2 + gumbelOf v)) (-Real.log 2 + gumbelOf v))
      (fun _ _ t => ((([condElt 0 (max (-Real.log 2 + gumbelOf u) (-Real.log 2 + gumbelOf v)) (-Real.log 2 + gumbelOf u),
        condElt 0 (max (-Real.log 2 + gumbelOf u) (-Real.log 2 + gumbelOf v)) (-Real.log 2 + gumbelOf v)] : List ℝ).getD t 0 : ℝ) :
          WithBot ℝ)) rfl rfl
    refine ⟨s, trivial, h1, ?_, by rw [h2]; split <;> rfl⟩
    simp only [weightSwor, h3, computeIw, List.getLast?_cons_cons, List.getLast?_singleton, List.map_cons, List.map_nil,
      List.length_cons, List.length_nil]
    rw [if_neg (by decide)]
    simp only [Bool.false_eq_true, if_false, Nat.reduceAdd, Nat.add_one_sub_one, List.set_cons_succ, List.set_cons_zero,
      Except.ok.injEq, Option.some.injEq, List.cons.injEq, and_true]
    show Real.exp (-Real.log 2) / (1 - Real.exp (-Real.exp (-Real.log 2 - kappa u v)) + EPS) = _
    rw [sub_eq_add_neg (-Real.log 2), Real.exp_add, hexp, EPS]
  constructor
  · rintro ⟨r, s, w, h1, h2, h3, h4⟩
    obtain ⟨r', s', h1', h2', h3', h4'⟩ := key
    rw [h1', Except.ok.injEq] at h1
    subst h1
    rw [h2', Except.ok.injEq] at h2
    subst h2
    rw [h3', Except.ok.injEq, Option.some.injEq] at h3
    subst h3
    rw [h4]
    match hsq : s'.sequences, h4' with
    | [a, b], _ => simp
  · rintro rfl
    obtain ⟨r', s', h1', h2', h3', h4'⟩ := key
    refine ⟨r', s', _, h1', h2', h3', ?_⟩
    match hsq : s'.sequences, h4' with
    | [a, b], _ => simp

/-- The constant in the bound. -/
noncomputable def slope : ℝ := 1543 / 1000

theorem frac_bound {t ρ : ℝ} (h0 : 0 ≤ ρ) (h1 : ρ ≤ 1) (ht : t ≤ Real.exp (-(1 / 2)) * ρ) :
    1 / 2 / (1 - t + 1e-8) ≤ 1 / 2 * (1 + slope * ρ) := by
  set c := Real.exp (-(1 / 2)) with hc
  have hc0 : 0 < c := Real.exp_pos _
  have hc1 : c ≤ 6066 / 10000 := by
    have h2 : c * c = Real.exp (-1) := by rw [hc, ← Real.exp_add]; norm_num
    have h3 := Real.exp_neg_one_lt_d9
    nlinarith
  have hcr : c * ρ ≤ c := by nlinarith
  have hpos : 0 < 1 - c * ρ := by linarith
  have hle : 1 - c * ρ ≤ 1 - t + 1e-8 := by
    have : (0 : ℝ) ≤ 1e-8 := by norm_num
    linarith
  refine le_trans (div_le_div_of_nonneg_left (by norm_num) hpos hle) ?_
  rw [div_le_iff₀ hpos, slope]
  have h5 : 0 ≤ ρ * (1543 / 1000 - c - 1543 / 1000 * (c * ρ)) := mul_nonneg h0 (by nlinarith)
  nlinarith

/-- A bound on the ratio of the smaller to the larger of two numbers. -/
noncomputable def ratioBound (u v : ℝ) : ℝ := if v ≤ u then v / u else 1 + u - v

theorem estimate_le {u v e : ℝ} (hu : u ∈ Set.Ioo (0 : ℝ) 1) (hv : v ∈ Set.Ioo (0 : ℝ) 1)
    (h : Estimate (fun _ => 1) u v e) : 0 ≤ e ∧ e ≤ 1 / 2 * (1 + slope * ratioBound u v) := by
  rw [estimate_iff] at h
  have hx : 0 < -Real.log u := by have := Real.log_neg hu.1 hu.2; linarith
  have hy : 0 < -Real.log v := by have := Real.log_neg hv.1 hv.2; linarith
  have hexp : ∀ w, 0 < -Real.log w → Real.exp (-(-Real.log 2 + gumbelOf w)) = 2 * -Real.log w := by
    intro w hw
    rw [gumbelOf, neg_add, neg_neg, neg_neg, Real.exp_add, Real.exp_log (by norm_num), Real.exp_log hw]
  set g := -Real.log 2 + gumbelOf u with hg
  set k := -Real.log 2 + gumbelOf v with hk
  have hgx := hexp u hx
  have hky := hexp v hy
  rw [← hg] at hgx
  rw [← hk] at hky
  have hκ : kappa u v = min (condElt 0 (max g k) g) (condElt 0 (max g k) k) := rfl
  -- how far the smaller one is below zero
  have hlow : 1 + 2 * |Real.log u - Real.log v| ≤ Real.exp (-kappa u v) := by
    have e1 : ∀ x, x ≤ max g k → kappa u v ≤ condElt 0 (max g k) x →
        1 + (Real.exp (-x) - Real.exp (-max g k)) ≤ Real.exp (-kappa u v) := by
      intro x hx hle
      have h1 := cond_exp (t := 0) hx
      have h2 : Real.exp (-condElt 0 (max g k) x) ≤ Real.exp (-kappa u v) := Real.exp_le_exp.2 (by linarith)
      have h3 : 0 ≤ (1e-6 : ℝ) * Real.exp (-x) := by positivity
      rw [neg_zero, Real.exp_zero] at h1
      linarith
    have a1 := e1 g (le_max_left _ _) (by rw [hκ]; exact min_le_left _ _)
    have a2 := e1 k (le_max_right _ _) (by rw [hκ]; exact min_le_right _ _)
    rcases le_total g k with hgk | hgk
    · rw [max_eq_right hgk] at a1 a2
      have h1 : Real.exp (-k) ≤ Real.exp (-g) := Real.exp_le_exp.2 (by linarith)
      rw [abs_of_nonpos (by linarith)]
      linarith
    · rw [max_eq_left hgk] at a1 a2
      have h1 : Real.exp (-g) ≤ Real.exp (-k) := Real.exp_le_exp.2 (by linarith)
      rw [abs_of_nonneg (by linarith)]
      linarith
  have ht : Real.exp (-(1 / 2 * Real.exp (-kappa u v))) ≤
      Real.exp (-(1 / 2)) * Real.exp (-|Real.log u - Real.log v|) := by
    rw [← Real.exp_add]
    exact Real.exp_le_exp.2 (by linarith)
  have hρ : Real.exp (-|Real.log u - Real.log v|) ≤ ratioBound u v := by
    unfold ratioBound
    split
    · rename_i hvu
      have := Real.log_le_log hv.1 hvu
      rw [abs_of_nonneg (by linarith), neg_sub, Real.exp_sub, Real.exp_log hv.1, Real.exp_log hu.1]
    · rename_i hvu
      have hvu := le_of_not_ge hvu
      have := Real.log_le_log hu.1 hvu
      rw [abs_of_nonpos (by linarith), neg_neg, Real.exp_sub, Real.exp_log hv.1, Real.exp_log hu.1, div_le_iff₀ hv.1]
      nlinarith [hv.2]
  refine ⟨?_, ?_⟩
  · rw [h]
    have : Real.exp (-(1 / 2 * Real.exp (-kappa u v))) ≤ 1 := Real.exp_le_one_iff.2 (by have := Real.exp_pos (-kappa u v); linarith)
    exact div_nonneg (by norm_num) (by norm_num; linarith)
  · rw [h]
    refine le_trans (frac_bound (Real.exp_pos _).le (Real.exp_le_one_iff.2 (by simp)) ht) ?_
    have : 0 < slope := by norm_num [slope]
    nlinarith

theorem lintegral_Ioc {f : ℝ → ℝ} (hf : Continuous f) {a b : ℝ} (hab : a ≤ b) (h0 : ∀ x ∈ Set.Ioc a b, 0 ≤ f x) :
    ∫⁻ x in Set.Ioc a b, ENNReal.ofReal (f x) = ENNReal.ofReal (∫ x in a..b, f x) := by
  rw [intervalIntegral.integral_of_le hab, ofReal_integral_eq_lintegral_ofReal]
  · exact (hf.intervalIntegrable a b).1
  · exact (ae_restrict_iff' measurableSet_Ioc).2 (Filter.Eventually.of_forall h0)

theorem integral_quad (p q r a b : ℝ) : ∫ x in a..b, (p + q * x + r * x ^ 2) =
    p * (b - a) + q * (b ^ 2 - a ^ 2) / 2 + r * (b ^ 3 - a ^ 3) / 3 := by
  have hd : ∀ x ∈ Set.uIcc a b, HasDerivAt (fun x => p * x + q * x ^ 2 / 2 + r * x ^ 3 / 3) (p + q * x + r * x ^ 2) x := by
    intro x _
    have h1 := (hasDerivAt_id x).const_mul p
    have h2 := ((hasDerivAt_pow 2 x).const_mul q).div_const 2
    have h3 := ((hasDerivAt_pow 3 x).const_mul r).div_const 3
    refine ((h1.add h2).add h3).congr_deriv ?_
    simp
    ring
  rw [intervalIntegral.integral_eq_sub_of_hasDerivAt hd
    ((by fun_prop : Continuous (fun x : ℝ => p + q * x + r * x ^ 2)).intervalIntegrable a b)]
  ring

/-- C60 fails: for a fair coin, two samples and the cost 1, whose expectation is 1, the expected estimate is below 24/25.
The expectation is that over the uniform random numbers behind the Gumbel variables. -/
theorem C60_refuted (E : ℝ → ℝ → ℝ)
    (hE : ∀ u ∈ Set.Ioo (0 : ℝ) 1, ∀ v ∈ Set.Ioo (0 : ℝ) 1, Estimate (fun _ => 1) u v (E u v)) :
    ∫⁻ u in Set.Ioo (0 : ℝ) 1, ∫⁻ v in Set.Ioo (0 : ℝ) 1, ENNReal.ofReal (E u v) ≤ ENNReal.ofReal (24 / 25) := by
  have hs : 0 < slope := by norm_num [slope]
  have inner : ∀ u ∈ Set.Ioo (0 : ℝ) 1, ∫⁻ v in Set.Ioo (0 : ℝ) 1, ENNReal.ofReal (E u v) ≤
      ENNReal.ofReal (1 / 2 * (1 + slope * (u / 2 + (1 - u ^ 2) / 2))) := by
    intro u hu
    have h1 : ∫⁻ v in Set.Ioo (0 : ℝ) 1, ENNReal.ofReal (E u v) ≤
        ∫⁻ v in Set.Ioo (0 : ℝ) 1, ENNReal.ofReal (1 / 2 * (1 + slope * ratioBound u v)) :=
      setLIntegral_mono' measurableSet_Ioo (fun v hv => ENNReal.ofReal_le_ofReal (estimate_le hu hv (hE u hu v hv)).2)
    refine le_trans h1 ?_
    have hsub : Set.Ioo (0 : ℝ) 1 ⊆ Set.Ioc 0 u ∪ Set.Ioc u 1 := by
      intro v hv
      rcases le_or_gt v u with h | h
      · exact Or.inl ⟨hv.1, h⟩
      · exact Or.inr ⟨h, hv.2.le⟩
    refine le_trans (lintegral_mono_set hsub) (le_trans (lintegral_union_le _ _ _) ?_)
    have i1 : ∫⁻ v in Set.Ioc 0 u, ENNReal.ofReal (1 / 2 * (1 + slope * ratioBound u v)) =
        ENNReal.ofReal (1 / 2 * (u + slope * (u / 2))) := by
      have : ∫⁻ v in Set.Ioc 0 u, ENNReal.ofReal (1 / 2 * (1 + slope * ratioBound u v)) =
          ∫⁻ v in Set.Ioc 0 u, ENNReal.ofReal (1 / 2 * (1 + slope * (v / u))) :=
        setLIntegral_congr_fun measurableSet_Ioc (fun v hv => by simp only [ratioBound, if_pos hv.2])
      rw [this, lintegral_Ioc (by fun_prop) hu.1.le (fun v hv => by
        have := div_nonneg hv.1.le hu.1.le
        positivity)]
      congr 1
      have hf : (fun v : ℝ => 1 / 2 * (1 + slope * (v / u))) = fun v => 1 / 2 + slope / (2 * u) * v + 0 * v ^ 2 := by
        funext v; ring
      rw [hf, integral_quad]
      have := hu.1.ne'
      field_simp
      ring
    have i2 : ∫⁻ v in Set.Ioc u 1, ENNReal.ofReal (1 / 2 * (1 + slope * ratioBound u v)) =
        ENNReal.ofReal (1 / 2 * ((1 - u) + slope * ((1 - u ^ 2) / 2))) := by
      have : ∫⁻ v in Set.Ioc u 1, ENNReal.ofReal (1 / 2 * (1 + slope * ratioBound u v)) =
          ∫⁻ v in Set.Ioc u 1, ENNReal.ofReal (1 / 2 * (1 + slope * (1 + u - v))) :=
        setLIntegral_congr_fun measurableSet_Ioc (fun v hv => by simp only [ratioBound, if_neg (not_le.2 hv.1)])
      rw [this, lintegral_Ioc (by fun_prop) hu.2.le (fun v hv => by
        have : 0 ≤ 1 + u - v := by linarith [hu.1, hv.2]
        positivity)]
      congr 1
      have hf : (fun v : ℝ => 1 / 2 * (1 + slope * (1 + u - v))) =
          fun v => 1 / 2 * (1 + slope * (1 + u)) + -(slope / 2) * v + 0 * v ^ 2 := by
        funext v; ring
      rw [hf, integral_quad]
      ring
    rw [i1, i2, ← ENNReal.ofReal_add]
    · apply ENNReal.ofReal_le_ofReal
      linarith
    · have := hu.1; positivity
    · have h1 := hu.1
      have h2 := hu.2
      have : 0 ≤ 1 - u ^ 2 := by nlinarith
      have : 0 ≤ 1 - u := by linarith
      positivity
  refine le_trans (setLIntegral_mono' measurableSet_Ioo inner) ?_
  refine le_trans (lintegral_mono_set Set.Ioo_subset_Ioc_self) ?_
  rw [lintegral_Ioc (by fun_prop) zero_le_one (fun u hu => by
    have : 0 ≤ 1 - u ^ 2 := by nlinarith [hu.1, hu.2]
    have := hu.1
    positivity)]
  apply ENNReal.ofReal_le_ofReal
  have hf : (fun u : ℝ => 1 / 2 * (1 + slope * (u / 2 + (1 - u ^ 2) / 2))) =
      fun u => 1 / 2 * (1 + slope / 2) + slope / 4 * u + -(slope / 4) * u ^ 2 := by
    funext u; ring
  rw [hf, integral_quad]
  norm_num [slope]

/-- The estimate exists for all random numbers, so that the hypothesis of `C60_refuted` can be met. -/
theorem estimate_total : ∃ E : ℝ → ℝ → ℝ, ∀ u v, Estimate (fun _ => 1) u v (E u v) :=
  ⟨fun _ _ => _, fun _ _ => (estimate_iff _ _ _).2 rfl⟩

end Storch.Decode
