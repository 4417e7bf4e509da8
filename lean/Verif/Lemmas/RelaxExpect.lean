import Mathlib.Analysis.Calculus.ParametricIntegral
import Mathlib.MeasureTheory.Integral.Pi
import Verif.Lemmas.RelaxRunLemmas
import Verif.Lemmas.RelaxBias

/-!
# The expected gradient of a program with `RELAX`
-/

namespace Storch
open Gumbel MeasureTheory Topology

section
variable {E : Type _} [NormedAddCommGroup E] [NormedSpace ℝ E] {θ₀ : E} {m K : Nat}

/-- The usual conditions for differentiating under the expectation: near `θ₀` the function is integrable and, for almost
all noise, differentiable, with a derivative bounded by something integrable. -/
structure Regular {Ω : Type*} [MeasurableSpace Ω] (μ : Measure Ω) (g : E → Ω → ℝ) (θ₀ : E) : Prop where
  int : ∀ᶠ θ in 𝓝 θ₀, Integrable (g θ) μ
  measDeriv : AEStronglyMeasurable (fun ω => fderiv ℝ (fun θ => g θ ω) θ₀) μ
  bound : ∃ s ∈ 𝓝 θ₀, ∃ B : Ω → ℝ, Integrable B μ ∧ ∀ᵐ ω ∂μ, ∀ θ ∈ s,
    DifferentiableAt ℝ (fun θ => g θ ω) θ ∧ ‖fderiv ℝ (fun θ => g θ ω) θ‖ ≤ B ω

theorem Regular.deriv {Ω : Type*} [MeasurableSpace Ω] {μ : Measure Ω} {g : E → Ω → ℝ} (h : Regular μ g θ₀) :
    (∀ᵐ ω ∂μ, DifferentiableAt ℝ (fun θ => g θ ω) θ₀) ∧ Integrable (fun ω => fderiv ℝ (fun θ => g θ ω) θ₀) μ ∧
      HasFDerivAt (fun θ => ∫ ω, g θ ω ∂μ) (∫ ω, fderiv ℝ (fun θ => g θ ω) θ₀ ∂μ) θ₀ := by
  obtain ⟨s, hs, B, hB, hb⟩ := h.bound
  have h0 := mem_of_mem_nhds hs
  refine ⟨hb.mono fun ε hε => (hε θ₀ h0).1, hB.mono' h.measDeriv (hb.mono fun ε hε => (hε θ₀ h0).2), ?_⟩
  exact hasFDerivAt_integral_of_dominated_of_fderiv_le (F' := fun θ ε => fderiv ℝ (fun θ => g θ ε) θ) hs
    (h.int.mono fun θ hθ => hθ.aestronglyMeasurable) h.int.self_of_nhds
    h.measDeriv (hb.mono fun ε hε θ hθ => (hε θ hθ).2) hB (hb.mono fun ε hε θ hθ => (hε θ hθ).1.hasFDerivAt)

/-- The average over independent samples has the expectation of one. -/
theorem average_integral_gen {Ω : Type*} [MeasurableSpace Ω] {μ : Measure Ω} [IsProbabilityMeasure μ] {F : Type*}
    [NormedAddCommGroup F] [NormedSpace ℝ F] {n : Nat} (hn : 1 ≤ n) {G : Ω → F} (hG : Integrable G μ) :
    Integrable (fun ε : Fin n → Ω => ∑ k : Fin n, (1 / (n : ℝ)) • G (ε k)) (Measure.pi fun _ => μ) ∧
      ∫ ε : Fin n → Ω, (∑ k : Fin n, (1 / (n : ℝ)) • G (ε k)) ∂(Measure.pi fun _ => μ) = ∫ x, G x ∂μ := by
  have hik : ∀ k : Fin n, Integrable (fun ε : Fin n → Ω => (1 / (n : ℝ)) • G (ε k))
      (Measure.pi fun _ => μ) := fun k =>
    Integrable.smul (1 / (n : ℝ)) (integrable_comp_eval (μ := fun _ : Fin n => μ) (i := k) hG)
  have hn0 : (n : ℝ) ≠ 0 := by exact_mod_cast (show n ≠ 0 by omega)
  refine ⟨integrable_finsetSum _ (fun k _ => hik k), ?_⟩
  rw [integral_finsetSum _ (fun k _ => hik k)]
  have : ∀ k : Fin n, ∫ ε : Fin n → Ω, (1 / (n : ℝ)) • G (ε k) ∂(Measure.pi fun _ => μ) =
      (1 / (n : ℝ)) • ∫ x, G x ∂μ := by
    intro k
    rw [integral_smul, integral_comp_eval (μ := fun _ => μ) hG.aestronglyMeasurable]
  rw [Finset.sum_congr rfl (fun k _ => this k), Finset.sum_const, Finset.card_univ, Fintype.card_fin,
    ← Nat.cast_smul_eq_nsmul ℝ, smul_smul, mul_one_div_cancel hn0, one_smul]

/-- The random numbers of one sample, for all positions. -/
def extRows (w : Fin m → Fin K → ℝ) (r : Nat) : Fin K → ℝ := if h : r < m then w ⟨r, h⟩ else fun _ => 0

theorem extRows_fin (w : Fin m → Fin K → ℝ) (r : Fin m) : extRows w r.val = w r := by simp [extRows]

/-- The one-hot vectors of the outcomes `j`. -/
def oneHots (j : Fin m → Fin K) (r : Fin m) (i : Fin K) : ℝ := if i = j r then 1 else 0

/-- Probabilities that are positive and sum to one, and a positive temperature. -/
structure RelaxVar.Good (d : RelaxVar E m K) (θ : E) : Prop where
  pos : ∀ (r : Fin m) i, 0 < d.prob θ r i
  sum : ∀ r : Fin m, ∑ i, d.prob θ r i = 1
  temp : 0 < d.temp θ

section
variable {d : RelaxVar E m K} {θ : E}

omit [NormedSpace ℝ E] [NormedAddCommGroup E] in
theorem RelaxVar.Good.le_one (h : d.Good θ) (r : Fin m) (i : Fin K) : d.prob θ r i ≤ 1 := by
  rw [← h.sum r]
  exact Finset.single_le_sum (fun k _ => (h.pos r k).le) (Finset.mem_univ i)

omit [NormedSpace ℝ E] [NormedAddCommGroup E] in
theorem zAt_eq (h : d.Good θ) {u : Fin m → Fin K → ℝ} (hu : ∀ r i, u r i ∈ Set.Ioo (0 : ℝ) 1) :
    d.zAt 0 (extRows u) θ = zOf (d.temp θ) (fun r => d.prob θ r) u := by
  funext r
  rw [RelaxVar.zAt, extRows_fin, zOf]
  refine relaxed_expo (h.pos r) (fun i => ⟨(h.pos r i).le, ?_⟩) (hu r) (fun i => ⟨(hu r i).1.le, ?_⟩)
  · rw [sub_zero]; exact h.le_one r i
  · rw [sub_zero]; exact (hu r i).2.le

variable {am : (Fin K → ℝ) → Fin K}

theorem am_oneHot (ham : ∀ (s : Fin K → ℝ) i, s i ≤ s (am s)) (j : Fin K) : am (fun i => if i = j then 1 else 0) = j := by
  by_contra hne
  have := ham (fun i => if i = j then 1 else 0) j
  simp only [if_true, if_neg hne] at this
  linarith

omit [NormedSpace ℝ E] [NormedAddCommGroup E] in
theorem ztAt_eq (h : d.Good θ) (ham : ∀ (s : Fin K → ℝ) i, s i ≤ s (am s)) (j : Fin m → Fin K) {v : Fin m → Fin K → ℝ}
    (hv : ∀ r i, v r i ∈ Set.Ioo (0 : ℝ) 1) :
    d.ztAt am 0 (oneHots j) (extRows v) θ = ztOf (d.temp θ) (fun r => d.prob θ r) j v := by
  funext r
  have ha : am (oneHots j r) = j r := am_oneHot ham (j r)
  rw [RelaxVar.ztAt, extRows_fin, ztOf, conditionalRow, ha]
  refine conditional_expo (fun i => ⟨(h.pos r i).le, ?_⟩) (fun i => ⟨(hv r i).1.le, ?_⟩) (j r)
  · rw [sub_zero]; exact h.le_one r i
  · rw [sub_zero]; exact (hv r i).2.le

omit [NormedSpace ℝ E] [NormedAddCommGroup E] in
theorem hardAt_eq (h : d.Good θ) (ham : ∀ (s : Fin K → ℝ) i, s i ≤ s (am s)) {j : Fin m → Fin K} {u : Fin m → Fin K → ℝ}
    (hu : ∀ r i, u r i ∈ Set.Ioo (0 : ℝ) 1) (hj : u ∈ Firsts (fun r : Fin m => d.prob θ r) j) :
    d.hardAt am 0 θ (extRows u) = oneHots j := by
  funext r
  rw [RelaxVar.hardAt, zAt_eq h hu, zOf]
  funext i
  rw [discretizeRow, argmax_First h.temp (h.pos r) (hu r) ham (hj r (Set.mem_univ r))]
  rfl

omit [NormedSpace ℝ E] [NormedAddCommGroup E] in
theorem lpAt_eq (h : d.Good θ) (ham : ∀ (s : Fin K → ℝ) i, s i ≤ s (am s)) (j : Fin m → Fin K) :
    d.lpAt am 0 (oneHots j) θ = Real.log (∏ r : Fin m, d.prob θ r (j r)) := by
  rw [RelaxVar.lpAt, Real.log_prod (fun r _ => (h.pos r _).ne')]
  refine Finset.sum_congr rfl (fun r _ => ?_)
  rw [show am (oneHots j r) = j r from am_oneHot ham (j r), clamp_id (h.pos r _).le (by rw [sub_zero]; exact h.le_one r _)]

theorem rows_mem (m K : Nat) : ∀ᵐ u ∂rows m K, ∀ r i, u r i ∈ Set.Ioo (0 : ℝ) 1 :=
  rows_ae (P := fun _ x => ∀ i, x i ∈ Set.Ioo (0 : ℝ) 1) (fun _ => cube_mem K)

omit [NormedSpace ℝ E] [NormedAddCommGroup E] in
/-- The expectation of the control network at the relaxed sample, in terms of the conditional samples. -/
theorem integral_net (h : d.Good θ) (hK : 0 < K) (ham : ∀ (s : Fin K → ℝ) i, s i ≤ s (am s)) (hm : Measurable (d.net θ))
    (hi : Integrable (fun u => d.net θ (d.zAt 0 (extRows u) θ)) (rows m K)) :
    ∫ u, d.net θ (d.zAt 0 (extRows u) θ) ∂rows m K =
      ∑ j : Fin m → Fin K, (∏ r : Fin m, d.prob θ r (j r)) *
        ∫ v, d.net θ (d.ztAt am 0 (oneHots j) (extRows v) θ) ∂rows m K := by
  have e1 : (fun u => d.net θ (d.zAt 0 (extRows u) θ)) =ᵐ[rows m K]
      fun u => d.net θ (zOf (d.temp θ) (fun r => d.prob θ r) u) := by
    filter_upwards [rows_mem m K] with u hu
    rw [zAt_eq h hu]
  rw [integral_congr_ae e1, integral_rows h.pos h.sum hK (d.temp θ) hm (hi.congr e1)]
  refine Finset.sum_congr rfl (fun j _ => ?_)
  congr 1
  refine integral_congr_ae ?_
  filter_upwards [rows_mem m K] with v hv
  rw [ztAt_eq h ham j hv]

end

/-- The conditions on the variable, the control network and the cost. -/
structure RelaxVar.Smooth (d : RelaxVar E m K) (am : (Fin K → ℝ) → Fin K) (f : E → (Fin m → Fin K → ℝ) → ℝ) (θ₀ : E) :
    Prop where
  good : ∀ᶠ θ in 𝓝 θ₀, d.Good θ
  prob : ∀ (r : Fin m) i, DifferentiableAt ℝ (fun θ => d.prob θ r i) θ₀
  eta : DifferentiableAt ℝ d.eta θ₀
  cost : ∀ j : Fin m → Fin K, DifferentiableAt ℝ (fun θ => f θ (oneHots j)) θ₀
  net : ∀ᶠ θ in 𝓝 θ₀, Measurable (d.net θ)
  relaxed : Regular (rows m K) (fun θ u => d.net θ (d.zAt 0 (extRows u) θ)) θ₀
  cond : ∀ j : Fin m → Fin K, Regular (rows m K) (fun θ v => d.net θ (d.ztAt am 0 (oneHots j) (extRows v) θ)) θ₀

variable {d : RelaxVar E m K} {am : (Fin K → ℝ) → Fin K} {f : E → (Fin m → Fin K → ℝ) → ℝ}

theorem term_deriv {u v : Nat → Fin K → ℝ} {j : Fin m → Fin K} (hj : d.hardAt am 0 θ₀ u = oneHots j)
    (he : DifferentiableAt ℝ d.eta θ₀) (hl : DifferentiableAt ℝ (d.lpAt am 0 (oneHots j)) θ₀)
    (hz : DifferentiableAt ℝ (fun θ => d.net θ (d.zAt 0 u θ)) θ₀)
    (ht : DifferentiableAt ℝ (fun θ => d.net θ (d.ztAt am 0 (oneHots j) v θ)) θ₀)
    (hf : DifferentiableAt ℝ (fun θ => f θ (oneHots j)) θ₀) :
    HasFDerivAt (fun θ => d.term am 0 θ₀ f u v θ)
      (d.eta θ₀ • fderiv ℝ (fun θ => d.net θ (d.zAt 0 u θ)) θ₀ + d.net θ₀ (d.zAt 0 u θ₀) • fderiv ℝ d.eta θ₀ +
        (f θ₀ (oneHots j) • fderiv ℝ (d.lpAt am 0 (oneHots j)) θ₀ + fderiv ℝ (fun θ => f θ (oneHots j)) θ₀ -
          d.eta θ₀ • fderiv ℝ (fun θ => d.net θ (d.ztAt am 0 (oneHots j) v θ)) θ₀ -
          d.net θ₀ (d.ztAt am 0 (oneHots j) v θ₀) • fderiv ℝ d.eta θ₀ -
          (d.eta θ₀ * d.net θ₀ (d.ztAt am 0 (oneHots j) v θ₀)) • fderiv ℝ (d.lpAt am 0 (oneHots j)) θ₀)) θ₀ := by
  have hb : HasFDerivAt (fun θ => boxElt (α := AD E θ₀) (d.lpAt am 0 (oneHots j)) θ)
      (fderiv ℝ (d.lpAt am 0 (oneHots j)) θ₀) θ₀ := by
    have := (hl.hasFDerivAt.sub_const (d.lpAt am 0 (oneHots j) θ₀)).exp
    rw [sub_self, Real.exp_zero, one_smul] at this
    exact this
  have hcv := relaxCv_deriv (θ₀ := θ₀) (eta := d.eta) (lp := d.lpAt am 0 (oneHots j))
    (z := fun θ => d.net θ (d.zAt 0 u θ)) (zt := fun θ => d.net θ (d.ztAt am 0 (oneHots j) v θ)) he hl hz ht
  have h := hb.mul (hcv.add hf.hasFDerivAt)
  have hval : relaxCv (α := AD E θ₀) d.eta (d.lpAt am 0 (oneHots j)) (fun θ => d.net θ (d.zAt 0 u θ))
      (fun θ => d.net θ (d.ztAt am 0 (oneHots j) v θ)) θ₀ = 0 := relaxCv_val _ _ _ _
  have hbv : boxElt (α := AD E θ₀) (d.lpAt am 0 (oneHots j)) θ₀ = 1 := boxElt_val _
  have hterm : (fun θ => d.term am 0 θ₀ f u v θ) = fun θ => boxElt (α := AD E θ₀) (d.lpAt am 0 (oneHots j)) θ *
      (relaxCv (α := AD E θ₀) d.eta (d.lpAt am 0 (oneHots j)) (fun θ => d.net θ (d.zAt 0 u θ))
        (fun θ => d.net θ (d.ztAt am 0 (oneHots j) v θ)) θ + f θ (oneHots j)) := by
    rw [← hj]; rfl
  rw [hterm]
  refine h.congr_fderiv ?_
  have h1 : fderiv ℝ (fun θ => d.eta θ * d.net θ (d.zAt 0 u θ)) θ₀ =
      d.eta θ₀ • fderiv ℝ (fun θ => d.net θ (d.zAt 0 u θ)) θ₀ + d.net θ₀ (d.zAt 0 u θ₀) • fderiv ℝ d.eta θ₀ :=
    (he.hasFDerivAt.mul hz.hasFDerivAt).fderiv
  have h2 : fderiv ℝ (fun θ => d.eta θ * d.net θ (d.ztAt am 0 (oneHots j) v θ)) θ₀ =
      d.eta θ₀ • fderiv ℝ (fun θ => d.net θ (d.ztAt am 0 (oneHots j) v θ)) θ₀ +
        d.net θ₀ (d.ztAt am 0 (oneHots j) v θ₀) • fderiv ℝ d.eta θ₀ :=
    (he.hasFDerivAt.mul ht.hasFDerivAt).fderiv
  have hgr : relaxGrad (θ₀ := θ₀) d.eta (d.lpAt am 0 (oneHots j)) (fun θ => d.net θ (d.zAt 0 u θ))
      (fun θ => d.net θ (d.ztAt am 0 (oneHots j) v θ)) = fderiv ℝ (fun θ => d.eta θ * d.net θ (d.zAt 0 u θ)) θ₀ -
      fderiv ℝ (fun θ => d.eta θ * d.net θ (d.ztAt am 0 (oneHots j) v θ)) θ₀ -
      (d.eta θ₀ * d.net θ₀ (d.ztAt am 0 (oneHots j) v θ₀)) • fderiv ℝ (d.lpAt am 0 (oneHots j)) θ₀ := rfl
  rw [Pi.add_apply, hval, hbv, hgr, h1, h2]
  module

theorem lpAt_deriv (h : d.Smooth am f θ₀) (ham : ∀ (s : Fin K → ℝ) i, s i ≤ s (am s)) (j : Fin m → Fin K) :
    HasFDerivAt (d.lpAt am 0 (oneHots j)) ((∏ r : Fin m, d.prob θ₀ r (j r))⁻¹ •
      fderiv ℝ (fun θ => ∏ r : Fin m, d.prob θ r (j r)) θ₀) θ₀ := by
  have hp : DifferentiableAt ℝ (fun θ => ∏ r : Fin m, d.prob θ r (j r)) θ₀ :=
    (HasFDerivAt.finsetProd (u := Finset.univ) (fun (r : Fin m) _ => (h.prob r (j r)).hasFDerivAt)).differentiableAt
  have h0 : ∏ r : Fin m, d.prob θ₀ r (j r) ≠ 0 :=
    Finset.prod_ne_zero_iff.2 (fun r _ => (h.good.self_of_nhds.pos r _).ne')
  refine (hp.hasFDerivAt.log h0).congr_of_eventuallyEq ?_
  filter_upwards [h.good] with θ hθ
  exact lpAt_eq hθ ham j

/-- The gradient of what one sample adds to the loss has the gradient of the expected cost as its expectation. -/
theorem term_mean (hK : 0 < K) (ham : ∀ (s : Fin K → ℝ) i, s i ≤ s (am s)) (h : d.Smooth am f θ₀) :
    (∀ᵐ w ∂(rows m K).prod (rows m K), DifferentiableAt ℝ
      (fun θ => d.term am 0 θ₀ f (extRows w.1) (extRows w.2) θ) θ₀) ∧
    Integrable (fun w => fderiv ℝ (fun θ => d.term am 0 θ₀ f (extRows w.1) (extRows w.2) θ) θ₀)
      ((rows m K).prod (rows m K)) ∧
    HasFDerivAt (fun θ => ∑ j : Fin m → Fin K, (∏ r : Fin m, d.prob θ r (j r)) * f θ (oneHots j))
      (∫ w, fderiv ℝ (fun θ => d.term am 0 θ₀ f (extRows w.1) (extRows w.2) θ) θ₀ ∂(rows m K).prod (rows m K)) θ₀ := by
  have hg := h.good.self_of_nhds
  set ρ := rows m K with hρ
  set p : Fin m → Fin K → ℝ := fun r => d.prob θ₀ r with hp
  set P : (Fin m → Fin K) → ℝ := fun j => ∏ r : Fin m, d.prob θ₀ r (j r) with hP
  set P' : (Fin m → Fin K) → E →L[ℝ] ℝ := fun j => fderiv ℝ (fun θ => ∏ r : Fin m, d.prob θ r (j r)) θ₀ with hP'
  have hP0 : ∀ j, P j ≠ 0 := fun j => Finset.prod_ne_zero_iff.2 (fun r _ => (hg.pos r _).ne')
  set Z : (Fin m → Fin K → ℝ) → ℝ := fun u => d.net θ₀ (d.zAt 0 (extRows u) θ₀) with hZ
  set Z' : (Fin m → Fin K → ℝ) → E →L[ℝ] ℝ := fun u => fderiv ℝ (fun θ => d.net θ (d.zAt 0 (extRows u) θ)) θ₀ with hZ'
  set T : (Fin m → Fin K) → (Fin m → Fin K → ℝ) → ℝ :=
    fun j v => d.net θ₀ (d.ztAt am 0 (oneHots j) (extRows v) θ₀) with hT
  set T' : (Fin m → Fin K) → (Fin m → Fin K → ℝ) → E →L[ℝ] ℝ :=
    fun j v => fderiv ℝ (fun θ => d.net θ (d.ztAt am 0 (oneHots j) (extRows v) θ)) θ₀ with hT'
  set F : (Fin m → Fin K) → ℝ := fun j => f θ₀ (oneHots j) with hF
  set F' : (Fin m → Fin K) → E →L[ℝ] ℝ := fun j => fderiv ℝ (fun θ => f θ (oneHots j)) θ₀ with hF'
  set e := d.eta θ₀ with he
  set e' := fderiv ℝ d.eta θ₀ with he'
  set A : (Fin m → Fin K) → (Fin m → Fin K → ℝ) → E →L[ℝ] ℝ := fun j v =>
    F j • ((P j)⁻¹ • P' j) + F' j - e • T' j v - T j v • e' - (e * T j v) • ((P j)⁻¹ • P' j) with hA
  have hlp : ∀ j, fderiv ℝ (d.lpAt am 0 (oneHots j)) θ₀ = (P j)⁻¹ • P' j := fun j => (lpAt_deriv h ham j).fderiv
  -- the derivative of one sample
  have key : ∀ᵐ w ∂ρ.prod ρ, HasFDerivAt (fun θ => d.term am 0 θ₀ f (extRows w.1) (extRows w.2) θ)
      (e • Z' w.1 + Z w.1 • e' + ∑ j, (Firsts p j).indicator (fun _ => (1 : ℝ)) w.1 • A j w.2) θ₀ := by
    have a1 : ∀ᵐ w ∂ρ.prod ρ, (∀ r i, w.1 r i ∈ Set.Ioo (0 : ℝ) 1) ∧ ∃ j, w.1 ∈ Firsts p j :=
      Measure.quasiMeasurePreserving_fst.ae (ae_Firsts hg.pos hK)
    have a2 : ∀ᵐ w ∂ρ.prod ρ, DifferentiableAt ℝ (fun θ => d.net θ (d.zAt 0 (extRows w.1) θ)) θ₀ :=
      Measure.quasiMeasurePreserving_fst.ae h.relaxed.deriv.1
    have a3 : ∀ᵐ w ∂ρ.prod ρ, ∀ j, DifferentiableAt ℝ (fun θ => d.net θ (d.ztAt am 0 (oneHots j) (extRows w.2) θ)) θ₀ :=
      Measure.quasiMeasurePreserving_snd.ae (ae_all_iff.2 (fun j => (h.cond j).deriv.1))
    filter_upwards [a1, a2, a3] with w b1 b2 b3
    obtain ⟨c1, j, c2⟩ := b1
    have := term_deriv (f := f) (u := extRows w.1) (v := extRows w.2) (hardAt_eq hg ham c1 c2) h.eta
      (lpAt_deriv h ham j).differentiableAt b2 (b3 j) (h.cost j)
    refine this.congr_fderiv ?_
    have hs : ∑ k, (Firsts p k).indicator (fun _ => (1 : ℝ)) w.1 • A k w.2 = A j w.2 := by
      rw [← sum_Firsts hg.pos c1 c2 (fun k => A k w.2)]
      refine Finset.sum_congr rfl (fun k _ => ?_)
      by_cases hk : w.1 ∈ Firsts p k
      · rw [Set.indicator_of_mem hk, Set.indicator_of_mem hk, one_smul]
      · rw [Set.indicator_of_notMem hk, Set.indicator_of_notMem hk, zero_smul]
    rw [hs, hA, hlp j]
  -- integrability
  have iZ : Integrable Z ρ := h.relaxed.int.self_of_nhds
  have iZ' : Integrable Z' ρ := h.relaxed.deriv.2.1
  have iT : ∀ j, Integrable (T j) ρ := fun j => (h.cond j).int.self_of_nhds
  have iT' : ∀ j, Integrable (T' j) ρ := fun j => (h.cond j).deriv.2.1
  have iA : ∀ j, Integrable (A j) ρ := fun j =>
    ((((integrable_const (F j • ((P j)⁻¹ • P' j) + F' j)).sub ((iT' j).smul e)).sub ((iT j).smul_const e')).sub
      (((iT j).const_mul e).smul_const ((P j)⁻¹ • P' j)))
  have mA : ∀ j, ∫ v, A j v ∂ρ = F j • ((P j)⁻¹ • P' j) + F' j - e • ∫ v, T' j v ∂ρ - (∫ v, T j v ∂ρ) • e' -
      (e * ∫ v, T j v ∂ρ) • ((P j)⁻¹ • P' j) := by
    intro j
    have i1 := integrable_const (μ := ρ) (F j • ((P j)⁻¹ • P' j) + F' j)
    have i2 : Integrable (fun v => e • T' j v) ρ := (iT' j).smul e
    have i3 := (iT j).smul_const e'
    have i4 := ((iT j).const_mul e).smul_const ((P j)⁻¹ • P' j)
    have i12 : Integrable (fun v => F j • ((P j)⁻¹ • P' j) + F' j - e • T' j v) ρ := i1.sub i2
    have i123 : Integrable (fun v => F j • ((P j)⁻¹ • P' j) + F' j - e • T' j v - T j v • e') ρ := i12.sub i3
    simp only [hA]
    rw [integral_sub i123 i4, integral_sub i12 i3, integral_sub i1 i2, integral_const,
      integral_smul, integral_smul_const, integral_smul_const, integral_const_mul]
    simp
  have iI : ∀ j, Integrable ((Firsts p j).indicator (fun _ => (1 : ℝ))) ρ := fun j =>
    (integrable_const 1).indicator (measurable_Firsts p j)
  have iS : ∀ j, Integrable (fun w : (Fin m → Fin K → ℝ) × (Fin m → Fin K → ℝ) =>
      (Firsts p j).indicator (fun _ => (1 : ℝ)) w.1 • A j w.2) (ρ.prod ρ) := fun j => (iI j).smul_prod (iA j)
  have mI : ∀ j, ∫ u, (Firsts p j).indicator (fun _ => (1 : ℝ)) u ∂ρ = P j := by
    intro j
    rw [integral_indicator (measurable_Firsts p j), setIntegral_const, smul_eq_mul, mul_one]
    exact measure_Firsts hg.pos hg.sum j
  have ieZ : Integrable (fun u => e • Z' u) ρ := iZ'.smul e
  have iU : Integrable (fun u => e • Z' u + Z u • e') ρ := (iZ'.smul e).add (iZ.smul_const e')
  have iAll : Integrable (fun w : (Fin m → Fin K → ℝ) × (Fin m → Fin K → ℝ) => e • Z' w.1 + Z w.1 • e' +
      ∑ j, (Firsts p j).indicator (fun _ => (1 : ℝ)) w.1 • A j w.2) (ρ.prod ρ) :=
    (iU.comp_fst ρ).add (integrable_finsetSum _ (fun j _ => iS j))
  -- the expectation of the control network
  have dP : ∀ j, HasFDerivAt (fun θ => ∏ r : Fin m, d.prob θ r (j r)) (P' j) θ₀ := fun j =>
    (HasFDerivAt.finsetProd (u := Finset.univ)
      (fun (r : Fin m) _ => (h.prob r (j r)).hasFDerivAt)).differentiableAt.hasFDerivAt
  have ev : (fun θ => ∫ u, d.net θ (d.zAt 0 (extRows u) θ) ∂ρ) =ᶠ[𝓝 θ₀] fun θ => ∑ j : Fin m → Fin K,
      (∏ r : Fin m, d.prob θ r (j r)) * ∫ v, d.net θ (d.ztAt am 0 (oneHots j) (extRows v) θ) ∂ρ := by
    filter_upwards [h.good, h.net, h.relaxed.int] with θ h1 h2 h3
    exact integral_net h1 hK ham h2 h3
  have mZ : ∫ u, Z u ∂ρ = ∑ j, P j * ∫ v, T j v ∂ρ := ev.self_of_nhds
  have mZ' : ∫ u, Z' u ∂ρ = ∑ j, (P j • ∫ v, T' j v ∂ρ + (∫ v, T j v ∂ρ) • P' j) := by
    have h1 := h.relaxed.deriv.2.2
    have h2 : HasFDerivAt (fun θ => ∑ j : Fin m → Fin K,
        (∏ r : Fin m, d.prob θ r (j r)) * ∫ v, d.net θ (d.ztAt am 0 (oneHots j) (extRows v) θ) ∂ρ)
        (∑ j, (P j • ∫ v, T' j v ∂ρ + (∫ v, T j v ∂ρ) • P' j)) θ₀ :=
      HasFDerivAt.fun_sum (fun j _ => (dP j).mul (h.cond j).deriv.2.2)
    exact h1.unique (h2.congr_of_eventuallyEq ev)
  have total : ∫ w, fderiv ℝ (fun θ => d.term am 0 θ₀ f (extRows w.1) (extRows w.2) θ) θ₀ ∂ρ.prod ρ =
      ∑ j, (P j • F' j + F j • P' j) := by
    rw [integral_congr_ae (key.mono fun w hw => hw.fderiv), integral_add (iU.comp_fst ρ)
      (integrable_finsetSum _ (fun j _ => iS j)), integral_finsetSum _ (fun j _ => iS j), integral_fun_fst
      (fun u => e • Z' u + Z u • e'), integral_add ieZ (iZ.smul_const e'), integral_smul, integral_smul_const, mZ, mZ']
    have : ∀ j, ∫ w, (Firsts p j).indicator (fun _ => (1 : ℝ)) w.1 • A j w.2 ∂ρ.prod ρ = P j • ∫ v, A j v ∂ρ := by
      intro j
      rw [← mI j]
      exact integral_prod_smul _ _
    simp only [this, mA, probReal_univ, one_smul]
    rw [Finset.smul_sum, Finset.sum_smul, ← Finset.sum_add_distrib, ← Finset.sum_add_distrib]
    refine Finset.sum_congr rfl (fun j _ => ?_)
    have hPP : P j • ((P j)⁻¹ • P' j) = P' j := by rw [smul_smul, mul_inv_cancel₀ (hP0 j), one_smul]
    generalize (P j)⁻¹ • P' j = Q at hPP ⊢
    rw [← hPP]
    module
  refine ⟨key.mono fun w hw => hw.differentiableAt, iAll.congr (key.mono fun w hw => hw.fderiv.symm), ?_⟩
  rw [total]
  exact HasFDerivAt.fun_sum (fun j _ => (dP j).mul (h.cost j).hasFDerivAt)

end

end Storch
