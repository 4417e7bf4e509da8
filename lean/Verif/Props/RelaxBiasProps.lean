import Verif.Lemmas.GumbelIntegrable

/-!
# C76: RELAX is unbiased
-/

namespace Storch
open Gumbel MeasureTheory Topology

section
variable {E : Type _} [NormedAddCommGroup E] [NormedSpace ℝ E] {θ₀ : E} {m K : Nat}

/-- The random numbers of the samples; those of samples that do not exist are not used. -/
def drawsOf {n : Nat} (w : Fin n → Fin m → Fin K → ℝ) (k : Nat) : Nat → Fin K → ℝ :=
  if h : k < n then extRows (w ⟨k, h⟩) else fun _ _ => 0

theorem drawsOf_fin {n : Nat} (w : Fin n → Fin m → Fin K → ℝ) (k : Fin n) : drawsOf w k.val = extRows (w k) := by
  simp [drawsOf]

/-- C76 under the conditions for differentiating under the expectation: `x = RELAX(name, n)(OneHotCategorical(p))` with `m`
independent variables of `K` outcomes and `add_cost(f(x))`.  For all random numbers the surrogate loss can be computed and
evaluates to the average cost of the discretized samples; for almost all it is differentiable; and the expectation of its
gradient is the derivative of the expected cost, for every control network, factor `eta` and temperature. -/
theorem C76_regular {hook : UnwrapHook (AD E θ₀)} (hh : PlainHook hook) {inv : Nat → AD E θ₀}
    (hinv : ∀ k, inv k = AD.const (1 / (k : ℝ))) {d : RelaxVar E m K} {am : (Fin K → ℝ) → Fin K}
    {f : E → (Fin m → Fin K → ℝ) → ℝ} (hK : 0 < K) (ham : ∀ (s : Fin K → ℝ) i, s i ≤ s (am s))
    (h : d.Smooth am f θ₀) (name : String) {n : Nat} (hn : 1 ≤ n) :
    ∃ L : (Fin n → (Fin m → Fin K → ℝ) × (Fin m → Fin K → ℝ)) → STen (AD E θ₀),
      (∀ w, relaxProgram hook inv 0 am d f name n (drawsOf fun k => (w k).1) (noiseAt n (drawsOf fun k => (w k).2)) =
          .ok (L w) ∧ (L w).plates = [] ∧ (L w).ten.shape = [] ∧
        (L w).ten.get [] θ₀ = 1 / (n : ℝ) * ∑ k, f θ₀ (fun r i =>
          if i = am (relaxedCategorical 0 (d.temp θ₀) (d.prob θ₀ r) ((w k).1 r)) then 1 else 0)) ∧
      (∀ᵐ w ∂(Measure.pi fun _ : Fin n => (rows m K).prod (rows m K)), DifferentiableAt ℝ ((L w).ten.get []) θ₀) ∧
      Integrable (fun w => fderiv ℝ ((L w).ten.get []) θ₀) (Measure.pi fun _ : Fin n => (rows m K).prod (rows m K)) ∧
      HasFDerivAt (fun θ => ∑ j : Fin m → Fin K, (∏ r : Fin m, d.prob θ r (j r)) * f θ (fun r i => if i = j r then 1 else 0))
        (∫ w, fderiv ℝ ((L w).ten.get []) θ₀ ∂(Measure.pi fun _ : Fin n => (rows m K).prod (rows m K))) θ₀ := by
  choose L L1 L2 L3 L4 using fun w : Fin n → (Fin m → Fin K → ℝ) × (Fin m → Fin K → ℝ) =>
    relaxProgram_run (θ₀ := θ₀) hh hinv 0 am d f name hn (drawsOf fun k => (w k).1) (drawsOf fun k => (w k).2)
  set T : (Fin m → Fin K → ℝ) × (Fin m → Fin K → ℝ) → E → ℝ := fun w θ =>
    d.term am 0 θ₀ f (extRows w.1) (extRows w.2) θ with hT
  have hL : ∀ w, (L w).ten.get [] = fun θ => ∑ k : Fin n, 1 / (n : ℝ) * T (w k) θ := by
    intro w
    funext θ
    rw [L4, relaxLoss, Finset.sum_range]
    refine Finset.sum_congr rfl (fun k _ => ?_)
    rw [drawsOf_fin, drawsOf_fin]
  obtain ⟨t1, t2, t3⟩ := term_mean hK ham h
  have hae : ∀ᵐ w ∂(Measure.pi fun _ : Fin n => (rows m K).prod (rows m K)), ∀ k, DifferentiableAt ℝ (T (w k)) θ₀ := by
    rw [ae_all_iff]
    intro k
    exact (measurePreserving_eval (fun _ : Fin n => (rows m K).prod (rows m K)) k).quasiMeasurePreserving.ae t1
  have hder : ∀ᵐ w ∂(Measure.pi fun _ : Fin n => (rows m K).prod (rows m K)), HasFDerivAt ((L w).ten.get [])
      (∑ k : Fin n, (1 / (n : ℝ)) • fderiv ℝ (T (w k)) θ₀) θ₀ := by
    filter_upwards [hae] with w hw
    rw [hL]
    exact HasFDerivAt.fun_sum (fun k _ => (hw k).hasFDerivAt.const_mul _)
  have hg : (fun w => fderiv ℝ ((L w).ten.get []) θ₀) =ᵐ[Measure.pi fun _ : Fin n => (rows m K).prod (rows m K)]
      fun w => ∑ k : Fin n, (1 / (n : ℝ)) • fderiv ℝ (T (w k)) θ₀ := hder.mono fun w hw => hw.fderiv
  obtain ⟨a1, a2⟩ := average_integral_gen (μ := (rows m K).prod (rows m K)) hn t2
  refine ⟨L, fun w => ⟨L1 w, L2 w, L3 w, ?_⟩, hder.mono fun w hw => hw.differentiableAt, a1.congr hg.symm, ?_⟩
  · rw [hL, Finset.mul_sum]
    refine Finset.sum_congr rfl (fun k _ => ?_)
    congr 1
    have hfin : ∀ lp eta z zt c : AD E θ₀, (boxElt lp * (relaxCv eta lp z zt + c)) θ₀ = c θ₀ := by
      intro lp eta z zt c
      rw [AD.mul_apply, AD.add_apply, boxElt_val, relaxCv_val, one_mul, zero_add]
    refine (hfin _ _ _ _ _).trans ?_
    show f θ₀ (d.hardAt am 0 θ₀ (extRows (w k).1)) = _
    congr 1
    funext r i
    rw [RelaxVar.hardAt, RelaxVar.zAt, extRows_fin, discretizeRow]
  · rw [integral_congr_ae hg, a2]
    exact t3

/-- C76: RELAX without rebar is unbiased, for continuously differentiable probabilities, temperature and control network
(the temperature and the control network may be trained). -/
theorem C76_unbiased {hook : UnwrapHook (AD E θ₀)} (hh : PlainHook hook) {inv : Nat → AD E θ₀}
    (hinv : ∀ k, inv k = AD.const (1 / (k : ℝ))) {d : RelaxVar E m K} {am : (Fin K → ℝ) → Fin K}
    {f : E → (Fin m → Fin K → ℝ) → ℝ} (hK : 0 < K) (ham : ∀ (s : Fin K → ℝ) i, s i ≤ s (am s))
    (hgood : ∀ᶠ θ in 𝓝 θ₀, d.Good θ) (hp : ∀ (r : Fin m) i, ContDiffAt ℝ 1 (fun θ => d.prob θ r i) θ₀)
    (hT : ContDiffAt ℝ 1 d.temp θ₀) (heta : DifferentiableAt ℝ d.eta θ₀)
    (hf : ∀ j : Fin m → Fin K, DifferentiableAt ℝ (fun θ => f θ (fun r i => if i = j r then 1 else 0)) θ₀)
    (hN : ContDiff ℝ 1 (fun q : E × (Fin m → Fin K → ℝ) => d.net q.1 q.2)) (name : String) {n : Nat} (hn : 1 ≤ n) :
    ∃ L : (Fin n → (Fin m → Fin K → ℝ) × (Fin m → Fin K → ℝ)) → STen (AD E θ₀),
      (∀ w, relaxProgram hook inv 0 am d f name n (drawsOf fun k => (w k).1) (noiseAt n (drawsOf fun k => (w k).2)) =
          .ok (L w) ∧ (L w).plates = [] ∧ (L w).ten.shape = [] ∧
        (L w).ten.get [] θ₀ = 1 / (n : ℝ) * ∑ k, f θ₀ (fun r i =>
          if i = am (relaxedCategorical 0 (d.temp θ₀) (d.prob θ₀ r) ((w k).1 r)) then 1 else 0)) ∧
      (∀ᵐ w ∂(Measure.pi fun _ : Fin n => (rows m K).prod (rows m K)), DifferentiableAt ℝ ((L w).ten.get []) θ₀) ∧
      Integrable (fun w => fderiv ℝ ((L w).ten.get []) θ₀) (Measure.pi fun _ : Fin n => (rows m K).prod (rows m K)) ∧
      HasFDerivAt (fun θ => ∑ j : Fin m → Fin K, (∏ r : Fin m, d.prob θ r (j r)) * f θ (fun r i => if i = j r then 1 else 0))
        (∫ w, fderiv ℝ ((L w).ten.get []) θ₀ ∂(Measure.pi fun _ : Fin n => (rows m K).prod (rows m K))) θ₀ :=
  C76_regular hh hinv hK ham (RelaxVar.smooth_of ham hgood hp hT heta hf hN) name hn

end

/-- Two binary variables with probability `sigmoid θ`; temperature, factor and control network are trained too. -/
noncomputable def demoRelax : RelaxVar ℝ 2 2 where
  prob := fun θ _ i => if i = 0 then (1 + Real.exp (-θ))⁻¹ else 1 - (1 + Real.exp (-θ))⁻¹
  temp := fun θ => Real.exp θ
  eta := fun θ => 1 + θ
  net := fun θ x => θ * x 0 0 + x 1 1 ^ 2

theorem demoRelax_good (θ : ℝ) : demoRelax.Good θ := by
  have h1 : 0 < Real.exp (-θ) := Real.exp_pos _
  have h2 : 0 < (1 + Real.exp (-θ))⁻¹ := by positivity
  have h3 : (1 + Real.exp (-θ))⁻¹ < 1 := inv_lt_one_of_one_lt₀ (by linarith)
  refine ⟨fun r i => ?_, fun r => ?_, Real.exp_pos _⟩
  · simp only [demoRelax]
    split
    · exact h2
    · linarith
  · simp [demoRelax, Fin.sum_univ_two]

/-- The two variables, with the product of the outcomes as cost. -/
example (θ₀ : ℝ) : ∃ L : (Fin 3 → (Fin 2 → Fin 2 → ℝ) × (Fin 2 → Fin 2 → ℝ)) → STen (AD ℝ θ₀),
    (∀ w, relaxProgram (fun _ a => .ok a : UnwrapHook (AD ℝ θ₀)) (fun k => AD.const (1 / (k : ℝ))) 0 (fun s => if s 1 ≤ s 0 then 0 else 1) demoRelax
      (fun θ x => θ * x 0 0 * x 1 0) "x" 3 (drawsOf fun k => (w k).1) (noiseAt 3 (drawsOf fun k => (w k).2)) = .ok (L w)) ∧
    HasFDerivAt (fun θ => ∑ j : Fin 2 → Fin 2, (∏ r : Fin 2, demoRelax.prob θ r (j r)) *
        (θ * (if (0 : Fin 2) = j 0 then 1 else 0) * (if (0 : Fin 2) = j 1 then 1 else 0)))
      (∫ w, fderiv ℝ ((L w).ten.get []) θ₀ ∂(Measure.pi fun _ : Fin 3 => (rows 2 2).prod (rows 2 2))) θ₀ := by
  have hs : ∀ θ : ℝ, 1 + Real.exp (-θ) ≠ 0 := fun θ => by positivity
  have hinv : ContDiff ℝ 1 (fun θ : ℝ => (1 + Real.exp (-θ))⁻¹) :=
    ContDiff.inv (contDiff_const.add (Real.contDiff_exp.comp contDiff_neg)) hs
  obtain ⟨L, h1, -, -, h4⟩ := C76_unbiased (θ₀ := θ₀) (hook := fun _ a => .ok a) (fun _ _ _ => rfl) (fun _ => rfl) (d := demoRelax)
    (am := fun s => if s 1 ≤ s 0 then 0 else 1) (f := fun θ x => θ * x 0 0 * x 1 0) (by norm_num)
    (by
      intro s i
      by_cases h : s 1 ≤ s 0
      · simp only [h, if_true]
        fin_cases i
        · exact le_rfl
        · exact h
      · simp only [h, if_false]
        fin_cases i
        · exact (not_le.1 h).le
        · exact le_rfl)
    (.of_forall demoRelax_good)
    (by
      intro r i
      by_cases h : i = 0
      · simp only [demoRelax, h, if_true]; exact hinv.contDiffAt
      · simp only [demoRelax, h, if_false]; exact (contDiff_const.sub hinv).contDiffAt)
    Real.contDiff_exp.contDiffAt (by simp only [demoRelax]; fun_prop) (by intro j; fun_prop)
    (by
      have hx : ∀ r i : Fin 2, ContDiff ℝ 1 (fun q : ℝ × (Fin 2 → Fin 2 → ℝ) => q.2 r i) := fun r i =>
        contDiff_pi.1 (contDiff_pi.1 contDiff_snd r) i
      exact (contDiff_fst.mul (hx 0 0)).add ((hx 1 1).pow 2)) "x" (n := 3) (by norm_num)
  exact ⟨L, fun w => (h1 w).1, h4⟩

/-! ### Bernoulli variables -/

/-- A control network that is zero below one half. -/
noncomputable def halfNet (x : ℝ) : ℝ := max (x - 1 / 2) 0 ^ 2

theorem halfNet_deriv (x : ℝ) : HasDerivAt halfNet (2 * max (x - 1 / 2) 0) x := by
  have hm : Filter.Tendsto (fun y : ℝ => max (y - 1 / 2) 0) (𝓝 x) (𝓝 (max (x - 1 / 2) 0)) := by
    have : Continuous (fun y : ℝ => max (y - 1 / 2) 0) := by fun_prop
    exact this.continuousAt
  rcases lt_trichotomy x (1 / 2) with h | h | h
  · have e : halfNet =ᶠ[𝓝 x] fun _ => 0 := by
      filter_upwards [Iio_mem_nhds h] with y hy
      rw [halfNet, max_eq_right (by linarith [Set.mem_Iio.1 hy])]; norm_num
    rw [max_eq_right (by linarith), mul_zero]
    exact (hasDerivAt_const x (0 : ℝ)).congr_of_eventuallyEq e
  · subst h
    rw [sub_self, max_self, mul_zero, hasDerivAt_iff_tendsto_slope_zero]
    have e : (fun t : ℝ => t⁻¹ • (halfNet (1 / 2 + t) - halfNet (1 / 2))) = fun t => max t 0 := by
      funext t
      simp only [halfNet, sub_self, max_self, add_sub_cancel_left, smul_eq_mul]
      rcases le_total t 0 with ht | ht
      · rw [max_eq_right ht]; norm_num
      · rw [max_eq_left ht]
        rcases eq_or_ne t 0 with rfl | h0
        · simp
        · field_simp; ring
    rw [e]
    have : Continuous (fun t : ℝ => max t 0) := by fun_prop
    have h0 := this.tendsto 0
    rw [max_self] at h0
    exact h0.mono_left nhdsWithin_le_nhds
  · have e : halfNet =ᶠ[𝓝 x] fun y => (y - 1 / 2) ^ 2 := by
      filter_upwards [Ioi_mem_nhds h] with y hy
      rw [halfNet, max_eq_left (by linarith [Set.mem_Ioi.1 hy])]
    rw [max_eq_left (by linarith)]
    refine HasDerivAt.congr_of_eventuallyEq ?_ e
    have h2 : HasDerivAt (fun y : ℝ => (y - 1 / 2) ^ 2) (((2 : ℕ) : ℝ) * (x - 1 / 2) ^ (2 - 1) * 1) x :=
      ((hasDerivAt_id x).sub_const (1 / 2)).pow 2
    exact h2.congr_deriv (by norm_num)

theorem halfNet_smooth : ContDiff ℝ 1 halfNet := by
  rw [contDiff_one_iff_deriv]
  refine ⟨fun x => (halfNet_deriv x).differentiableAt, ?_⟩
  rw [show deriv halfNet = fun x => 2 * max (x - 1 / 2) 0 from funext fun x => (halfNet_deriv x).deriv]
  fun_prop

theorem sigmoid_deriv (x : ℝ) : HasDerivAt sigmoid (sigmoid x * (1 - sigmoid x)) x := by
  have h1 : HasDerivAt (fun x : ℝ => 1 + Real.exp (-x)) (-Real.exp (-x)) x := by
    have := ((hasDerivAt_neg x).exp).const_add 1
    simpa using this
  have h0 : 1 + Real.exp (-x) ≠ 0 := by positivity
  have h2 := (hasDerivAt_const x (1 : ℝ)).div h1 h0
  refine h2.congr_deriv ?_
  rw [sigmoid]
  field_simp
  ring

/-- The derivative of the relaxed Bernoulli sample. -/
theorem relaxedBernoulli_deriv {eps : ℝ} (u : ℝ) {θ : ℝ} (h1 : eps < θ) (h2 : θ < 1 - eps) (h0 : 0 < eps) :
    HasDerivAt (fun θ => relaxedBernoulli eps 1 θ u)
      (relaxedBernoulli eps 1 θ u * (1 - relaxedBernoulli eps 1 θ u) * (1 / θ + 1 / (1 - θ))) θ := by
  set q := Real.log (clampProbs eps u) - log1p (-clampProbs eps u) with hq
  have hθ : 0 < θ := h0.trans h1
  have hθ1 : 0 < 1 - θ := by linarith
  have he : (fun θ => relaxedBernoulli eps 1 θ u) =ᶠ[𝓝 θ] fun θ => sigmoid (q + Real.log θ - Real.log (1 - θ)) := by
    filter_upwards [Ioo_mem_nhds h1 h2] with y hy
    rw [relaxedBernoulli]
    simp only [clamp_id hy.1.le hy.2.le, div_one, log1p, ← sub_eq_add_neg, hq]
  have hin : HasDerivAt (fun θ => q + Real.log θ - Real.log (1 - θ)) (1 / θ + 1 / (1 - θ)) θ := by
    have a := (Real.hasDerivAt_log hθ.ne').const_add q
    have b := ((hasDerivAt_id θ).const_sub 1).log hθ1.ne'
    have := a.sub b
    refine this.congr_deriv ?_
    simp only [id]
    rw [neg_div, sub_neg_eq_add, one_div, one_div]
  have hv : relaxedBernoulli eps 1 θ u = sigmoid (q + Real.log θ - Real.log (1 - θ)) := he.self_of_nhds
  rw [hv]
  exact ((sigmoid_deriv _).comp θ hin).congr_of_eventuallyEq he

/-- What one Bernoulli sample adds to the surrogate loss of a zero cost (relax.py:307-333 with `eta = 1`, temperature one):
`u` and `v` are the random numbers of the relaxed and of the conditional sample. -/
noncomputable def bernoulliTerm (eps : ℝ) (net : ℝ → ℝ) (θ₀ : ℝ) (u v : ℝ) : AD ℝ θ₀ :=
  let hard := discretizeElt (relaxedBernoulli eps 1 θ₀ u)
  let lp : AD ℝ θ₀ := fun θ => if hard = 1 then Real.log θ else Real.log (1 - θ)
  let eta : AD ℝ θ₀ := fun _ => 1
  let z : AD ℝ θ₀ := fun θ => net (relaxedBernoulli eps 1 θ u)
  let zt : AD ℝ θ₀ := fun θ => net (conditionalBernoulli eps 1 hard θ v)
  boxElt lp * relaxCv eta lp z zt

/-- With the control network `halfNet` the gradient of a cost that is zero is positive on average. -/
theorem halfNet_bias {eps : ℝ} (h0 : 0 < eps) (h1 : eps < 1 / 4) :
    (∀ u v, DifferentiableAt ℝ (fun θ => bernoulliTerm eps halfNet (1 / 4) u v θ) (1 / 4)) ∧
    Integrable (fun w : ℝ × ℝ => deriv (fun θ => bernoulliTerm eps halfNet (1 / 4) w.1 w.2 θ) (1 / 4)) (unif.prod unif) ∧
    0 < ∫ w : ℝ × ℝ, deriv (fun θ => bernoulliTerm eps halfNet (1 / 4) w.1 w.2 θ) (1 / 4) ∂unif.prod unif := by
  set z : ℝ → ℝ := fun u => relaxedBernoulli eps 1 (1 / 4) u with hz
  set g : ℝ → ℝ := fun u => 2 * max (z u - 1 / 2) 0 * (z u * (1 - z u) * (16 / 3)) with hg
  have hder : ∀ u v, HasDerivAt (fun θ => bernoulliTerm eps halfNet (1 / 4) u v θ) (g u) (1 / 4) := by
    intro u v
    set hard := discretizeElt (relaxedBernoulli eps 1 (1 / 4) u) with hhard
    have hh : hard = 0 ∨ hard = 1 := by rw [hhard, discretizeElt]; split <;> simp
    set lp : AD ℝ (1 / 4) := fun θ => if hard = 1 then Real.log θ else Real.log (1 - θ) with hlp
    have hlpd : DifferentiableAt ℝ (fun θ => lp θ) (1 / 4) := by
      simp only [hlp]
      by_cases h : hard = 1
      · simp only [h, if_true]; exact Real.differentiableAt_log (by norm_num)
      · simp only [h, if_false]
        exact (differentiableAt_const (1 : ℝ)).sub differentiableAt_id |>.log (by norm_num)
    have hb : HasDerivAt (fun θ => boxElt lp θ) (deriv (fun θ => lp θ) (1 / 4)) (1 / 4) := by
      have := (hlpd.hasDerivAt.sub_const (lp (1 / 4))).exp
      rw [sub_self, Real.exp_zero, one_mul] at this
      exact this
    have hzd : HasDerivAt (fun θ => halfNet (relaxedBernoulli eps 1 θ u)) (g u) (1 / 4) := by
      have a := relaxedBernoulli_deriv u h1 (show (1 / 4 : ℝ) < 1 - eps by linarith) h0
      refine ((halfNet_deriv _).comp (1 / 4 : ℝ) a).congr_deriv ?_
      simp only [hg, hz]
      ring
    have hzt : ∀ θ < (1 / 3 : ℝ), halfNet (conditionalBernoulli eps 1 hard θ v) = 0 := by
      intro θ hθ
      have : conditionalBernoulli eps 1 hard θ v < 1 / 2 := by
        rcases hh with h | h
        · rw [h]; exact C51_zero_partial h0 (by linarith) one_pos θ v
        · rw [h]; exact C51_refuted h0 (by linarith) one_pos hθ.le v
      rw [halfNet, max_eq_right (by linarith)]; norm_num
    set eta : AD ℝ (1 / 4) := fun _ => 1 with heta
    set ze : AD ℝ (1 / 4) := fun θ => halfNet (relaxedBernoulli eps 1 θ u) with hze
    set zt : AD ℝ (1 / 4) := fun θ => halfNet (conditionalBernoulli eps 1 hard θ v) with hzte
    have hcv : HasDerivAt (fun θ => relaxCv eta lp ze zt θ) (g u) (1 / 4) := by
      refine (hzd.sub_const (halfNet (relaxedBernoulli eps 1 (1 / 4) u))).congr_of_eventuallyEq ?_
      filter_upwards [Iio_mem_nhds (show (1 / 4 : ℝ) < 1 / 3 by norm_num)] with θ hθ
      have e1 : zt θ = 0 := hzt θ hθ
      have e2 : zt (1 / 4) = 0 := hzt (1 / 4) (by norm_num)
      rw [relaxCv_apply, e1, e2]
      simp only [heta, hze]
      ring
    have hprod : HasDerivAt (fun θ => boxElt lp θ * relaxCv eta lp ze zt θ) _ (1 / 4) := hb.mul hcv
    refine HasDerivAt.congr_deriv hprod ?_
    rw [relaxCv_val, boxElt_val]
    ring
  have hd : (fun w : ℝ × ℝ => deriv (fun θ => bernoulliTerm eps halfNet (1 / 4) w.1 w.2 θ) (1 / 4)) = fun w => g w.1 :=
    funext fun w => (hder w.1 w.2).deriv
  have hz01 : ∀ u, 0 < z u ∧ z u < 1 := by
    intro u
    simp only [hz, relaxedBernoulli, sigmoid]
    constructor
    · positivity
    · rw [div_lt_one (by positivity)]
      have := Real.exp_pos (-((Real.log (clampProbs eps u) - log1p (-clampProbs eps u) + Real.log (clampProbs eps (1 / 4)) -
        log1p (-clampProbs eps (1 / 4))) / 1))
      linarith
  have hg0 : ∀ u, 0 ≤ g u := fun u => by
    have := hz01 u
    have h3 : 0 ≤ 1 - z u := by linarith
    have h4 := this.1.le
    simp only [hg]
    positivity
  have hmz : Measurable z := by
    have hc : Measurable (fun u => clampProbs eps u) := by
      unfold clampProbs
      exact (measurable_id.max measurable_const).min measurable_const
    have hs : Measurable sigmoid := by
      unfold sigmoid
      fun_prop
    simp only [hz, relaxedBernoulli, log1p]
    exact hs.comp (((((Real.measurable_log.comp hc).sub (Real.measurable_log.comp (measurable_const.add hc.neg))).add_const _).sub_const
      _).div_const _)
  have hmg : Measurable g := by
    simp only [hg]
    exact (((hmz.sub_const _).max measurable_const).const_mul 2).mul ((hmz.mul (measurable_const.sub hmz)).mul_const _)
  have hgi : Integrable g unif := by
    refine Integrable.of_bound (C := 16) hmg.aestronglyMeasurable (.of_forall fun u => ?_)
    rw [Real.norm_of_nonneg (hg0 u)]
    obtain ⟨a, b⟩ := hz01 u
    have hm : max (z u - 1 / 2) 0 ≤ 1 := max_le (by linarith) (by norm_num)
    have hm0 : 0 ≤ max (z u - 1 / 2) 0 := le_max_right _ _
    have hq : z u * (1 - z u) ≤ 1 := by nlinarith
    have hq0 : 0 ≤ z u * (1 - z u) := mul_nonneg a.le (by linarith)
    simp only [hg]
    calc 2 * max (z u - 1 / 2) 0 * (z u * (1 - z u) * (16 / 3)) ≤ 2 * 1 * (1 * (16 / 3)) := by gcongr
      _ ≤ 16 := by norm_num
  refine ⟨fun u v => (hder u v).differentiableAt, ?_, ?_⟩
  · rw [hd]; exact hgi.comp_fst _
  · rw [hd, integral_fun_fst]
    rw [probReal_univ, one_smul, integral_pos_iff_support_of_nonneg hg0 hgi]
    have hsub : Set.Ioo (3 / 4 : ℝ) 1 ⊆ Function.support g ∩ Set.Ioo (0 : ℝ) 1 := by
      intro u hu
      refine ⟨?_, by linarith [hu.1], hu.2⟩
      have h2 : 1 / 2 < z u := (relaxedBernoulli_gt h0 h1 (by linarith) one_pos).2 (by linarith [hu.1])
      have h3 := hz01 u
      have h4 : 0 < 1 - z u := by linarith
      have h5 : 0 < max (z u - 1 / 2) 0 := lt_max_of_lt_left (by linarith)
      have h6 := h3.1
      have : 0 < g u := by simp only [hg]; positivity
      exact this.ne'
    rw [unif, Measure.restrict_apply' measurableSet_Ioo]
    refine lt_of_lt_of_le ?_ (measure_mono hsub)
    rw [Real.volume_Ioo]
    norm_num

/-- C76 fails for Bernoulli variables: because the conditional samples do not have the conditional law
(`C75_bernoulli_refuted`), there is a continuously differentiable control network for which the gradient of a cost that is
zero is positive on average. -/
theorem C76_bernoulli_refuted {eps : ℝ} (h0 : 0 < eps) (h1 : eps < 1 / 4) : ∃ net : ℝ → ℝ, ContDiff ℝ 1 net ∧
    (∀ u v, DifferentiableAt ℝ (fun θ => bernoulliTerm eps net (1 / 4) u v θ) (1 / 4)) ∧
    Integrable (fun w : ℝ × ℝ => deriv (fun θ => bernoulliTerm eps net (1 / 4) w.1 w.2 θ) (1 / 4)) (unif.prod unif) ∧
    0 < ∫ w : ℝ × ℝ, deriv (fun θ => bernoulliTerm eps net (1 / 4) w.1 w.2 θ) (1 / 4) ∂unif.prod unif :=
  ⟨halfNet, halfNet_smooth, halfNet_bias h0 h1⟩

/-- Machine precision. -/
example : ∃ net : ℝ → ℝ, ContDiff ℝ 1 net ∧
    0 < ∫ w : ℝ × ℝ, deriv (fun θ => bernoulliTerm 1.2e-7 net (1 / 4) w.1 w.2 θ) (1 / 4) ∂unif.prod unif := by
  obtain ⟨net, a, -, -, b⟩ := C76_bernoulli_refuted (eps := 1.2e-7) (by norm_num) (by norm_num)
  exact ⟨net, a, b⟩

end Storch
