import Verif.Lemmas.RebarRunLemmas
import Verif.Props.RelaxBiasProps

/-!
# C88: REBAR is unbiased
-/

namespace Storch
open Gumbel MeasureTheory Topology

section
variable {E : Type _} [NormedAddCommGroup E] [NormedSpace ℝ E] {θ₀ : E} {m K : Nat}

/-- The random numbers of the conditional samples, by position in a tensor with one row per sample. -/
def rowNoise {n : Nat} (w : Fin n → Fin m → Fin K → ℝ) (pos : List Nat) : Fin K → ℝ :=
  drawsOf w (pos.headD 0) (pos.getLastD 0)

/-- C88 under the conditions for differentiating under the expectation: `x = RELAX(name, n, c_phi, rebar=True)` on
`OneHotCategorical(p)` with `m` independent variables of `K` outcomes and `add_cost(f(x))`.  For all random numbers the
surrogate loss can be computed and evaluates to the average cost of the hard samples alone, although the plate has `3 * n`
rows; for almost all it is differentiable; and the expectation of its gradient is the derivative of the expected cost, for
every control network that gives one number per sample, every factor `eta` and every temperature. -/
theorem C88_regular {hook : UnwrapHook (AD E θ₀)} (hh : PlainHook hook) {inv : Nat → AD E θ₀}
    (hinv : ∀ k, inv k = AD.const (1 / (k : ℝ))) {d : RelaxVar E m K} {am : (Fin K → ℝ) → Fin K}
    {f : E → (Fin m → Fin K → ℝ) → ℝ} (hK : 0 < K) (ham : ∀ (s : Fin K → ℝ) i, s i ≤ s (am s))
    (h : RelaxVar.Smooth { d with net := fun θ x => d.net θ x + f θ x } am f θ₀) (name : String) {n : Nat} (hn : 1 ≤ n)
    {cPhi : Ten (AD E θ₀) → Except Err (Ten (AD E θ₀))}
    (hφ : PerSample cPhi [n] [m, K] (fun x θ => d.net θ (fun r i => x [r.val, i.val] θ))) :
    ∃ L : (Fin n → (Fin m → Fin K → ℝ) × (Fin m → Fin K → ℝ)) → STen (AD E θ₀),
      (∀ w, rebarProgram hook inv 0 am d cPhi f name n (drawsOf fun k => (w k).1) (rowNoise fun k => (w k).2) =
          .ok (L w) ∧ (L w).plates = [] ∧ (L w).ten.shape = [] ∧
        (L w).ten.get [] θ₀ = 1 / (n : ℝ) * ∑ k, f θ₀ (fun r i =>
          if i = am (relaxedCategorical 0 (d.temp θ₀) (d.prob θ₀ r) ((w k).1 r)) then 1 else 0)) ∧
      (∀ᵐ w ∂(Measure.pi fun _ : Fin n => (rows m K).prod (rows m K)), DifferentiableAt ℝ ((L w).ten.get []) θ₀) ∧
      Integrable (fun w => fderiv ℝ ((L w).ten.get []) θ₀) (Measure.pi fun _ : Fin n => (rows m K).prod (rows m K)) ∧
      HasFDerivAt (fun θ => ∑ j : Fin m → Fin K, (∏ r : Fin m, d.prob θ r (j r)) * f θ (fun r i => if i = j r then 1 else 0))
        (∫ w, fderiv ℝ ((L w).ten.get []) θ₀ ∂(Measure.pi fun _ : Fin n => (rows m K).prod (rows m K))) θ₀ := by
  choose L L1 L2 L3 L4 using fun w : Fin n → (Fin m → Fin K → ℝ) × (Fin m → Fin K → ℝ) =>
    rebarProgram_run (θ₀ := θ₀) hh hinv 0 am d f name hn hφ (drawsOf fun k => (w k).1) (drawsOf fun k => (w k).2)
  set T : (Fin m → Fin K → ℝ) × (Fin m → Fin K → ℝ) → E → ℝ := fun w θ =>
    (d.addCost f).term am 0 θ₀ f (extRows w.1) (extRows w.2) θ with hT
  have hL : ∀ w, (L w).ten.get [] = fun θ => ∑ k : Fin n, 1 / (n : ℝ) * T (w k) θ := by
    intro w
    funext θ
    rw [L4, relaxLoss, Finset.sum_range]
    refine Finset.sum_congr rfl (fun k _ => ?_)
    rw [drawsOf_fin, drawsOf_fin]
  obtain ⟨t1, t2, t3⟩ := term_mean hK ham (d := d.addCost f) h
  have hae : ∀ᵐ w ∂(Measure.pi fun _ : Fin n => (rows m K).prod (rows m K)), ∀ k, DifferentiableAt ℝ (T (w k)) θ₀ := by
    rw [ae_all_iff]
    intro k
    exact (measurePreserving_eval (fun _ : Fin n => (rows m K).prod (rows m K)) k).quasiMeasurePreserving.ae t1
  have hder : ∀ᵐ w ∂(Measure.pi fun _ : Fin n => (rows m K).prod (rows m K)), HasFDerivAt ((L w).ten.get [])
      (∑ k : Fin n, (1 / (n : ℝ)) • fderiv ℝ (T (w k)) θ₀) θ₀ := by
    filter_upwards [hae] with w hw
    rw [hL]
    exact HasFDerivAt.fun_sum (fun k _ => (hw k).hasFDerivAt.const_mul _)
  have hg : (fun w => fderiv ℝ ((L w).ten.get []) θ₀) =ᵐ[Measure.pi fun _ : Fin n => (rows m K).prod (rows m K)]
      fun w => ∑ k : Fin n, (1 / (n : ℝ)) • fderiv ℝ (T (w k)) θ₀ := hder.mono fun w hw => hw.fderiv
  obtain ⟨a1, a2⟩ := average_integral_gen (μ := (rows m K).prod (rows m K)) hn t2
  refine ⟨L, fun w => ⟨L1 w, L2 w, L3 w, ?_⟩, hder.mono fun w hw => hw.differentiableAt, a1.congr hg.symm, ?_⟩
  · rw [hL, Finset.mul_sum]
    refine Finset.sum_congr rfl (fun k _ => ?_)
    congr 1
    have hfin : ∀ lp eta z zt c : AD E θ₀, (boxElt lp * (relaxCv eta lp z zt + c)) θ₀ = c θ₀ := by
      intro lp eta z zt c
      rw [AD.mul_apply, AD.add_apply, boxElt_val, relaxCv_val, one_mul, zero_add]
    refine (hfin _ _ _ _ _).trans ?_
    show f θ₀ (d.hardAt am 0 θ₀ (extRows (w k).1)) = _
    congr 1
    funext r i
    rw [RelaxVar.hardAt, RelaxVar.zAt, extRows_fin, discretizeRow]
  · rw [integral_congr_ae hg, a2]
    exact t3

/-- C88: REBAR, and RELAX with `rebar=True`, are unbiased for continuously differentiable probabilities, temperature, control
network and cost (all may depend on the parameters). -/
theorem C88_relax {hook : UnwrapHook (AD E θ₀)} (hh : PlainHook hook) {inv : Nat → AD E θ₀}
    (hinv : ∀ k, inv k = AD.const (1 / (k : ℝ))) {d : RelaxVar E m K} {am : (Fin K → ℝ) → Fin K}
    {f : E → (Fin m → Fin K → ℝ) → ℝ} (hK : 0 < K) (ham : ∀ (s : Fin K → ℝ) i, s i ≤ s (am s))
    (hgood : ∀ᶠ θ in 𝓝 θ₀, d.Good θ) (hp : ∀ (r : Fin m) i, ContDiffAt ℝ 1 (fun θ => d.prob θ r i) θ₀)
    (hT : ContDiffAt ℝ 1 d.temp θ₀) (heta : DifferentiableAt ℝ d.eta θ₀)
    (hf : ContDiff ℝ 1 (fun q : E × (Fin m → Fin K → ℝ) => f q.1 q.2))
    (hN : ContDiff ℝ 1 (fun q : E × (Fin m → Fin K → ℝ) => d.net q.1 q.2)) (name : String) {n : Nat} (hn : 1 ≤ n)
    {cPhi : Ten (AD E θ₀) → Except Err (Ten (AD E θ₀))}
    (hφ : PerSample cPhi [n] [m, K] (fun x θ => d.net θ (fun r i => x [r.val, i.val] θ))) :
    ∃ L : (Fin n → (Fin m → Fin K → ℝ) × (Fin m → Fin K → ℝ)) → STen (AD E θ₀),
      (∀ w, rebarProgram hook inv 0 am d cPhi f name n (drawsOf fun k => (w k).1) (rowNoise fun k => (w k).2) =
          .ok (L w) ∧ (L w).plates = [] ∧ (L w).ten.shape = [] ∧
        (L w).ten.get [] θ₀ = 1 / (n : ℝ) * ∑ k, f θ₀ (fun r i =>
          if i = am (relaxedCategorical 0 (d.temp θ₀) (d.prob θ₀ r) ((w k).1 r)) then 1 else 0)) ∧
      (∀ᵐ w ∂(Measure.pi fun _ : Fin n => (rows m K).prod (rows m K)), DifferentiableAt ℝ ((L w).ten.get []) θ₀) ∧
      Integrable (fun w => fderiv ℝ ((L w).ten.get []) θ₀) (Measure.pi fun _ : Fin n => (rows m K).prod (rows m K)) ∧
      HasFDerivAt (fun θ => ∑ j : Fin m → Fin K, (∏ r : Fin m, d.prob θ r (j r)) * f θ (fun r i => if i = j r then 1 else 0))
        (∫ w, fderiv ℝ ((L w).ten.get []) θ₀ ∂(Measure.pi fun _ : Fin n => (rows m K).prod (rows m K))) θ₀ := by
  refine C88_regular hh hinv hK ham (RelaxVar.smooth_of ham ?_ hp hT heta ?_ (hN.add hf)) name hn hφ
  · exact hgood.mono fun θ h => ⟨h.pos, h.sum, h.temp⟩
  · intro j
    have h1 : ContDiff ℝ 1 (fun θ : E => (θ, oneHots j)) := contDiff_id.prodMk contDiff_const
    exact ((hf.comp h1).differentiable (by norm_num)).differentiableAt

/-- C88: REBAR, which has no control network and whose plate has three rows for each sample, is unbiased. -/
theorem C88_unbiased {hook : UnwrapHook (AD E θ₀)} (hh : PlainHook hook) {inv : Nat → AD E θ₀}
    (hinv : ∀ k, inv k = AD.const (1 / (k : ℝ))) {prob : E → Nat → Fin K → ℝ} {temp eta : E → ℝ} {am : (Fin K → ℝ) → Fin K}
    {f : E → (Fin m → Fin K → ℝ) → ℝ} (hK : 0 < K) (ham : ∀ (s : Fin K → ℝ) i, s i ≤ s (am s))
    (hgood : ∀ᶠ θ in 𝓝 θ₀, (∀ (r : Fin m) i, 0 < prob θ r i) ∧ (∀ r : Fin m, ∑ i, prob θ r i = 1) ∧ 0 < temp θ)
    (hp : ∀ (r : Fin m) i, ContDiffAt ℝ 1 (fun θ => prob θ r i) θ₀)
    (hT : ContDiffAt ℝ 1 temp θ₀) (heta : DifferentiableAt ℝ eta θ₀)
    (hf : ContDiff ℝ 1 (fun q : E × (Fin m → Fin K → ℝ) => f q.1 q.2)) (name : String) {n : Nat} (hn : 1 ≤ n) :
    ∃ L : (Fin n → (Fin m → Fin K → ℝ) × (Fin m → Fin K → ℝ)) → STen (AD E θ₀),
      (∀ w, rebarProgram hook inv 0 am ⟨prob, temp, eta, fun _ _ => 0⟩ zeroControl f name n (drawsOf fun k => (w k).1)
          (rowNoise fun k => (w k).2) = .ok (L w) ∧ (L w).plates = [] ∧ (L w).ten.shape = [] ∧
        (L w).ten.get [] θ₀ = 1 / (n : ℝ) * ∑ k, f θ₀ (fun r i =>
          if i = am (relaxedCategorical 0 (temp θ₀) (prob θ₀ r) ((w k).1 r)) then 1 else 0)) ∧
      (∀ᵐ w ∂(Measure.pi fun _ : Fin n => (rows m K).prod (rows m K)), DifferentiableAt ℝ ((L w).ten.get []) θ₀) ∧
      Integrable (fun w => fderiv ℝ ((L w).ten.get []) θ₀) (Measure.pi fun _ : Fin n => (rows m K).prod (rows m K)) ∧
      HasFDerivAt (fun θ => ∑ j : Fin m → Fin K, (∏ r : Fin m, prob θ r (j r)) * f θ (fun r i => if i = j r then 1 else 0))
        (∫ w, fderiv ℝ ((L w).ten.get []) θ₀ ∂(Measure.pi fun _ : Fin n => (rows m K).prod (rows m K))) θ₀ :=
  C88_relax hh hinv (d := ⟨prob, temp, eta, fun _ _ => 0⟩) hK ham (hgood.mono fun _ h => ⟨h.1, h.2.1, h.2.2⟩) hp hT heta hf
    contDiff_const name hn (zero_control n)

end

/-- The network of `demoRelax` on a tensor with a row for each sample: one number for each. -/
noncomputable def demoNetTen {θ₀ : ℝ} (n : Nat) (z : Ten (AD ℝ θ₀)) : Except Err (Ten (AD ℝ θ₀)) :=
  .ok ⟨[n, 1, 1], fun idx θ => θ * z.get [idx.headD 0, 0, 0] θ + z.get [idx.headD 0, 1, 1] θ ^ 2⟩

/-- `demoNetTen` gives one number per sample. -/
theorem demoNetTen_ok {θ₀ : ℝ} {n : Nat} (hn : n ≠ 1) : PerSample (demoNetTen (θ₀ := θ₀) n) [n] [2, 2]
    (fun x θ => demoRelax.net θ (fun r i => x [r.val, i.val] θ)) := by
  refine ⟨fun z hz => ⟨_, rfl, ?_, ?_⟩, ?_⟩
  · simp [Fits, Ten.padL]
  · intro i hi
    obtain ⟨k, rfl⟩ := List.length_eq_one_iff.1 hi
    funext θ
    simp [demoRelax, Ten.ndim, Ten.bidx, hn]
  · intro f g h
    funext θ
    simp only [demoRelax]
    rw [h [(0 : Fin 2).val, (0 : Fin 2).val] (by simp [Ten.InB]), h [(1 : Fin 2).val, (1 : Fin 2).val] (by simp [Ten.InB])]

/-- The largest of two. -/
theorem demoArgmax (s : Fin 2 → ℝ) (i : Fin 2) : s i ≤ s (if s 1 ≤ s 0 then 0 else 1) := by
  by_cases h : s 1 ≤ s 0
  · simp only [h, if_true]
    fin_cases i
    · exact le_rfl
    · exact h
  · simp only [h, if_false]
    fin_cases i
    · exact (not_le.1 h).le
    · exact le_rfl

/-- The probabilities of `demoRelax` are continuously differentiable. -/
theorem demoRelax_smooth (θ₀ : ℝ) (r : Fin 2) (i : Fin 2) : ContDiffAt ℝ 1 (fun θ => demoRelax.prob θ r i) θ₀ := by
  have hs : ∀ θ : ℝ, 1 + Real.exp (-θ) ≠ 0 := fun θ => by positivity
  have hinv : ContDiff ℝ 1 (fun θ : ℝ => (1 + Real.exp (-θ))⁻¹) :=
    ContDiff.inv (contDiff_const.add (Real.contDiff_exp.comp contDiff_neg)) hs
  by_cases h : i = 0
  · simp only [demoRelax, h, if_true]; exact hinv.contDiffAt
  · simp only [demoRelax, h, if_false]; exact (contDiff_const.sub hinv).contDiffAt

/-- Entries of the samples are continuously differentiable functions. -/
theorem entry_smooth (r i : Fin 2) : ContDiff ℝ 1 (fun q : ℝ × (Fin 2 → Fin 2 → ℝ) => q.2 r i) :=
  contDiff_pi.1 (contDiff_pi.1 contDiff_snd r) i

/-- REBAR on the two variables of `demoRelax`, with the parameter times the product of the outcomes as cost. -/
example (θ₀ : ℝ) : ∃ L : (Fin 3 → (Fin 2 → Fin 2 → ℝ) × (Fin 2 → Fin 2 → ℝ)) → STen (AD ℝ θ₀),
    (∀ w, rebarProgram (fun _ a => .ok a : UnwrapHook (AD ℝ θ₀)) (fun k => AD.const (1 / (k : ℝ))) 0
      (fun s => if s 1 ≤ s 0 then 0 else 1) ⟨demoRelax.prob, demoRelax.temp, demoRelax.eta, fun _ _ => 0⟩ zeroControl
      (fun θ (x : Fin 2 → Fin 2 → ℝ) => θ * x 0 0 * x 1 0) "x" 3 (drawsOf fun k => (w k).1) (rowNoise fun k => (w k).2) = .ok (L w)) ∧
    HasFDerivAt (fun θ => ∑ j : Fin 2 → Fin 2, (∏ r : Fin 2, demoRelax.prob θ r (j r)) *
        (θ * (if (0 : Fin 2) = j 0 then 1 else 0) * (if (0 : Fin 2) = j 1 then 1 else 0)))
      (∫ w, fderiv ℝ ((L w).ten.get []) θ₀ ∂(Measure.pi fun _ : Fin 3 => (rows 2 2).prod (rows 2 2))) θ₀ := by
  obtain ⟨L, h1, -, -, h4⟩ := C88_unbiased (θ₀ := θ₀) (hook := fun _ a => .ok a) (fun _ _ _ => rfl)
    (fun _ => rfl) (prob := demoRelax.prob) (temp := demoRelax.temp) (eta := demoRelax.eta)
    (f := fun θ (x : Fin 2 → Fin 2 → ℝ) => θ * x 0 0 * x 1 0) (by norm_num) demoArgmax
    (.of_forall fun θ => ⟨(demoRelax_good θ).pos, (demoRelax_good θ).sum, (demoRelax_good θ).temp⟩)
    (demoRelax_smooth θ₀) Real.contDiff_exp.contDiffAt (by simp only [demoRelax]; fun_prop)
    ((contDiff_fst.mul (entry_smooth 0 0)).mul (entry_smooth 1 0)) "x" (n := 3) (by norm_num)
  exact ⟨L, fun w => (h1 w).1, h4⟩

/-- The same with RELAX, `rebar=True` and a control network. -/
example (θ₀ : ℝ) : ∃ L : (Fin 3 → (Fin 2 → Fin 2 → ℝ) × (Fin 2 → Fin 2 → ℝ)) → STen (AD ℝ θ₀),
    (∀ w, rebarProgram (fun _ a => .ok a : UnwrapHook (AD ℝ θ₀)) (fun k => AD.const (1 / (k : ℝ))) 0
      (fun s => if s 1 ≤ s 0 then 0 else 1) demoRelax (demoNetTen 3)
      (fun θ (x : Fin 2 → Fin 2 → ℝ) => θ * x 0 0 * x 1 0) "x" 3 (drawsOf fun k => (w k).1) (rowNoise fun k => (w k).2) = .ok (L w)) ∧
    HasFDerivAt (fun θ => ∑ j : Fin 2 → Fin 2, (∏ r : Fin 2, demoRelax.prob θ r (j r)) *
        (θ * (if (0 : Fin 2) = j 0 then 1 else 0) * (if (0 : Fin 2) = j 1 then 1 else 0)))
      (∫ w, fderiv ℝ ((L w).ten.get []) θ₀ ∂(Measure.pi fun _ : Fin 3 => (rows 2 2).prod (rows 2 2))) θ₀ := by
  obtain ⟨L, h1, -, -, h4⟩ := C88_relax (θ₀ := θ₀) (hook := fun _ a => .ok a) (fun _ _ _ => rfl) (fun _ => rfl)
    (d := demoRelax) (f := fun θ (x : Fin 2 → Fin 2 → ℝ) => θ * x 0 0 * x 1 0) (by norm_num) demoArgmax
    (.of_forall demoRelax_good) (demoRelax_smooth θ₀) Real.contDiff_exp.contDiffAt (by simp only [demoRelax]; fun_prop)
    ((contDiff_fst.mul (entry_smooth 0 0)).mul (entry_smooth 1 0))
    ((contDiff_fst.mul (entry_smooth 0 0)).add ((entry_smooth 1 1).pow 2)) "x" (n := 3) (by norm_num)
    (demoNetTen_ok (by norm_num))
  exact ⟨L, fun w => (h1 w).1, h4⟩

/-! ### Bernoulli variables -/

/-- What one Bernoulli sample adds to the surrogate loss with REBAR (relax.py:235-333 with `eta = 1`, temperature one): `u` and
`v` are the random numbers of the relaxed and of the conditional sample, the cost `f` is its own control variate. -/
noncomputable def rebarBernoulliTerm (eps : ℝ) (f : ℝ → ℝ) (θ₀ : ℝ) (u v : ℝ) : AD ℝ θ₀ :=
  let hard := discretizeElt (relaxedBernoulli eps 1 θ₀ u)
  let lp : AD ℝ θ₀ := fun θ => if hard = 1 then Real.log θ else Real.log (1 - θ)
  let eta : AD ℝ θ₀ := fun _ => 1
  let z : AD ℝ θ₀ := fun θ => f (relaxedBernoulli eps 1 θ u)
  let zt : AD ℝ θ₀ := fun θ => f (conditionalBernoulli eps 1 hard θ v)
  boxElt lp * (relaxCv eta lp z zt + AD.const (f hard))

/-- C88 fails for Bernoulli variables: there is a continuously differentiable cost for which the gradient is larger on
average than the derivative of the expected cost. -/
theorem C88_bernoulli_refuted {eps : ℝ} (h0 : 0 < eps) (h1 : eps < 1 / 4) : ∃ f : ℝ → ℝ, ContDiff ℝ 1 f ∧
    (∀ u v, DifferentiableAt ℝ (fun θ => rebarBernoulliTerm eps f (1 / 4) u v θ) (1 / 4)) ∧
    Integrable (fun w : ℝ × ℝ => deriv (fun θ => rebarBernoulliTerm eps f (1 / 4) w.1 w.2 θ) (1 / 4)) (unif.prod unif) ∧
    deriv (fun θ : ℝ => θ * f 1 + (1 - θ) * f 0) (1 / 4) <
      ∫ w : ℝ × ℝ, deriv (fun θ => rebarBernoulliTerm eps f (1 / 4) w.1 w.2 θ) (1 / 4) ∂unif.prod unif := by
  obtain ⟨b1, b2, b3⟩ := halfNet_bias h0 h1
  have hf0 : halfNet 0 = 0 := by norm_num [halfNet]
  have hf1 : halfNet 1 = 1 / 4 := by norm_num [halfNet]
  set s : ℝ → ℝ := fun u => if 3 / 4 < u then 1 else 0 with hs
  have hder : ∀ u v, HasDerivAt (fun θ => rebarBernoulliTerm eps halfNet (1 / 4) u v θ)
      (deriv (fun θ => bernoulliTerm eps halfNet (1 / 4) u v θ) (1 / 4) + s u) (1 / 4) := by
    intro u v
    have hgt : 1 / 2 < relaxedBernoulli eps 1 (1 / 4) u ↔ 3 / 4 < u := by
      rw [relaxedBernoulli_gt h0 h1 (by linarith) one_pos]; norm_num
    have hsplit : ∀ θ, rebarBernoulliTerm eps halfNet (1 / 4) u v θ = bernoulliTerm eps halfNet (1 / 4) u v θ +
        (if 3 / 4 < u then Real.exp (Real.log θ - Real.log (1 / 4)) * (1 / 4) else 0) := by
      intro θ
      simp only [rebarBernoulliTerm, bernoulliTerm, AD.mul_apply, AD.add_apply, mul_add]
      congr 1
      by_cases hu : 3 / 4 < u
      · rw [if_pos hu, discretizeElt, if_pos (hgt.2 hu)]
        simp only [if_true]
        show _ * halfNet 1 = _
        rw [hf1]
        rfl
      · rw [if_neg hu, discretizeElt, if_neg (fun h => hu (hgt.1 h))]
        show _ * halfNet 0 = _
        rw [hf0, mul_zero]
    rw [show (fun θ => rebarBernoulliTerm eps halfNet (1 / 4) u v θ) = fun θ => bernoulliTerm eps halfNet (1 / 4) u v θ +
      (if 3 / 4 < u then Real.exp (Real.log θ - Real.log (1 / 4)) * (1 / 4) else 0) from funext hsplit]
    refine (b1 u v).hasDerivAt.add ?_
    simp only [hs]
    by_cases hu : 3 / 4 < u
    · simp only [hu, if_true]
      have h4 : (1 / 4 : ℝ) ≠ 0 := by norm_num
      have := (((Real.hasDerivAt_log h4).sub_const (Real.log (1 / 4))).exp).mul_const (1 / 4 : ℝ)
      rw [sub_self, Real.exp_zero] at this
      refine this.congr_deriv ?_
      norm_num
    · simp only [hu, if_false]
      exact hasDerivAt_const _ _
  have hd : (fun w : ℝ × ℝ => deriv (fun θ => rebarBernoulliTerm eps halfNet (1 / 4) w.1 w.2 θ) (1 / 4)) =
      fun w => deriv (fun θ => bernoulliTerm eps halfNet (1 / 4) w.1 w.2 θ) (1 / 4) + s w.1 :=
    funext fun w => (hder w.1 w.2).deriv
  have hsi : s = Set.indicator (Set.Ioi (3 / 4)) (fun _ => 1) := by
    funext u
    simp [hs, Set.indicator_apply]
  have hint : Integrable s unif := by
    rw [hsi]
    exact (integrable_const 1).indicator measurableSet_Ioi
  have hsm : ∫ u, s u ∂unif = 1 / 4 := by
    rw [hsi, integral_indicator measurableSet_Ioi, setIntegral_const, smul_eq_mul, mul_one, measureReal_def, unif,
      Measure.restrict_apply measurableSet_Ioi]
    rw [show Set.Ioi (3 / 4 : ℝ) ∩ Set.Ioo 0 1 = Set.Ioo (3 / 4) 1 by
      ext u
      simp only [Set.mem_inter_iff, Set.mem_Ioi, Set.mem_Ioo]
      constructor
      · rintro ⟨a, b, c⟩; exact ⟨a, c⟩
      · rintro ⟨a, b⟩; exact ⟨a, by linarith, b⟩]
    rw [Real.volume_Ioo]
    norm_num
  refine ⟨halfNet, halfNet_smooth, fun u v => (hder u v).differentiableAt, ?_, ?_⟩
  · rw [hd]
    exact b2.add (hint.comp_fst _)
  · rw [hd, integral_add b2 (hint.comp_fst _), integral_fun_fst, probReal_univ, one_smul, hsm]
    have : deriv (fun θ : ℝ => θ * halfNet 1 + (1 - θ) * halfNet 0) (1 / 4) = 1 / 4 := by
      rw [hf0, hf1]
      have : HasDerivAt (fun θ : ℝ => θ * (1 / 4) + (1 - θ) * 0) (1 / 4) (1 / 4) := by
        have := (hasDerivAt_id (1 / 4 : ℝ)).mul_const (1 / 4 : ℝ)
        simpa using this
      exact this.deriv
    rw [this]
    linarith

/-- Machine precision. -/
example : ∃ f : ℝ → ℝ, ContDiff ℝ 1 f ∧ deriv (fun θ : ℝ => θ * f 1 + (1 - θ) * f 0) (1 / 4) <
    ∫ w : ℝ × ℝ, deriv (fun θ => rebarBernoulliTerm 1.2e-7 f (1 / 4) w.1 w.2 θ) (1 / 4) ∂unif.prod unif := by
  obtain ⟨f, a, -, -, b⟩ := C88_bernoulli_refuted (eps := 1.2e-7) (by norm_num) (by norm_num)
  exact ⟨f, a, b⟩

end Storch
