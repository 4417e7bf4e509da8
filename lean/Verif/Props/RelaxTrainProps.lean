import Verif.Props.RelaxBiasProps

/-!
# C82: what the control variate of RELAX is trained on

`RELAX.update_parameters` (relax.py:335-362) differentiates the recorded gradient with respect to the control
parameters.  The recorded gradient was computed with `create_graph=True` from a surrogate loss that contains detached
values (relax.py:331-332) and magic boxes (inference.py:192), so what torch differentiates is the gradient of that fixed
surrogate loss, as a function of the control parameters.
-/

namespace Storch
open Gumbel Topology

section
variable {E : Type _} [NormedAddCommGroup E] [NormedSpace ℝ E] {m K : Nat}

/-! ### Specification -/

/-- The control network at the relaxed sample, times `eta`. -/
noncomputable def RelaxVar.ctlAt (d : RelaxVar E m K) (eps : ℝ) (u : Nat → Fin K → ℝ) (θ : E) : ℝ :=
  d.eta θ * d.net θ (d.zAt eps u θ)

/-- The control network at the conditional sample for the hard sample `h`, times `eta`. -/
noncomputable def RelaxVar.ctlTildeAt (d : RelaxVar E m K) (am : (Fin K → ℝ) → Fin K) (eps : ℝ) (h : Fin m → Fin K → ℝ)
    (v : Nat → Fin K → ℝ) (θ : E) : ℝ :=
  d.eta θ * d.net θ (d.ztAt am eps h v θ)

/-- Moving in direction `dv` changes control parameters only: neither the probabilities nor the costs depend on it. -/
structure ControlDir (d : RelaxVar E m K) (f : E → (Fin m → Fin K → ℝ) → ℝ) (dv : E) : Prop where
  prob : ∀ θ (t : ℝ), d.prob (θ + t • dv) = d.prob θ
  cost : ∀ θ (t : ℝ), f (θ + t • dv) = f θ

/-- All that the surrogate loss is made of can be differentiated at `θ`, for the hard samples taken at `θ₀`. -/
structure SmoothAt (d : RelaxVar E m K) (am : (Fin K → ℝ) → Fin K) (eps : ℝ) (f : E → (Fin m → Fin K → ℝ) → ℝ)
    (n : Nat) (u v : Nat → Nat → Fin K → ℝ) (θ₀ θ : E) : Prop where
  prob : ∀ k < n, DifferentiableAt ℝ (d.lpAt am eps (d.hardAt am eps θ₀ (u k))) θ
  ctl : ∀ k < n, DifferentiableAt ℝ (d.ctlAt eps (u k)) θ
  tilde : ∀ k < n, DifferentiableAt ℝ (d.ctlTildeAt am eps (d.hardAt am eps θ₀ (u k)) (v k)) θ
  cost : ∀ k < n, DifferentiableAt ℝ (fun θ => f θ (d.hardAt am eps θ₀ (u k))) θ

/-! ### Lemmas -/

/-- One sample's part of the surrogate loss, with the detached values as numbers. -/
noncomputable def boxedTerm (l₁ a₁ b₁ : ℝ) (l a b c : E → ℝ) (θ : E) : ℝ :=
  Real.exp (l θ - l₁) * ((a θ - a₁ - b θ + (2 - Real.exp (l θ - l₁)) * b₁) + c θ)

omit [NormedAddCommGroup E] [NormedSpace ℝ E] in
theorem term_boxed (d : RelaxVar E m K) (am : (Fin K → ℝ) → Fin K) (eps : ℝ) (θ₀ : E)
    (f : E → (Fin m → Fin K → ℝ) → ℝ) (u v : Nat → Fin K → ℝ) {h : Fin m → Fin K → ℝ} (hh : d.hardAt am eps θ₀ u = h)
    (θ : E) :
    d.term am eps θ₀ f u v θ = boxedTerm (d.lpAt am eps h θ₀) (d.ctlAt eps u θ₀) (d.ctlTildeAt am eps h v θ₀)
      (d.lpAt am eps h) (d.ctlAt eps u) (d.ctlTildeAt am eps h v) (fun θ => f θ h) θ := by
  subst hh
  rfl

theorem boxedTerm_deriv {l₁ a₁ b₁ : ℝ} {l a b c : E → ℝ} {θ : E} (hl : DifferentiableAt ℝ l θ)
    (ha : DifferentiableAt ℝ a θ) (hb : DifferentiableAt ℝ b θ) (hc : DifferentiableAt ℝ c θ) (h0 : l θ = l₁) :
    HasFDerivAt (boxedTerm l₁ a₁ b₁ l a b c)
      ((a θ - a₁ - b θ + c θ) • fderiv ℝ l θ + fderiv ℝ a θ - fderiv ℝ b θ + fderiv ℝ c θ) θ := by
  have hx : HasFDerivAt (fun θ => Real.exp (l θ - l₁)) (fderiv ℝ l θ) θ := by
    have := (hl.hasFDerivAt.sub_const l₁).exp
    rwa [h0, sub_self, Real.exp_zero, one_smul] at this
  have h1 := ((ha.hasFDerivAt.sub_const a₁).sub hb.hasFDerivAt).add ((hx.const_sub 2).mul_const b₁)
  have h2 := hx.mul (h1.add hc.hasFDerivAt)
  refine h2.congr_fderiv ?_
  ext y
  simp only [h0, sub_self, Real.exp_zero, _root_.add_apply, _root_.sub_apply,
    _root_.smul_apply, _root_.neg_apply, smul_eq_mul, one_mul, Pi.add_apply, Pi.sub_apply]
  ring

theorem fderiv_translate {g : E → ℝ} {dv : E} (h : ∀ θ (t : ℝ), g (θ + t • dv) = g θ) (θ : E) (t : ℝ) :
    fderiv ℝ g (θ + t • dv) = fderiv ℝ g θ := by
  rw [← fderiv_comp_add_right]
  congr 1
  exact funext fun θ => h θ t

end

section
variable {E : Type _} [NormedAddCommGroup E] [NormedSpace ℝ E] {m K : Nat}

/-- C82, what is true: move the control parameters by `t` in a direction `dv` that changes neither probabilities nor
costs, and (as is the case for almost all random numbers) no hard sample.  The gradient in direction `du` of the surrogate
loss that was computed at `θ₀`, taken at the new control parameters (this is what torch differentiates to train the
control variate), is the gradient that the program records when it is run at the new control parameters, plus the
average over the samples of the derivative of the log-probability times the change of `eta c(z)`.  So C82 holds in the
directions in which the control network at the relaxed samples does not change; it is false in others (`C82_refuted`). -/
theorem C82_partial {θ₀ dv : E} {t : ℝ} {hook₀ : UnwrapHook (AD E θ₀)} (hh₀ : PlainHook hook₀)
    {hook : UnwrapHook (AD E (θ₀ + t • dv))} (hh : PlainHook hook) {inv₀ : Nat → AD E θ₀}
    (hinv₀ : ∀ k, inv₀ k = AD.const (1 / (k : ℝ))) {inv : Nat → AD E (θ₀ + t • dv)}
    (hinv : ∀ k, inv k = AD.const (1 / (k : ℝ))) {d : RelaxVar E m K} {f : E → (Fin m → Fin K → ℝ) → ℝ}
    (hv : ControlDir d f dv) {am : (Fin K → ℝ) → Fin K} {eps : ℝ} (name : String) {n : Nat} (hn : 1 ≤ n)
    (u v : Nat → Nat → Fin K → ℝ)
    (hhard : ∀ k < n, d.hardAt am eps (θ₀ + t • dv) (u k) = d.hardAt am eps θ₀ (u k))
    (hs : SmoothAt d am eps f n u v θ₀ (θ₀ + t • dv)) :
    ∃ (L₀ : STen (AD E θ₀)) (L : STen (AD E (θ₀ + t • dv))),
      relaxProgram hook₀ inv₀ eps am d f name n u (noiseAt n v) = .ok L₀ ∧
      relaxProgram hook inv eps am d f name n u (noiseAt n v) = .ok L ∧
      ∀ du, fderiv ℝ (fun θ => L₀.ten.get [] θ) (θ₀ + t • dv) du =
        fderiv ℝ (fun θ => L.ten.get [] θ) (θ₀ + t • dv) du +
          ∑ k ∈ Finset.range n, 1 / (n : ℝ) * (fderiv ℝ (d.lpAt am eps (d.hardAt am eps θ₀ (u k))) θ₀ du *
            (d.ctlAt eps (u k) (θ₀ + t • dv) - d.ctlAt eps (u k) θ₀)) := by
  obtain ⟨L₀, l1, -, -, l4⟩ := relaxProgram_run (θ₀ := θ₀) hh₀ hinv₀ eps am d f name hn u v
  obtain ⟨L, k1, -, -, k4⟩ := relaxProgram_run (θ₀ := θ₀ + t • dv) hh hinv eps am d f name hn u v
  refine ⟨L₀, L, l1, k1, ?_⟩
  intro du
  have hl : ∀ (h : Fin m → Fin K → ℝ) θ (t : ℝ), d.lpAt am eps h (θ + t • dv) = d.lpAt am eps h θ := by
    intro h θ t
    simp only [RelaxVar.lpAt, hv.prob]
  have e₀ : (fun θ => L₀.ten.get [] θ) = fun θ => ∑ k ∈ Finset.range n, 1 / (n : ℝ) *
      boxedTerm (d.lpAt am eps (d.hardAt am eps θ₀ (u k)) θ₀) (d.ctlAt eps (u k) θ₀)
        (d.ctlTildeAt am eps (d.hardAt am eps θ₀ (u k)) (v k) θ₀) (d.lpAt am eps (d.hardAt am eps θ₀ (u k)))
        (d.ctlAt eps (u k)) (d.ctlTildeAt am eps (d.hardAt am eps θ₀ (u k)) (v k))
        (fun θ => f θ (d.hardAt am eps θ₀ (u k))) θ := by
    funext θ
    rw [l4, relaxLoss]
    exact Finset.sum_congr rfl fun k _ => by rw [term_boxed d am eps θ₀ f (u k) (v k) rfl θ]
  have e₁ : (fun θ => L.ten.get [] θ) = fun θ => ∑ k ∈ Finset.range n, 1 / (n : ℝ) *
      boxedTerm (d.lpAt am eps (d.hardAt am eps θ₀ (u k)) (θ₀ + t • dv)) (d.ctlAt eps (u k) (θ₀ + t • dv))
        (d.ctlTildeAt am eps (d.hardAt am eps θ₀ (u k)) (v k) (θ₀ + t • dv)) (d.lpAt am eps (d.hardAt am eps θ₀ (u k)))
        (d.ctlAt eps (u k)) (d.ctlTildeAt am eps (d.hardAt am eps θ₀ (u k)) (v k))
        (fun θ => f θ (d.hardAt am eps θ₀ (u k))) θ := by
    funext θ
    rw [k4, relaxLoss]
    exact Finset.sum_congr rfl fun k hk => by
      rw [term_boxed d am eps (θ₀ + t • dv) f (u k) (v k) (hhard k (Finset.mem_range.1 hk)) θ]
  have hder : ∀ k ∈ Finset.range n, ∀ l₁ a₁ b₁, d.lpAt am eps (d.hardAt am eps θ₀ (u k)) (θ₀ + t • dv) = l₁ → _ :=
    fun k hk l₁ a₁ b₁ h0 => boxedTerm_deriv (a₁ := a₁) (b₁ := b₁) (hs.prob k (Finset.mem_range.1 hk))
      (hs.ctl k (Finset.mem_range.1 hk)) (hs.tilde k (Finset.mem_range.1 hk)) (hs.cost k (Finset.mem_range.1 hk)) h0
  rw [e₀, e₁,
    (HasFDerivAt.fun_sum fun k hk => (hder k hk _ (d.ctlAt eps (u k) θ₀)
      (d.ctlTildeAt am eps (d.hardAt am eps θ₀ (u k)) (v k) θ₀) (hl _ θ₀ t)).const_mul (1 / (n : ℝ))).fderiv,
    (HasFDerivAt.fun_sum fun k hk => (hder k hk _ (d.ctlAt eps (u k) (θ₀ + t • dv))
      (d.ctlTildeAt am eps (d.hardAt am eps θ₀ (u k)) (v k) (θ₀ + t • dv)) rfl).const_mul (1 / (n : ℝ))).fderiv]
  simp only [_root_.sum_apply, _root_.smul_apply, smul_eq_mul]
  rw [← Finset.sum_add_distrib]
  refine Finset.sum_congr rfl fun k _ => ?_
  simp only [_root_.add_apply, _root_.sub_apply, _root_.smul_apply, smul_eq_mul]
  rw [fderiv_translate (hl (d.hardAt am eps θ₀ (u k)))]
  ring

/-- C82 is false for every additive bias of the control network: moving along `dv` adds `t` to the control network and
changes nothing else.  The gradient that the program records changes by `t` times `eta` times the average derivative of the
log-probability, but what torch differentiates does not depend on `t` at all, so that the bias is never trained. -/
theorem C82_bias_refuted {θ₀ dv : E} {t : ℝ} {hook₀ : UnwrapHook (AD E θ₀)} (hh₀ : PlainHook hook₀)
    {hook : UnwrapHook (AD E (θ₀ + t • dv))} (hh : PlainHook hook) {inv₀ : Nat → AD E θ₀}
    (hinv₀ : ∀ k, inv₀ k = AD.const (1 / (k : ℝ))) {inv : Nat → AD E (θ₀ + t • dv)}
    (hinv : ∀ k, inv k = AD.const (1 / (k : ℝ))) {d : RelaxVar E m K} {f : E → (Fin m → Fin K → ℝ) → ℝ}
    (hv : ControlDir d f dv) (hnet : ∀ θ (t : ℝ) x, d.net (θ + t • dv) x = d.net θ x + t)
    (heta : ∀ θ (t : ℝ), d.eta (θ + t • dv) = d.eta θ) (htemp : ∀ θ (t : ℝ), d.temp (θ + t • dv) = d.temp θ)
    {am : (Fin K → ℝ) → Fin K} {eps : ℝ} (name : String) {n : Nat} (hn : 1 ≤ n)
    (u v : Nat → Nat → Fin K → ℝ) (hs : SmoothAt d am eps f n u v θ₀ (θ₀ + t • dv)) :
    ∃ (L₀ : STen (AD E θ₀)) (L : STen (AD E (θ₀ + t • dv))),
      relaxProgram hook₀ inv₀ eps am d f name n u (noiseAt n v) = .ok L₀ ∧
      relaxProgram hook inv eps am d f name n u (noiseAt n v) = .ok L ∧
      (∀ (s : ℝ) du, fderiv ℝ (fun θ => L₀.ten.get [] θ) (θ₀ + s • dv) du = fderiv ℝ (fun θ => L₀.ten.get [] θ) θ₀ du) ∧
      ∀ du, fderiv ℝ (fun θ => L.ten.get [] θ) (θ₀ + t • dv) du = fderiv ℝ (fun θ => L₀.ten.get [] θ) θ₀ du -
        t * (d.eta θ₀ * ∑ k ∈ Finset.range n, 1 / (n : ℝ) *
          fderiv ℝ (d.lpAt am eps (d.hardAt am eps θ₀ (u k))) θ₀ du) := by
  have hz : ∀ u θ (t : ℝ), d.zAt eps u (θ + t • dv) = d.zAt eps u θ := by
    intro u θ t
    funext r
    rw [RelaxVar.zAt, RelaxVar.zAt, htemp, hv.prob]
  have hzt : ∀ h v θ (t : ℝ), d.ztAt am eps h v (θ + t • dv) = d.ztAt am eps h v θ := by
    intro h v θ t
    funext r
    rw [RelaxVar.ztAt, RelaxVar.ztAt, htemp, hv.prob]
  have hl : ∀ (h : Fin m → Fin K → ℝ) θ (t : ℝ), d.lpAt am eps h (θ + t • dv) = d.lpAt am eps h θ := by
    intro h θ t
    simp only [RelaxVar.lpAt, hv.prob]
  have hctl : ∀ u θ (t : ℝ), d.ctlAt eps u (θ + t • dv) = d.ctlAt eps u θ + t * d.eta θ := by
    intro u θ t
    rw [RelaxVar.ctlAt, RelaxVar.ctlAt, hz, hnet, heta]
    ring
  have htil : ∀ h v θ (t : ℝ), d.ctlTildeAt am eps h v (θ + t • dv) = d.ctlTildeAt am eps h v θ + t * d.eta θ := by
    intro h v θ t
    rw [RelaxVar.ctlTildeAt, RelaxVar.ctlTildeAt, hzt, hnet, heta]
    ring
  have hhard : ∀ k < n, d.hardAt am eps (θ₀ + t • dv) (u k) = d.hardAt am eps θ₀ (u k) := by
    intro k _
    funext r
    rw [RelaxVar.hardAt, RelaxVar.hardAt, hz]
  obtain ⟨L₀, L, a1, a2, a3⟩ := C82_partial hh₀ hh hinv₀ hinv hv name hn u v hhard hs
  have hinvar : ∀ (s : ℝ) du, fderiv ℝ (fun θ => L₀.ten.get [] θ) (θ₀ + s • dv) du =
      fderiv ℝ (fun θ => L₀.ten.get [] θ) θ₀ du := by
    intro s du
    obtain ⟨L₀', l1, -, -, l4⟩ := relaxProgram_run (θ₀ := θ₀) hh₀ hinv₀ eps am d f name hn u v
    have : L₀' = L₀ := by
      rw [a1] at l1
      injection l1 with l1
      exact l1.symm
    subst this
    rw [fderiv_translate (g := fun θ => L₀'.ten.get [] θ) (dv := dv)]
    intro θ t
    simp only [l4, relaxLoss]
    refine Finset.sum_congr rfl fun k _ => ?_
    rw [term_boxed d am eps θ₀ f (u k) (v k) rfl, term_boxed d am eps θ₀ f (u k) (v k) rfl]
    simp only [boxedTerm, hl, hctl, htil, hv.cost]
    ring
  refine ⟨L₀, L, a1, a2, hinvar, ?_⟩
  intro du
  have h := a3 du
  rw [hinvar t du] at h
  rw [h, Finset.mul_sum, Finset.mul_sum]
  simp only [hctl, add_sub_cancel_left]
  rw [show (∑ k ∈ Finset.range n, 1 / (n : ℝ) * (fderiv ℝ (d.lpAt am eps (d.hardAt am eps θ₀ (u k))) θ₀ du *
      (t * d.eta θ₀))) = ∑ k ∈ Finset.range n, t * (d.eta θ₀ * (1 / (n : ℝ) *
        fderiv ℝ (d.lpAt am eps (d.hardAt am eps θ₀ (u k))) θ₀ du)) from Finset.sum_congr rfl fun k _ => by ring]
  ring

end

/-! ### A case

One binary variable with probability `θ` and a control network that is a bias `φ`; the cost is one. -/

namespace RelaxTrainCase

/-- The variable. -/
noncomputable def var : RelaxVar (ℝ × ℝ) 1 2 where
  prob := fun θ _ i => if i = 0 then θ.1 else 1 - θ.1
  temp := fun _ => 1
  eta := fun _ => 1
  net := fun θ _ => θ.2

theorem dir : ControlDir var (fun _ _ => 1) (0, 1) :=
  ⟨fun θ t => by funext r i; simp [var], fun _ _ => rfl⟩

theorem lp_eq (am : (Fin 2 → ℝ) → Fin 2) (h : Fin 1 → Fin 2 → ℝ) : var.lpAt am 0 h =
    fun θ => Real.log (clampProbs 0 (if am (h 0) = 0 then θ.1 else 1 - θ.1)) := by
  funext θ
  simp [RelaxVar.lpAt, var]

/-- The derivative of the log-probability of the outcome: 2 or -2. -/
def score (j : Fin 2) : ℝ := if j = 0 then 2 else -2

theorem lp_deriv (am : (Fin 2 → ℝ) → Fin 2) (h : Fin 1 → Fin 2 → ℝ) {θ : ℝ × ℝ} (hθ : θ.1 = 1 / 2) :
    HasFDerivAt (var.lpAt am 0 h) (score (am (h 0)) • ContinuousLinearMap.fst ℝ ℝ ℝ) θ := by
  have hfst : HasFDerivAt (fun q : ℝ × ℝ => q.1) (ContinuousLinearMap.fst ℝ ℝ ℝ) θ := hasFDerivAt_fst
  have hnear : ∀ᶠ q : ℝ × ℝ in 𝓝 θ, 0 < q.1 ∧ q.1 < 1 := by
    have h1 : Continuous (fun q : ℝ × ℝ => q.1) := continuous_fst
    exact ((isOpen_Ioo (a := (0 : ℝ)) (b := 1)).preimage h1).mem_nhds (by
      show θ.1 ∈ Set.Ioo (0 : ℝ) 1
      rw [hθ]; norm_num)
  rw [lp_eq]
  by_cases hj : am (h 0) = 0
  · simp only [hj, if_true, score]
    have hd := hfst.log (by rw [hθ]; norm_num)
    rw [hθ] at hd
    refine (hd.congr_of_eventuallyEq ?_).congr_fderiv (by norm_num)
    filter_upwards [hnear] with q hq
    rw [clampProbs]
    simp [hq.1.le, hq.2.le]
  · simp only [hj, if_false, score]
    have hd := (hfst.const_sub 1).log (by rw [hθ]; norm_num)
    rw [hθ] at hd
    refine (hd.congr_of_eventuallyEq ?_).congr_fderiv ?_
    · filter_upwards [hnear] with q hq
      rw [clampProbs]
      simp [hq.1.le, hq.2.le]
    · ext <;> norm_num

theorem smooth (am : (Fin 2 → ℝ) → Fin 2) (n : Nat) (u v : Nat → Nat → Fin 2 → ℝ) (θ₀ : ℝ × ℝ) {θ : ℝ × ℝ}
    (hθ : θ.1 = 1 / 2) : SmoothAt var am 0 (fun _ _ => 1) n u v θ₀ θ where
  prob := fun k _ => (lp_deriv am _ hθ).differentiableAt
  ctl := fun k _ => by
    show DifferentiableAt ℝ (fun θ : ℝ × ℝ => (1 : ℝ) * θ.2) θ
    fun_prop
  tilde := fun k _ => by
    show DifferentiableAt ℝ (fun θ : ℝ × ℝ => (1 : ℝ) * θ.2) θ
    fun_prop
  cost := fun k _ => by fun_prop

/-- C82 is false: whatever the random numbers, the gradient that the program records for a bias `t` is that for the bias 0
minus `t` times 2 or -2, but what torch differentiates with respect to the bias is constant. -/
theorem C82_refuted (am : (Fin 2 → ℝ) → Fin 2) (u v : Nat → Nat → Fin 2 → ℝ) (t : ℝ) :
    ∃ (L₀ : STen (AD (ℝ × ℝ) (1 / 2, 0))) (L : STen (AD (ℝ × ℝ) ((1 / 2, 0) + t • (0, 1)))) (s : ℝ), (s = 2 ∨ s = -2) ∧
      relaxProgram (fun _ a => .ok a) (fun k => AD.const (1 / (k : ℝ))) 0 am var (fun _ _ => 1) "x" 1 u (noiseAt 1 v) = .ok L₀ ∧
      relaxProgram (fun _ a => .ok a) (fun k => AD.const (1 / (k : ℝ))) 0 am var (fun _ _ => 1) "x" 1 u (noiseAt 1 v) = .ok L ∧
      deriv (fun r : ℝ => fderiv ℝ (fun θ => L₀.ten.get [] θ) ((1 / 2, 0) + r • (0, 1)) (1, 0)) 0 = 0 ∧
      fderiv ℝ (fun θ => L.ten.get [] θ) ((1 / 2, 0) + t • (0, 1)) (1, 0) =
        fderiv ℝ (fun θ => L₀.ten.get [] θ) (1 / 2, 0) (1, 0) - t * s := by
  obtain ⟨L₀, L, h1, h2, h3, h4⟩ := C82_bias_refuted (θ₀ := ((1 / 2, 0) : ℝ × ℝ)) (dv := (0, 1)) (t := t)
    (hook₀ := fun _ a => .ok a) (fun _ _ _ => rfl) (hook := fun _ a => .ok a) (fun _ _ _ => rfl)
    (inv₀ := fun k => AD.const (1 / (k : ℝ))) (fun _ => rfl) (inv := fun k => AD.const (1 / (k : ℝ))) (fun _ => rfl)
    (d := var) (f := fun _ _ => 1) dir (fun θ t x => by simp [var]) (fun _ _ => rfl) (fun _ _ => rfl) (am := am) (eps := 0)
    "x" (n := 1) (le_refl 1) u v (smooth am 1 u v _ (by simp))
  refine ⟨L₀, L, score (am (var.hardAt am 0 (1 / 2, 0) (u 0) 0)), ?_, h1, h2, ?_, ?_⟩
  · by_cases h : am (var.hardAt am 0 (1 / 2, 0) (u 0) 0) = 0
    · left; rw [score, if_pos h]
    · right; rw [score, if_neg h]
  · rw [show (fun r : ℝ => fderiv ℝ (fun θ => L₀.ten.get [] θ) ((1 / 2, 0) + r • (0, 1)) (1, 0)) =
      fun _ => fderiv ℝ (fun θ => L₀.ten.get [] θ) (1 / 2, 0) (1, 0) from funext fun r => h3 r (1, 0)]
    exact deriv_const _ _
  · rw [h4 (1, 0), Finset.sum_range_one, (lp_deriv am _ (by simp)).fderiv]
    simp [var]

/-- A case of `C82_partial`: three draws, a bias moved from 0 to 5. -/
example (am : (Fin 2 → ℝ) → Fin 2) (u v : Nat → Nat → Fin 2 → ℝ) :=
  C82_partial (θ₀ := ((1 / 2, 0) : ℝ × ℝ)) (dv := (0, 1)) (t := 5)
    (hook₀ := fun _ a => .ok a) (fun _ _ _ => rfl) (hook := fun _ a => .ok a) (fun _ _ _ => rfl)
    (inv₀ := fun k => AD.const (1 / (k : ℝ))) (fun _ => rfl) (inv := fun k => AD.const (1 / (k : ℝ))) (fun _ => rfl)
    (d := var) (f := fun _ _ => 1) dir (am := am) (eps := 0) "x" (n := 3) (by decide) u v
    (fun k _ => by funext r; simp [RelaxVar.hardAt, RelaxVar.zAt, var]) (smooth am 3 u v _ (by simp))

end RelaxTrainCase

end Storch
