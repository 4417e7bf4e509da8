import Verif.Lemmas.GumbelRegular
import Verif.Props.RelaxBiasProps

/-!
# C77: `GumbelSoftmax`
-/

namespace Storch
open Gumbel MeasureTheory Topology

section
variable {E : Type _} [NormedAddCommGroup E] [NormedSpace ℝ E] {θ₀ : E} {m K : Nat}

/-- C77 for the relaxed samples: `x = GumbelSoftmax(name, n_samples=n)(distr)` with `m * K` Bernoulli variables or `m`
categorical variables of `K` outcomes, and `add_cost(f(x))`.  For all random numbers the surrogate loss can be computed, and
it is the average cost of the relaxed samples as a function of the parameters; for almost all it is differentiable; and the
expectation of its gradient is the derivative of the expected cost of the relaxed sample. -/
theorem C77_relaxed {hook : UnwrapHook (AD E θ₀)} (hh : PlainHook hook) {inv : Nat → AD E θ₀}
    (hinv : ∀ k, inv k = AD.const (1 / (k : ℝ))) {eps : ℝ} (h0 : 0 ≤ eps) (h1 : eps < 1 / 2) (am : (Fin K → ℝ) → Fin K)
    {d : GumbelVar E m K} (hT : 0 < d.temp) (hg : ∀ᶠ θ in 𝓝 θ₀, d.Good eps θ)
    (hp : ∀ (r : Fin m) i, ContDiffAt ℝ 1 (fun θ => d.prob θ r i) θ₀) {f : E → (Fin m → Fin K → ℝ) → ℝ}
    (hf : ContDiff ℝ 1 (fun q : E × (Fin m → Fin K → ℝ) => f q.1 q.2)) (name : String) {n : Nat} (hn : 1 ≤ n) :
    ∃ L : (Fin n → Fin m → Fin K → ℝ) → STen (AD E θ₀),
      (∀ w, gumbelProgram hook inv eps am d false f name n (drawsOf w) = .ok (L w) ∧ (L w).plates = [] ∧
        (L w).ten.shape = [] ∧
        ∀ θ, (L w).ten.get [] θ = 1 / (n : ℝ) * ∑ k, f θ (fun r i => d.soft eps (w k r) θ r i)) ∧
      (∀ᵐ w ∂(Measure.pi fun _ : Fin n => rows m K), DifferentiableAt ℝ ((L w).ten.get []) θ₀) ∧
      Integrable (fun w => fderiv ℝ ((L w).ten.get []) θ₀) (Measure.pi fun _ : Fin n => rows m K) ∧
      HasFDerivAt (fun θ => ∫ u, f θ (fun r i => d.soft eps (u r) θ r i) ∂rows m K)
        (∫ w, fderiv ℝ ((L w).ten.get []) θ₀ ∂(Measure.pi fun _ : Fin n => rows m K)) θ₀ := by
  choose L L1 L2 L3 L4 using fun w : Fin n → Fin m → Fin K → ℝ =>
    gumbelProgram_run (θ₀ := θ₀) hh hinv eps am d false f name hn (drawsOf w)
  have hL : ∀ w, (L w).ten.get [] = fun θ => ∑ k : Fin n, 1 / (n : ℝ) * f θ (d.softs eps (w k) θ) := by
    intro w
    funext θ
    rw [L4, Finset.sum_range]
    refine Finset.sum_congr rfl (fun k _ => ?_)
    congr 2
    funext r i
    rw [GumbelVar.at, drawsOf_fin, extRows_fin]
    rfl
  obtain ⟨t1, t2, t3⟩ := (regular_softs h0 h1 hT hg hp hf).deriv
  have hae : ∀ᵐ w ∂(Measure.pi fun _ : Fin n => rows m K), ∀ k,
      DifferentiableAt ℝ (fun θ => f θ (d.softs eps (w k) θ)) θ₀ := by
    rw [ae_all_iff]
    intro k
    exact (measurePreserving_eval (fun _ : Fin n => rows m K) k).quasiMeasurePreserving.ae t1
  have hder : ∀ᵐ w ∂(Measure.pi fun _ : Fin n => rows m K), HasFDerivAt ((L w).ten.get [])
      (∑ k : Fin n, (1 / (n : ℝ)) • fderiv ℝ (fun θ => f θ (d.softs eps (w k) θ)) θ₀) θ₀ := by
    filter_upwards [hae] with w hw
    rw [hL]
    exact HasFDerivAt.fun_sum (fun k _ => (hw k).hasFDerivAt.const_mul _)
  have hgr : (fun w => fderiv ℝ ((L w).ten.get []) θ₀) =ᵐ[Measure.pi fun _ : Fin n => rows m K]
      fun w => ∑ k : Fin n, (1 / (n : ℝ)) • fderiv ℝ (fun θ => f θ (d.softs eps (w k) θ)) θ₀ := hder.mono fun w hw => hw.fderiv
  obtain ⟨a1, a2⟩ := average_integral_gen (μ := rows m K) hn t2
  refine ⟨L, fun w => ⟨L1 w, L2 w, L3 w, fun θ => ?_⟩, hder.mono fun w hw => hw.differentiableAt, a1.congr hgr.symm, ?_⟩
  · rw [hL, Finset.mul_sum]
    rfl
  · rw [integral_congr_ae hgr, a2]
    exact t3

/-- C77 for `straight_through=True`: for all random numbers the surrogate loss evaluates to the average cost of the quantized
samples; and for almost all its gradient is made of the gradient of the cost at the quantized sample and the derivative of
the relaxed sample. -/
theorem C77_straight {hook : UnwrapHook (AD E θ₀)} (hh : PlainHook hook) {inv : Nat → AD E θ₀}
    (hinv : ∀ k, inv k = AD.const (1 / (k : ℝ))) (am : (Fin K → ℝ) → Fin K) {d : GumbelVar E m K} (hT : 0 < d.temp)
    (hg : ∀ᶠ θ in 𝓝 θ₀, d.Good 0 θ) (hp : ∀ (r : Fin m) i, ContDiffAt ℝ 1 (fun θ => d.prob θ r i) θ₀)
    {f : E → (Fin m → Fin K → ℝ) → ℝ} (hf : Differentiable ℝ (fun q : E × (Fin m → Fin K → ℝ) => f q.1 q.2)) (name : String)
    {n : Nat} (hn : 1 ≤ n) :
    ∃ L : (Fin n → Fin m → Fin K → ℝ) → STen (AD E θ₀),
      (∀ w, gumbelProgram hook inv 0 am d true f name n (drawsOf w) = .ok (L w) ∧ (L w).plates = [] ∧ (L w).ten.shape = [] ∧
        (L w).ten.get [] θ₀ = 1 / (n : ℝ) * ∑ k, f θ₀ (fun r => quantize d.kind am (d.soft 0 (w k r) θ₀ r))) ∧
      ∀ᵐ w ∂(Measure.pi fun _ : Fin n => rows m K), HasFDerivAt ((L w).ten.get [])
        (∑ k, (1 / (n : ℝ)) • (fderiv ℝ (fun q : E × (Fin m → Fin K → ℝ) => f q.1 q.2)
            (θ₀, fun r => quantize d.kind am (d.soft 0 (w k r) θ₀ r))).comp
          ((ContinuousLinearMap.id ℝ E).prod (fderiv ℝ (fun θ (r : Fin m) i => d.soft 0 (w k r) θ r i) θ₀))) θ₀ := by
  choose L L1 L2 L3 L4 using fun w : Fin n → Fin m → Fin K → ℝ =>
    gumbelProgram_run (θ₀ := θ₀) hh hinv 0 am d true f name hn (drawsOf w)
  set H : (Fin m → Fin K → ℝ) → Fin m → Fin K → ℝ := fun u r => quantize d.kind am (d.soft 0 (u r) θ₀ r) with hH
  have hL : ∀ w, (L w).ten.get [] = fun θ => ∑ k : Fin n, 1 / (n : ℝ) *
      f θ (H (w k) + (d.softs 0 (w k) θ - d.softs 0 (w k) θ₀)) := by
    intro w
    funext θ
    rw [L4, Finset.sum_range]
    refine Finset.sum_congr rfl (fun k _ => ?_)
    congr 2
    funext r i
    rw [GumbelVar.at, drawsOf_fin, extRows_fin, if_pos rfl]
    simp only [clamp_soft]
    rfl
  refine ⟨L, fun w => ⟨L1 w, L2 w, L3 w, ?_⟩, ?_⟩
  · rw [hL, Finset.mul_sum]
    simp only [sub_self, add_zero]
    rfl
  · have hae : ∀ᵐ w ∂(Measure.pi fun _ : Fin n => rows m K), ∀ k, DifferentiableAt ℝ (d.softs 0 (w k)) θ₀ := by
      rw [ae_all_iff]
      intro k
      exact (measurePreserving_eval (fun _ : Fin n => rows m K) k).quasiMeasurePreserving.ae
        (softs_differentiable le_rfl (by norm_num) hT hg hp)
    filter_upwards [hae] with w hw
    rw [hL]
    refine HasFDerivAt.fun_sum (fun k _ => HasFDerivAt.const_mul ?_ _)
    have h1 : HasFDerivAt (fun θ => (θ, H (w k) + (d.softs 0 (w k) θ - d.softs 0 (w k) θ₀)))
        ((ContinuousLinearMap.id ℝ E).prod (fderiv ℝ (d.softs 0 (w k)) θ₀)) θ₀ :=
      (hasFDerivAt_id θ₀).prodMk (((hw k).hasFDerivAt.sub_const _).const_add _)
    have h2 : HasFDerivAt (fun q : E × (Fin m → Fin K → ℝ) => f q.1 q.2)
        (fderiv ℝ (fun q : E × (Fin m → Fin K → ℝ) => f q.1 q.2) (θ₀, H (w k)))
        (θ₀, H (w k) + (d.softs 0 (w k) θ₀ - d.softs 0 (w k) θ₀)) := by
      rw [sub_self, add_zero]
      exact (hf _).hasFDerivAt
    exact h2.comp θ₀ h1

/-- The expectation of a function of finitely many outcomes, of which almost surely exactly one happens. -/
theorem integral_outcomes {Ω J : Type*} [MeasurableSpace Ω] [Fintype J] {μ : Measure Ω} [IsProbabilityMeasure μ] {S : J → Set Ω}
    (hS : ∀ j, MeasurableSet (S j)) {g : Ω → ℝ} {G : J → ℝ} (hg : ∀ᵐ ω ∂μ, ∃ j, ω ∈ S j ∧ (∀ k, ω ∈ S k → k = j) ∧ g ω = G j) :
    Integrable g μ ∧ ∫ ω, g ω ∂μ = ∑ j, μ.real (S j) * G j := by
  have e : g =ᵐ[μ] fun ω => ∑ j, (S j).indicator (fun _ => G j) ω := by
    filter_upwards [hg] with ω hω
    obtain ⟨j, h1, h2, h3⟩ := hω
    rw [Finset.sum_eq_single j, Set.indicator_of_mem h1, h3]
    · intro k _ hk
      exact Set.indicator_of_notMem (fun h => hk (h2 k h)) _
    · intro h; exact absurd (Finset.mem_univ j) h
  have hi : ∀ j, Integrable ((S j).indicator (fun _ => G j)) μ := fun j => (integrable_const _).indicator (hS j)
  refine ⟨(integrable_finsetSum _ (fun j _ => hi j)).congr e.symm, ?_⟩
  rw [integral_congr_ae e, integral_finsetSum _ (fun j _ => hi j)]
  refine Finset.sum_congr rfl (fun j _ => ?_)
  rw [integral_indicator (hS j), setIntegral_const, smul_eq_mul]

omit [NormedAddCommGroup E] [NormedSpace ℝ E] in
/-- The value of the loss. -/
theorem straight_value {hook : UnwrapHook (AD E θ₀)} (hh : PlainHook hook) {inv : Nat → AD E θ₀}
    (hinv : ∀ k, inv k = AD.const (1 / (k : ℝ))) {eps : ℝ} {am : (Fin K → ℝ) → Fin K} {d : GumbelVar E m K}
    {f : E → (Fin m → Fin K → ℝ) → ℝ} {name : String} {n : Nat} (hn : 1 ≤ n)
    {L : (Fin n → Fin m → Fin K → ℝ) → STen (AD E θ₀)}
    (hL : ∀ w, gumbelProgram hook inv eps am d true f name n (drawsOf w) = .ok (L w)) (w : Fin n → Fin m → Fin K → ℝ) :
    (L w).ten.get [] θ₀ = ∑ k : Fin n, (1 / (n : ℝ)) • f θ₀ (fun r =>
      quantize d.kind am (fun i => clampProbs eps (d.soft eps (w k r) θ₀ r i))) := by
  obtain ⟨L', h1, -, -, h4⟩ := gumbelProgram_run (θ₀ := θ₀) hh hinv eps am d true f name hn (drawsOf w)
  rw [hL w] at h1
  rw [show L w = L' from Except.ok.inj h1, h4, Finset.sum_range]
  refine Finset.sum_congr rfl (fun k _ => ?_)
  rw [smul_eq_mul]
  congr 2
  funext r i
  rw [GumbelVar.at, drawsOf_fin, extRows_fin, if_pos rfl, sub_self, add_zero]

omit [NormedAddCommGroup E] [NormedSpace ℝ E] in
/-- C77: with `straight_through=True` the expectation of the surrogate loss is the expected cost of the discrete variable, for
categorical variables (`eps` of `clamp_probs` taken as zero). -/
theorem C77_straight_mean {hook : UnwrapHook (AD E θ₀)} (hh : PlainHook hook) {inv : Nat → AD E θ₀}
    (hinv : ∀ k, inv k = AD.const (1 / (k : ℝ))) {am : (Fin K → ℝ) → Fin K} (hK : 0 < K)
    (ham : ∀ (s : Fin K → ℝ) i, s i ≤ s (am s)) {d : GumbelVar E m K} (hk : d.kind = .oneHot) (hT : 0 < d.temp)
    (hpos : ∀ (r : Fin m) i, 0 < d.prob θ₀ r i) (hsum : ∀ r : Fin m, ∑ i, d.prob θ₀ r i = 1)
    {f : E → (Fin m → Fin K → ℝ) → ℝ} {name : String} {n : Nat} (hn : 1 ≤ n)
    {L : (Fin n → Fin m → Fin K → ℝ) → STen (AD E θ₀)}
    (hL : ∀ w, gumbelProgram hook inv 0 am d true f name n (drawsOf w) = .ok (L w)) :
    Integrable (fun w => (L w).ten.get [] θ₀) (Measure.pi fun _ : Fin n => rows m K) ∧
    ∫ w, (L w).ten.get [] θ₀ ∂(Measure.pi fun _ : Fin n => rows m K) =
      ∑ j : Fin m → Fin K, (∏ r : Fin m, d.prob θ₀ r (j r)) * f θ₀ (fun r i => if i = j r then 1 else 0) := by
  have hle : ∀ (r : Fin m) i, d.prob θ₀ r i ≤ 1 := fun r i => by
    rw [← hsum r]; exact Finset.single_le_sum (fun k _ => (hpos r k).le) (Finset.mem_univ i)
  obtain ⟨i1, i2⟩ := integral_outcomes (μ := rows m K) (S := Firsts (fun r : Fin m => d.prob θ₀ r))
    (fun j => measurable_Firsts _ j)
    (g := fun u => f θ₀ (fun r => quantize d.kind am (fun i => clampProbs 0 (d.soft 0 (u r) θ₀ r i))))
    (G := fun j => f θ₀ (fun r i => if i = j r then 1 else 0)) (by
      filter_upwards [ae_Firsts hpos hK] with u hu
      obtain ⟨hu, j, hj⟩ := hu
      refine ⟨j, hj, fun k hk => disjoint_Firsts hpos hu hk hj, ?_⟩
      congr 1
      funext r i
      simp only [clamp_soft]
      simp only [GumbelVar.soft, hk, quantize]
      rw [show (fun i => relaxedCategorical 0 d.temp (d.prob θ₀ r) (u r) i) = ofExpo d.temp (expo (d.prob θ₀ r) (u r)) from
        relaxed_expo (hpos r) (fun i => ⟨(hpos r i).le, by rw [sub_zero]; exact hle r i⟩) (hu r)
          (fun i => ⟨(hu r i).1.le, by rw [sub_zero]; exact (hu r i).2.le⟩), discretizeRow,
        argmax_First hT (hpos r) (hu r) ham (hj r (Set.mem_univ r))])
  obtain ⟨a1, a2⟩ := average_integral_gen (μ := rows m K) hn i1
  have e := fun w => straight_value hh hinv hn hL w
  simp only [e]
  refine ⟨a1, a2.trans (i2.trans (Finset.sum_congr rfl fun j _ => ?_))⟩
  rw [measure_Firsts hpos hsum j]

/-- A relaxed Bernoulli sample is above one half with the probability of the variable. -/
theorem relaxedBernoulli_gt' {eps τ p u : ℝ} (h0 : 0 ≤ eps) (h1 : eps < p) (h2 : p < 1 - eps) (hτ : 0 < τ)
    (hu : u ∈ Set.Ioo (0 : ℝ) 1) : 1 / 2 < relaxedBernoulli eps τ p u ↔ 1 - p < u := by
  rcases h0.eq_or_lt with rfl | h0
  · have e : ∀ c : ℝ, 0 < c → c < u → c < 1 - u → c < p → c < 1 - p →
        relaxedBernoulli 0 τ p u = relaxedBernoulli c τ p u := by
      intro c _ c2 c3 c4 c5
      simp only [relaxedBernoulli]
      rw [clamp_id hu.1.le (by linarith [hu.2]), clamp_id h1.le h2.le, clamp_id c2.le (by linarith),
        clamp_id c4.le (by linarith)]
    have hm : 0 < min (min u (1 - u)) (min p (1 - p)) := by
      refine lt_min (lt_min hu.1 (by linarith [hu.2])) (lt_min h1 (by linarith))
    set c := min (min u (1 - u)) (min p (1 - p)) / 2 with hc
    have l1 : c < min (min u (1 - u)) (min p (1 - p)) := by rw [hc]; linarith
    have l2 := lt_min_iff.1 l1
    have l3 := lt_min_iff.1 l2.1
    have l4 := lt_min_iff.1 l2.2
    have c0 : 0 < c := by rw [hc]; linarith
    rw [e c c0 l3.1 l3.2 l4.1 l4.2]
    exact relaxedBernoulli_gt c0 l4.1 (by linarith) hτ
  · exact relaxedBernoulli_gt h0 h1 h2 hτ

/-- The set of random numbers for which the Bernoulli variables have the outcomes `b`. -/
def bernSet (p : Fin m → Fin K → ℝ) (b : Fin m → Fin K → Bool) : Set (Fin m → Fin K → ℝ) :=
  Set.univ.pi fun r => Set.univ.pi fun i => if b r i then Set.Ioi (1 - p r i) else Set.Iic (1 - p r i)

theorem unif_Ioi {p : ℝ} (h0 : 0 < p) (h1 : p < 1) : unif.real (Set.Ioi (1 - p)) = p := by
  have hcap : Set.Ioi (1 - p) ∩ Set.Ioo (0 : ℝ) 1 = Set.Ioo (1 - p) 1 := by
    ext x
    simp only [Set.mem_inter_iff, Set.mem_Ioi, Set.mem_Ioo]
    constructor
    · rintro ⟨a, -, b⟩; exact ⟨a, b⟩
    · rintro ⟨a, b⟩; exact ⟨a, by linarith, b⟩
  rw [Measure.real, unif, Measure.restrict_apply measurableSet_Ioi, hcap, Real.volume_Ioo, ENNReal.toReal_ofReal (by linarith)]
  ring

theorem bernSet_real {p : Fin m → Fin K → ℝ} (h0 : ∀ r i, 0 < p r i) (h1 : ∀ r i, p r i < 1) (b : Fin m → Fin K → Bool) :
    (rows m K).real (bernSet p b) = ∏ r, ∏ i, if b r i then p r i else 1 - p r i := by
  rw [Measure.real, rows, bernSet, Measure.pi_pi, ENNReal.toReal_prod]
  refine Finset.prod_congr rfl (fun r _ => ?_)
  rw [cube, Measure.pi_pi, ENNReal.toReal_prod]
  refine Finset.prod_congr rfl (fun i _ => ?_)
  have h := unif_Ioi (h0 r i) (h1 r i)
  cases b r i with
  | true => exact h
  | false =>
    have hc := probReal_compl_eq_one_sub (μ := unif) (measurableSet_Ioi (a := 1 - p r i))
    rw [Set.compl_Ioi, h] at hc
    exact hc

omit [NormedAddCommGroup E] [NormedSpace ℝ E] in
/-- C77: with `straight_through=True` the expectation of the surrogate loss is the expected cost of the discrete variables, for
Bernoulli variables whose probabilities are not clamped. -/
theorem C77_straight_mean_bernoulli {hook : UnwrapHook (AD E θ₀)} (hh : PlainHook hook) {inv : Nat → AD E θ₀}
    (hinv : ∀ k, inv k = AD.const (1 / (k : ℝ))) {eps : ℝ} (h0 : 0 ≤ eps) {am : (Fin K → ℝ) → Fin K}
    {d : GumbelVar E m K} (hk : d.kind = .bernoulli) (hT : 0 < d.temp)
    (hlo : ∀ (r : Fin m) i, eps < d.prob θ₀ r i) (hhi : ∀ (r : Fin m) i, d.prob θ₀ r i < 1 - eps)
    {f : E → (Fin m → Fin K → ℝ) → ℝ} {name : String} {n : Nat} (hn : 1 ≤ n)
    {L : (Fin n → Fin m → Fin K → ℝ) → STen (AD E θ₀)}
    (hL : ∀ w, gumbelProgram hook inv eps am d true f name n (drawsOf w) = .ok (L w)) :
    Integrable (fun w => (L w).ten.get [] θ₀) (Measure.pi fun _ : Fin n => rows m K) ∧
    ∫ w, (L w).ten.get [] θ₀ ∂(Measure.pi fun _ : Fin n => rows m K) =
      ∑ b : Fin m → Fin K → Bool, (∏ r : Fin m, ∏ i : Fin K, if b r i then d.prob θ₀ r i else 1 - d.prob θ₀ r i) *
        f θ₀ (fun r i => if b r i then 1 else 0) := by
  obtain ⟨i1, i2⟩ := integral_outcomes (μ := rows m K) (S := bernSet (fun r : Fin m => d.prob θ₀ r))
    (fun b => MeasurableSet.univ_pi fun r => MeasurableSet.univ_pi fun i => by
      cases b r i
      · exact measurableSet_Iic
      · exact measurableSet_Ioi)
    (g := fun u => f θ₀ (fun r => quantize d.kind am (fun i => clampProbs eps (d.soft eps (u r) θ₀ r i))))
    (G := fun b => f θ₀ (fun r i => if b r i then 1 else 0)) (by
      filter_upwards [rows_mem m K] with u hu
      have hh : ∀ (b : Fin m → Fin K → Bool), u ∈ bernSet (fun r : Fin m => d.prob θ₀ r) b ↔
          b = fun (r : Fin m) i => decide (1 - d.prob θ₀ r i < u r i) := by
        intro b
        simp only [bernSet, Set.mem_univ_pi]
        constructor
        · intro h
          funext r i
          have := h r i
          cases hb : b r i <;> simp only [hb] at this <;> simp at this <;> simp [this]
        · rintro rfl r i
          by_cases h : 1 - d.prob θ₀ r i < u r i <;> simp [h, not_lt.1]
      refine ⟨_, (hh _).2 rfl, fun k hk => (hh k).1 hk, ?_⟩
      congr 1
      funext r i
      simp only [GumbelVar.soft, hk, quantize, discretizeElt]
      have h2 := relaxedBernoulli_gt' h0 (hlo r i) (hhi r i) hT (hu r i)
      have h3 : ∀ x : ℝ, 1 / 2 < clampProbs eps x ↔ 1 / 2 < x := by
        intro x
        have := (hlo r i).trans (hhi r i)
        rw [clampProbs, lt_min_iff, lt_max_iff]
        constructor
        · rintro ⟨h | h, -⟩
          · exact h
          · linarith
        · intro h; exact ⟨Or.inl h, by linarith⟩
      simp only [h3, h2, decide_eq_true_eq])
  obtain ⟨a1, a2⟩ := average_integral_gen (μ := rows m K) hn i1
  have e := fun w => straight_value hh hinv hn hL w
  simp only [e]
  refine ⟨a1, a2.trans (i2.trans (Finset.sum_congr rfl fun j _ => ?_))⟩
  rw [bernSet_real (fun r i => lt_of_le_of_lt h0 (hlo r i)) (fun r i => by linarith [hhi r i]) j]

end

/-! ### The gradient with `straight_through` is not that of the discrete variable -/

/-- One binary variable with probability `θ`. -/
def coinGumbel : GumbelVar ℝ 1 2 := ⟨.oneHot, fun θ _ i => if i = 0 then θ else 1 - θ, 1⟩

/-- A cost that is zero for both outcomes. -/
def coinCost (_ : ℝ) (x : Fin 1 → Fin 2 → ℝ) : ℝ := x 0 0 ^ 2 * (x 0 0 - 1)

theorem coin_good {θ : ℝ} (h0 : 0 < θ) (h1 : θ < 1) : coinGumbel.Good 0 θ := by
  refine ⟨fun r i => ?_, fun r i h => (by cases h), fun r i => ?_, fun r i => ?_, fun _ r => ?_⟩
  · simp only [coinGumbel]; split <;> linarith
  · simp only [coinGumbel]; split <;> linarith
  · simp only [coinGumbel]; split <;> linarith
  · simp [coinGumbel, Fin.sum_univ_two]

theorem coin_soft {θ : ℝ} (h0 : 0 < θ) (h1 : θ < 1) {u : Fin 1 → Fin 2 → ℝ} (hu : ∀ r i, u r i ∈ Set.Ioo (0 : ℝ) 1) :
    coinGumbel.softs 0 u θ 0 0 = θ * -Real.log (u 0 1) / (θ * -Real.log (u 0 1) + (1 - θ) * -Real.log (u 0 0)) := by
  rw [softs_oneHot rfl le_rfl (by norm_num) (coin_good h0 h1) hu, ratios, ofExpo, normalise_eq, Fin.sum_univ_two]
  have a0 := neg_log_pos (hu 0 0)
  have a1 := neg_log_pos (hu 0 1)
  have hc : ∀ i, clampProbs 0 (u 0 i) = u 0 i := fun i => clamp_id (hu 0 i).1.le (by linarith [(hu 0 i).2])
  simp only [coinGumbel, hc, add_zero, div_one, if_true, Fin.one_eq_zero_iff, OfNat.ofNat_ne_one, if_false]
  set a := -Real.log (u 0 0)
  set b := -Real.log (u 0 1)
  have h2 : 0 < 1 - θ := by linarith
  rw [Real.exp_neg, Real.exp_neg, Real.exp_log (by positivity), Real.exp_log (by positivity)]
  field_simp

/-- The gradient of one sample. -/
noncomputable def coinGrad (u : Fin 1 → Fin 2 → ℝ) : ℝ :=
  (Firsts (fun (_ : Fin 1) (_ : Fin 2) => (1 / 2 : ℝ)) (fun _ => 0)).indicator
    (fun u => 4 * (-Real.log (u 0 0) * -Real.log (u 0 1)) / (-Real.log (u 0 0) + -Real.log (u 0 1)) ^ 2) u

theorem coin_prob : (fun r : Fin 1 => coinGumbel.prob (1 / 2) r) = fun (_ : Fin 1) (_ : Fin 2) => (1 / 2 : ℝ) := by
  funext r i
  simp only [coinGumbel]
  split <;> norm_num

theorem coin_deriv {am : (Fin 2 → ℝ) → Fin 2} (ham : ∀ (s : Fin 2 → ℝ) i, s i ≤ s (am s)) :
    ∀ᵐ u ∂rows 1 2, HasDerivAt (fun θ => coinCost θ (coinGumbel.at am 0 true (1 / 2) (extRows u) θ)) (coinGrad u) (1 / 2) := by
  have hp : ∀ (r : Fin 1) (i : Fin 2), (0 : ℝ) < (fun (_ : Fin 1) (_ : Fin 2) => (1 / 2 : ℝ)) r i := fun _ _ => by norm_num
  filter_upwards [ae_Firsts hp (by norm_num : 0 < 2)] with u hu
  obtain ⟨hu, j, hj⟩ := hu
  have a0 := neg_log_pos (hu 0 0)
  have a1 := neg_log_pos (hu 0 1)
  set a := -Real.log (u 0 0) with ha
  set b := -Real.log (u 0 1) with hb
  have hz : HasDerivAt (fun θ => coinGumbel.softs 0 u θ 0 0) (4 * (a * b) / (a + b) ^ 2) (1 / 2) := by
    have h1 : HasDerivAt (fun θ : ℝ => θ * b / (θ * b + (1 - θ) * a))
        ((1 * b * (1 / 2 * b + (1 - 1 / 2) * a) - 1 / 2 * b * (1 * b + -1 * a)) / (1 / 2 * b + (1 - 1 / 2) * a) ^ 2) (1 / 2) := by
      have n : HasDerivAt (fun θ : ℝ => θ * b) (1 * b) (1 / 2) := (hasDerivAt_id _).mul_const b
      have d : HasDerivAt (fun θ : ℝ => θ * b + (1 - θ) * a) (1 * b + -1 * a) (1 / 2) :=
        n.add (((hasDerivAt_id _).const_sub 1).mul_const a)
      have hne : (1 / 2 : ℝ) * b + (1 - 1 / 2) * a ≠ 0 := by
        have : 0 < (1 / 2 : ℝ) * b + (1 - 1 / 2) * a := by nlinarith
        exact this.ne'
      exact n.div d hne
    have h2 : (1 * b * (1 / 2 * b + (1 - 1 / 2) * a) - 1 / 2 * b * (1 * b + -1 * a)) / (1 / 2 * b + (1 - 1 / 2) * a) ^ 2 =
        4 * (a * b) / (a + b) ^ 2 := by
      have : 0 < a + b := by linarith
      have h3 : 0 < (1 / 2 : ℝ) * b + (1 - 1 / 2) * a := by nlinarith
      rw [div_eq_div_iff (by positivity) (by positivity)]
      ring
    rw [← h2]
    refine h1.congr_of_eventuallyEq ?_
    filter_upwards [Ioo_mem_nhds (show (0 : ℝ) < 1 / 2 by norm_num) (show (1 / 2 : ℝ) < 1 by norm_num)] with θ hθ
    exact coin_soft hθ.1 hθ.2 hu
  have hH : quantize coinGumbel.kind am (fun i => clampProbs 0 (coinGumbel.soft 0 (u 0) (1 / 2) 0 i)) 0 =
      if (0 : Fin 2) = j 0 then 1 else 0 := by
    simp only [clamp_soft]
    have hr : (fun i => coinGumbel.soft 0 (u 0) (1 / 2) 0 i) =
        ofExpo 1 (expo ((fun (_ : Fin 1) (_ : Fin 2) => (1 / 2 : ℝ)) 0) (u 0)) := by
      have := relaxed_expo (eps := 0) (τ := 1) (p := (fun (_ : Fin 1) (_ : Fin 2) => (1 / 2 : ℝ)) 0) (u := u 0) (hp 0)
        (fun i => ⟨by norm_num, by norm_num⟩) (hu 0) (fun i => ⟨(hu 0 i).1.le, by linarith [(hu 0 i).2]⟩)
      rw [← this, ← coin_prob]
      rfl
    rw [hr]
    show discretizeRow am _ _ = _
    rw [discretizeRow, argmax_First one_pos (hp 0) (hu 0) ham (hj 0 (Set.mem_univ _))]
  have hat : ∀ θ, coinGumbel.at am 0 true (1 / 2) (extRows u) θ 0 0 = (if (0 : Fin 2) = j 0 then 1 else 0) +
      (coinGumbel.softs 0 u θ 0 0 - coinGumbel.softs 0 u (1 / 2) 0 0) := by
    intro θ
    have e : extRows u ((0 : Fin 1) : Nat) = u 0 := extRows_fin u 0
    rw [GumbelVar.at, if_pos rfl, e]
    simp only [Fin.val_zero]
    rw [hH, clamp_soft, clamp_soft]
    rfl
  have hy := (hz.sub_const (coinGumbel.softs 0 u (1 / 2) 0 0)).const_add (if (0 : Fin 2) = j 0 then 1 else 0)
  have hfin : HasDerivAt (fun θ => ((if (0 : Fin 2) = j 0 then 1 else 0) +
      (coinGumbel.softs 0 u θ 0 0 - coinGumbel.softs 0 u (1 / 2) 0 0)) ^ 2 * ((if (0 : Fin 2) = j 0 then 1 else 0) +
      (coinGumbel.softs 0 u θ 0 0 - coinGumbel.softs 0 u (1 / 2) 0 0) - 1)) _ (1 / 2) := (hy.pow 2).mul (hy.sub_const 1)
  have hsame : (fun θ => coinCost θ (coinGumbel.at am 0 true (1 / 2) (extRows u) θ)) = fun θ => ((if (0 : Fin 2) = j 0 then 1 else 0) +
      (coinGumbel.softs 0 u θ 0 0 - coinGumbel.softs 0 u (1 / 2) 0 0)) ^ 2 * ((if (0 : Fin 2) = j 0 then 1 else 0) +
      (coinGumbel.softs 0 u θ 0 0 - coinGumbel.softs 0 u (1 / 2) 0 0) - 1) := by
    funext θ
    rw [coinCost, hat]
  rw [hsame]
  refine hfin.congr_deriv ?_
  rw [coinGrad]
  by_cases h : (0 : Fin 2) = j 0
  · have hj0 : j = fun _ => 0 := by funext r; rw [Subsingleton.elim r 0]; exact h.symm
    rw [Set.indicator_of_mem (hj0 ▸ hj), ← ha, ← hb]
    simp [h]
  · rw [Set.indicator_of_notMem]
    · simp [h]
    · intro hm
      exact h (congrFun (disjoint_Firsts hp hu hm hj) 0)

/-- C77 fails for the gradient of the discrete variable: with `straight_through=True` the loss has the expected cost of the
discrete variable as its expectation (`C77_straight_mean`), but its gradient is not that of the expected cost.  For a coin and
a smooth cost that is zero for both outcomes, whatever the parameter, the gradient is positive on average. -/
theorem C77_straight_refuted {hook : UnwrapHook (AD ℝ (1 / 2 : ℝ))} (hh : PlainHook hook) {inv : Nat → AD ℝ (1 / 2 : ℝ)}
    (hinv : ∀ k, inv k = AD.const (1 / (k : ℝ))) {am : (Fin 2 → ℝ) → Fin 2} (ham : ∀ (s : Fin 2 → ℝ) i, s i ≤ s (am s))
    (name : String) {n : Nat} (hn : 1 ≤ n) :
    ∃ (d : GumbelVar ℝ 1 2) (f : ℝ → (Fin 1 → Fin 2 → ℝ) → ℝ) (L : (Fin n → Fin 1 → Fin 2 → ℝ) → STen (AD ℝ (1 / 2 : ℝ))),
      (∀ θ ∈ Set.Ioo (0 : ℝ) 1, d.Good 0 θ) ∧ (∀ (r : Nat) i, ContDiff ℝ 1 (fun θ => d.prob θ r i)) ∧
      ContDiff ℝ 1 (fun q : ℝ × (Fin 1 → Fin 2 → ℝ) => f q.1 q.2) ∧
      (∀ θ (j : Fin 1 → Fin 2), f θ (fun r i => if i = j r then 1 else 0) = 0) ∧
      (∀ w, gumbelProgram hook inv 0 am d true f name n (drawsOf w) = .ok (L w)) ∧
      Integrable (fun w => deriv ((L w).ten.get []) (1 / 2)) (Measure.pi fun _ : Fin n => rows 1 2) ∧
      0 < ∫ w, deriv ((L w).ten.get []) (1 / 2) ∂(Measure.pi fun _ : Fin n => rows 1 2) := by
  choose L L1 L2 L3 L4 using fun w : Fin n → Fin 1 → Fin 2 → ℝ =>
    gumbelProgram_run (θ₀ := (1 / 2 : ℝ)) hh hinv 0 am coinGumbel true coinCost name hn (drawsOf w)
  have hL : ∀ w, (L w).ten.get [] = fun θ => ∑ k : Fin n, 1 / (n : ℝ) *
      coinCost θ (coinGumbel.at am 0 true (1 / 2) (extRows (w k)) θ) := by
    intro w
    funext θ
    rw [L4, Finset.sum_range]
    refine Finset.sum_congr rfl (fun k _ => ?_)
    rw [drawsOf_fin]
  have hae : ∀ᵐ w ∂(Measure.pi fun _ : Fin n => rows 1 2), ∀ k, HasDerivAt
      (fun θ => coinCost θ (coinGumbel.at am 0 true (1 / 2) (extRows (w k)) θ)) (coinGrad (w k)) (1 / 2) := by
    rw [ae_all_iff]
    intro k
    exact (measurePreserving_eval (fun _ : Fin n => rows 1 2) k).quasiMeasurePreserving.ae (coin_deriv ham)
  have hgr : (fun w => deriv ((L w).ten.get []) (1 / 2)) =ᵐ[Measure.pi fun _ : Fin n => rows 1 2]
      fun w => ∑ k : Fin n, (1 / (n : ℝ)) • coinGrad (w k) := by
    filter_upwards [hae] with w hw
    rw [hL]
    exact (HasDerivAt.fun_sum (fun k _ => (hw k).const_mul _)).deriv
  set S := Firsts (fun (_ : Fin 1) (_ : Fin 2) => (1 / 2 : ℝ)) (fun _ => 0) with hS
  have hm : ∀ i : Fin 2, Measurable (fun u : Fin 1 → Fin 2 → ℝ => -Real.log (u 0 i)) := fun i =>
    (Real.measurable_log.comp ((measurable_pi_apply i).comp (measurable_pi_apply 0))).neg
  have hmeas : Measurable coinGrad :=
    ((((hm 0).mul (hm 1)).const_mul 4).div (((hm 0).add (hm 1)).pow_const 2)).indicator (measurable_Firsts _ _)
  have hval : ∀ u : Fin 1 → Fin 2 → ℝ, (∀ r i, u r i ∈ Set.Ioo (0 : ℝ) 1) → 0 ≤ coinGrad u ∧ coinGrad u ≤ 1 ∧
      (u ∈ S → 0 < coinGrad u) := by
    intro u hu
    have a0 := neg_log_pos (hu 0 0)
    have a1 := neg_log_pos (hu 0 1)
    rw [coinGrad]
    set a := -Real.log (u 0 0) with ha
    set b := -Real.log (u 0 1) with hb
    have hpos : 0 < 4 * (a * b) / (a + b) ^ 2 := by positivity
    have hle : 4 * (a * b) / (a + b) ^ 2 ≤ 1 := by
      rw [div_le_one (by positivity)]
      nlinarith [sq_nonneg (a - b)]
    by_cases h : u ∈ S
    · rw [Set.indicator_of_mem h]
      exact ⟨hpos.le, hle, fun _ => hpos⟩
    · rw [Set.indicator_of_notMem h]
      exact ⟨le_rfl, zero_le_one, fun h' => absurd h' h⟩
  have hint : Integrable coinGrad (rows 1 2) := by
    refine Integrable.of_bound (C := 1) hmeas.aestronglyMeasurable ?_
    filter_upwards [rows_mem 1 2] with u hu
    obtain ⟨h1, h2, -⟩ := hval u hu
    rw [Real.norm_of_nonneg h1]
    exact h2
  have hposi : 0 < ∫ u, coinGrad u ∂rows 1 2 := by
    rw [integral_pos_iff_support_of_nonneg_ae
      (by filter_upwards [rows_mem 1 2] with u hu using (hval u hu).1) hint]
    have h1 : (rows 1 2).real S = 1 / 2 := by
      rw [measure_Firsts (fun _ _ => by norm_num) (fun _ => by norm_num)]
      simp
    have h2 : 0 < (rows 1 2) S := by
      rw [pos_iff_ne_zero]
      intro h
      rw [Measure.real, h] at h1
      norm_num at h1
    refine lt_of_lt_of_le h2 (measure_mono_ae ?_)
    filter_upwards [rows_mem 1 2] with u hu hs
    exact ((hval u hu).2.2 hs).ne'
  obtain ⟨a1, a2⟩ := average_integral_gen (μ := rows 1 2) hn hint
  refine ⟨coinGumbel, coinCost, L, fun θ hθ => coin_good hθ.1 hθ.2, fun r i => ?_, ?_, fun θ j => ?_, L1, a1.congr hgr.symm, ?_⟩
  · simp only [coinGumbel]
    by_cases h : i = 0
    · simp only [h, if_true]; exact contDiff_id
    · simp only [h, if_false]; exact contDiff_const.sub contDiff_id
  · have hx : ContDiff ℝ 1 (fun q : ℝ × (Fin 1 → Fin 2 → ℝ) => q.2 0 0) := contDiff_pi.1 (contDiff_pi.1 contDiff_snd 0) 0
    exact (hx.pow 2).mul (hx.sub contDiff_const)
  · rw [coinCost]
    by_cases h : (0 : Fin 2) = j 0 <;> simp [h]
  · rw [integral_congr_ae hgr, a2]
    exact hposi

/-- The hypotheses of `C77_relaxed` hold for a Bernoulli variable with probability `sigmoid θ`. -/
example (θ₀ : ℝ) : ∃ L : (Fin 3 → Fin 1 → Fin 1 → ℝ) → STen (AD ℝ θ₀),
    (∀ w, gumbelProgram (fun _ a => .ok a : UnwrapHook (AD ℝ θ₀)) (fun k => AD.const (1 / (k : ℝ))) 0 (fun _ => 0)
      ⟨.bernoulli, fun θ _ _ => (1 + Real.exp (-θ))⁻¹, 1⟩ false (fun θ (x : Fin 1 → Fin 1 → ℝ) => θ * x 0 0 ^ 2) "x" 3 (drawsOf w) = .ok (L w)) ∧
    HasFDerivAt (fun θ => ∫ u, θ * relaxedBernoulli 0 1 ((1 + Real.exp (-θ))⁻¹) (u 0 0) ^ 2 ∂rows 1 1)
      (∫ w, fderiv ℝ ((L w).ten.get []) θ₀ ∂(Measure.pi fun _ : Fin 3 => rows 1 1)) θ₀ := by
  have hs : ∀ θ : ℝ, 1 + Real.exp (-θ) ≠ 0 := fun θ => by positivity
  have hinv : ContDiff ℝ 1 (fun θ : ℝ => (1 + Real.exp (-θ))⁻¹) :=
    ContDiff.inv (contDiff_const.add (Real.contDiff_exp.comp contDiff_neg)) hs
  have h01 : ∀ θ : ℝ, 0 < (1 + Real.exp (-θ))⁻¹ ∧ (1 + Real.exp (-θ))⁻¹ < 1 := fun θ => by
    have := Real.exp_pos (-θ)
    exact ⟨by positivity, inv_lt_one_of_one_lt₀ (by linarith)⟩
  obtain ⟨L, h1, -, -, h4⟩ := C77_relaxed (θ₀ := θ₀) (hook := fun _ a => .ok a) (fun _ _ _ => rfl) (fun _ => rfl) le_rfl
    (by norm_num) (fun _ => 0) (d := (⟨.bernoulli, fun θ _ _ => (1 + Real.exp (-θ))⁻¹, 1⟩ : GumbelVar ℝ 1 1)) one_pos
    (.of_forall fun θ => ⟨fun _ _ => (h01 θ).1, fun _ _ _ => (h01 θ).2, fun _ _ => (h01 θ).1.le,
      fun _ _ => by rw [sub_zero]; exact (h01 θ).2.le, fun h => by cases h⟩)
    (fun _ _ => hinv.contDiffAt) (f := fun θ (x : Fin 1 → Fin 1 → ℝ) => θ * x 0 0 ^ 2)
    (by
      have hx : ContDiff ℝ 1 (fun q : ℝ × (Fin 1 → Fin 1 → ℝ) => q.2 0 0) := contDiff_pi.1 (contDiff_pi.1 contDiff_snd 0) 0
      exact contDiff_fst.mul (hx.pow 2)) "x" (n := 3) (by norm_num)
  exact ⟨L, fun w => (h1 w).1, h4⟩

theorem coinArgmax (s : Fin 2 → ℝ) (i : Fin 2) : s i ≤ s (if s 1 ≤ s 0 then 0 else 1) := by
  by_cases h : s 1 ≤ s 0
  · simp only [h, if_true]
    fin_cases i
    · exact le_rfl
    · exact h
  · simp only [h, if_false]
    fin_cases i
    · exact (not_le.1 h).le
    · exact le_rfl

/-- The hypotheses of `C77_straight` and `C77_straight_mean` hold for a coin with probability 1/3 and a cost that depends on the
outcome and on the parameter: the expected loss is `1/3 * (1/3 + 1) + 2/3 * (1/3)`. -/
example : ∃ L : (Fin 3 → Fin 1 → Fin 2 → ℝ) → STen (AD ℝ (1 / 3 : ℝ)),
    (∀ w, gumbelProgram (fun _ a => .ok a : UnwrapHook (AD ℝ (1 / 3 : ℝ))) (fun k => AD.const (1 / (k : ℝ))) 0
      (fun s => if s 1 ≤ s 0 then 0 else 1) coinGumbel true (fun θ x => θ + x 0 0) "x" 3 (drawsOf w) = .ok (L w)) ∧
    (∀ᵐ w ∂(Measure.pi fun _ : Fin 3 => rows 1 2), DifferentiableAt ℝ ((L w).ten.get []) (1 / 3)) ∧
    ∫ w, (L w).ten.get [] (1 / 3) ∂(Measure.pi fun _ : Fin 3 => rows 1 2) = 2 / 3 := by
  obtain ⟨L, h1, h2⟩ := C77_straight (θ₀ := (1 / 3 : ℝ)) (hook := fun _ a => .ok a) (fun _ _ _ => rfl)
    (inv := fun k => AD.const (1 / (k : ℝ))) (fun _ => rfl)
    (fun s => if s 1 ≤ s 0 then 0 else 1) (d := coinGumbel) one_pos
    (by filter_upwards [Ioo_mem_nhds (show (0 : ℝ) < 1 / 3 by norm_num) (show (1 / 3 : ℝ) < 1 by norm_num)] with θ hθ
        exact coin_good hθ.1 hθ.2)
    (fun r i => by
      simp only [coinGumbel]
      by_cases h : i = 0
      · simp only [h, if_true]; exact contDiffAt_id
      · simp only [h, if_false]; exact contDiffAt_const.sub contDiffAt_id)
    (f := fun θ x => θ + x 0 0) (by fun_prop) "x" (n := 3) (by norm_num)
  refine ⟨L, fun w => (h1 w).1, h2.mono fun w hw => hw.differentiableAt, ?_⟩
  have hg := coin_good (θ := 1 / 3) (by norm_num) (by norm_num)
  rw [(C77_straight_mean (fun _ _ _ => rfl) (fun _ => rfl) (by norm_num) coinArgmax rfl one_pos hg.pos (hg.sum rfl) (by norm_num)
    (fun w => (h1 w).1)).2]
  have hj : ∀ g : (Fin 1 → Fin 2) → ℝ, ∑ j, g j = g (fun _ => 0) + g (fun _ => 1) := by
    intro g
    rw [← (Equiv.funUnique (Fin 1) (Fin 2)).symm.sum_comp, Fin.sum_univ_two]
    rfl
  rw [hj]
  simp [coinGumbel]
  norm_num

/-- The hypotheses of `C77_straight_mean_bernoulli` hold for two variables with probability 1/4, with the `eps` of single
precision. -/
example {L : (Fin 3 → Fin 1 → Fin 2 → ℝ) → STen (AD ℝ (1 / 4 : ℝ))}
    (hL : ∀ w, gumbelProgram (fun _ a => .ok a : UnwrapHook (AD ℝ (1 / 4 : ℝ))) (fun k => AD.const (1 / (k : ℝ))) 1.2e-7
      (fun s => if s 1 ≤ s 0 then 0 else 1) ⟨.bernoulli, fun θ _ _ => θ, 2⟩ true (fun _ (x : Fin 1 → Fin 2 → ℝ) => x 0 0 * x 0 1)
        "x" 3 (drawsOf w) =
        .ok (L w)) :
    ∫ w, (L w).ten.get [] (1 / 4) ∂(Measure.pi fun _ : Fin 3 => rows 1 2) =
      ∑ b : Fin 1 → Fin 2 → Bool, (∏ r : Fin 1, ∏ i : Fin 2, if b r i then 1 / 4 else 1 - 1 / 4) *
        ((if b 0 0 then 1 else 0) * (if b 0 1 then 1 else 0)) :=
  (C77_straight_mean_bernoulli (fun _ _ _ => rfl) (fun _ => rfl) (by norm_num) rfl (by norm_num) (fun _ _ => by norm_num)
    (fun _ _ => by norm_num) (by norm_num) hL).2

end Storch
