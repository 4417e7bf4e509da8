import Verif.Lemmas.UnorderedLoss
import Verif.Lemmas.UnorderedSecond
import Verif.Lemmas.UnorderedLimit
import Verif.Props.SeqMethodProps
import Verif.Props.UnorderedProps

/-!
# The unordered set estimator (C68)
-/

namespace Storch

open MeasureTheory Filter Topology Storch.Gumbel Storch.Decode SetLaw

section
variable {E : Type _} {θ₀ : E}

/-- C68, the surrogate loss of `UnorderedSetEstimator` with the baseline, for one variable without plates and independent
dimensions and any random numbers: there is a set of `k` values, the largest ones after the perturbation, such that the loss is the
sum of the costs, weighted as in C66, multiplied by the magic box of the log-probability, and of the control variate.
Missing: the baseline is not that of the documentation (`C68_biased_refuted`); `use_baseline=False` raises
(`C68_nobaseline_refuted`). -/
theorem C68_loss_partial {hook : UnwrapHook (AD E θ₀)} (hh : PlainHook hook) (name : String)
    {topk : Nat → List (WithBot ℝ) → List ℝ → List Nat} (hp : Picks topk) {k dom : Nat} (hk : 2 ≤ k) (hD : 2 ≤ dom)
    (logp : E → Nat → ℝ) (h1 : ∑ t : Fin dom, Real.exp (logp θ₀ t) = 1) {a : ℝ} {N : Nat} (hN : 2 ≤ N)
    (hg : Real.exp a * Real.log N < Real.exp 10) (noise : Nat → Nat → Nat → ℝ) :
    ∃ T : Finset (Fin dom), T.card = min k dom ∧
      (Best topk → ∀ t ∈ T, ∀ i ∉ T, noise 0 0 i ≤ noise 0 0 t) ∧
      ∀ costs : List (E → ℝ → ℝ), costs ≠ [] →
        ∃ r, unorderedLoss hook name true a N topk k dom logp (fun e r t => (noise e r t : WithBot ℝ)) costs = .ok r ∧
          r.plates = [] ∧ r.ten.shape = [] ∧
          ∀ θ, r.ten.get [] θ = (costs.map (fun f => ∑ s ∈ T,
            let p := fun t : Fin dom => Real.exp (logp θ₀ t)
            let box := Real.exp (logp θ s - logp θ₀ s)
            approxWeight p a 1e-6 N T s *
              (box * ((1 - box) * codeBaseline p a 1e-6 N T (fun t => f θ₀ (t : Nat)) s + f θ (s : Nat))))).sum := by
  set v : Var ℝ := ⟨dom, [], false, fun _ _ t => logp θ₀ t⟩ with hv
  set nz : Nat → Nat → Nat → WithBot ℝ := fun e r t => (noise e r t : WithBot ℝ) with hnz
  set arg := topk (min k v.dom) ((List.range v.dom).map (nz 0 0)) ((List.range v.dom).map (v.given [] 0)) with harg
  have hrun := scalar_run hp (k := k) (v := v) rfl nz (arg := arg) rfl
  have hlen : arg.length = min k dom := hp.len _ _ _ (by simp) (by simp)
  have hnd : arg.Nodup := hp.nodup _ _ _ (by simp) (by simp)
  have hrg : ∀ i ∈ arg, i < dom := by
    intro i hi
    simpa using hp.inRange _ _ _ (by simp) (by simp) i hi
  obtain ⟨S, hS⟩ : ∃ S : List (Fin dom), S.map Fin.val = arg :=
    ⟨arg.pmap (fun t h => ⟨t, h⟩) hrg, by rw [List.map_pmap]; simp⟩
  have hSnd : S.Nodup := List.Nodup.of_map _ (by rw [hS]; exact hnd)
  have hSl : S.length = arg.length := by rw [← hS, List.length_map]
  have hmemS : ∀ t : Fin dom, t ∈ S ↔ (t : Nat) ∈ arg := by
    intro t
    rw [← hS, List.mem_map]
    constructor
    · intro h; exact ⟨t, h, rfl⟩
    · rintro ⟨t', h, e⟩; exact Fin.ext e ▸ h
  have hsum1 : ∑ t ∈ S.toFinset, Real.exp (logp θ₀ t) ≤ 1 := by
    rw [← h1]
    exact Finset.sum_le_univ_sum_of_nonneg (fun t => (Real.exp_pos _).le)
  have hbelow : ∀ t ∈ S, Real.exp a * Real.exp (logp θ₀ t) * Real.log N < Real.exp 10 := by
    intro t _
    refine lt_of_le_of_lt ?_ hg
    have : Real.exp (logp θ₀ t) ≤ 1 := by
      rw [← h1]
      exact Finset.single_le_sum (f := fun t : Fin dom => Real.exp (logp θ₀ t)) (fun i _ => (Real.exp_pos _).le)
        (Finset.mem_univ t)
    have h0 : 0 ≤ Real.log N := Real.log_nonneg (by exact_mod_cast (by omega : 1 ≤ N))
    have : Real.exp a * Real.exp (logp θ₀ t) ≤ Real.exp a := by
      have := mul_le_mul_of_nonneg_left this (Real.exp_pos a).le
      rwa [mul_one] at this
    exact mul_le_mul_of_nonneg_right this h0
  have hgiv : ∀ t, v.given [] 0 t = logp θ₀ t := by intro t; unfold Var.given; split <;> rfl
  have hlps : arg.map (v.given [] 0) = S.map (fun t : Fin dom => logp θ₀ t) := by
    rw [← hS, List.map_map]
    exact List.map_congr_left (fun t _ => hgiv t)
  refine ⟨S.toFinset, by rw [List.toFinset_card_of_nodup hSnd, hSl, hlen], ?_, ?_⟩
  · intro hb t ht i hi
    rw [List.mem_toFinset, hmemS] at ht hi
    have h6 := hb.best (min k v.dom) ((List.range v.dom).map (nz 0 0)) ((List.range v.dom).map (v.given [] 0)) (by simp) t ht i
      (by simp [hv]) hi
    simpa [hv, hnz, List.getD] using h6
  · intro costs hne
    have hweight := fun p (h : APlate.logProbs p = S.map (fun t : Fin dom => logp θ₀ t)) =>
      weightUnordered_eq (fun t : Fin dom => logp θ₀ t) hN hSnd hsum1 hbelow (p := p) h
    obtain ⟨r, r1, r2, r3, r4⟩ := unordered_after (θ₀ := θ₀) hh name logp (tokens := arg) (by omega)
      (weights := S.map (approxWeight (fun i : Fin dom => Real.exp (logp θ₀ i)) a 1e-6 N S.toFinset)) (by simp [hSl])
      (second := logSnd a N (S.map (fun t : Fin dom => logp θ₀ t))) (by simp [logSnd_length, hSl]) hne
    refine ⟨r, ?_, r2, r3, ?_⟩
    · rw [unorderedLoss]
      simp only [Bind.bind, Except.bind, if_neg (by omega : ¬ k < 2)]
      rw [hrun]
      dsimp only
      rw [hweight _ hlps]
      simp only [hlps]
      rw [sequences_one (arg := arg) rfl, List.map_map]
      simpa [Function.comp_def] using r1
    · intro θ
      rw [r4 θ]
      congr 1
      apply List.map_congr_left
      intro f _
      rw [sum_range_list, ← hSl, Finset.sum_range, ← sum_fin_list hSnd]
      refine Finset.sum_congr rfl (fun i _ => ?_)
      have htok : ∀ j : Nat, (h : j < S.length) → arg.getD j 0 = (S[j] : Nat) := by
        intro j h
        simp [← hS, List.getD, List.getElem?_eq_getElem h]
      have hwt : (S.map (approxWeight (fun i : Fin dom => Real.exp (logp θ₀ i)) a 1e-6 N S.toFinset)).getD i 0 =
          approxWeight (fun i : Fin dom => Real.exp (logp θ₀ i)) a 1e-6 N S.toFinset S[i] := by
        simp [List.getD]
      have hbase := baseline_eq (fun t : Fin dom => logp θ₀ t) hN hSnd hsum1 hbelow (fun t => f θ₀ (t : Nat)) i.2
      simp only [htok i i.2, hwt]
      congr 4
      refine Eq.trans ?_ hbase
      rw [Finset.sum_range]
      refine Finset.sum_congr rfl (fun j _ => ?_)
      rw [htok j j.2]
      rfl

/-- C68, without the baseline: `estimator` returns one tensor, which is unpacked (inference.py:184): every call raises, whatever
the decoder drew. -/
theorem C68_nobaseline_refuted {hook : UnwrapHook (AD E θ₀)} (hh : PlainHook hook) (name : String)
    {topk : Nat → List (WithBot ℝ) → List ℝ → List Nat} (hp : Picks topk) {k dom : Nat} (hk : 2 ≤ k) (hD : 2 ≤ dom)
    (logp : E → Nat → ℝ) (a : ℝ) {N : Nat} (hN : 2 ≤ N) (noise : Nat → Nat → Nat → WithBot ℝ)
    {costs : List (E → ℝ → ℝ)} (hne : costs ≠ []) :
    unorderedLoss (θ₀ := θ₀) hook name false a N topk k dom logp noise costs = .error .notImplemented := by
  set v : Var ℝ := ⟨dom, [], false, fun _ _ t => logp θ₀ t⟩ with hv
  set arg := topk (min k v.dom) ((List.range v.dom).map (noise 0 0)) ((List.range v.dom).map (v.given [] 0)) with harg
  have hrun := scalar_run hp (k := k) (v := v) rfl noise (arg := arg) rfl
  have hlen : arg.length = min k dom := hp.len _ _ _ (by simp) (by simp)
  rw [unorderedLoss]
  simp only [Bind.bind, Except.bind, if_neg (by omega : ¬ k < 2)]
  rw [hrun]
  simp only [weightUnordered, if_neg (by omega : ¬ N = 0), if_neg (by omega : ¬ N = 1)]
  rw [sequences_one (arg := arg) rfl, List.map_map]
  have : arg.map ((fun ts : List Nat => ts.headD 0) ∘ fun a => [a]) = arg := by
    simp [Function.comp_def]
  rw [this]
  exact unordered_nobaseline hh name logp (by omega) (by simp) _ hne

end

section
variable {E : Type _} [NormedAddCommGroup E] [NormedSpace ℝ E] {θ₀ : E}

/-- The derivative of one summand of the loss. -/
theorem us_term_deriv {l f : E → ℝ} (B w : ℝ) (hl : DifferentiableAt ℝ l θ₀) (hf : DifferentiableAt ℝ f θ₀) :
    HasFDerivAt (fun θ => w * (Real.exp (l θ - l θ₀) * ((1 - Real.exp (l θ - l θ₀)) * B + f θ)))
      (w • (fderiv ℝ f θ₀ + (f θ₀ - B) • fderiv ℝ l θ₀)) θ₀ := by
  have hb : HasFDerivAt (fun θ => Real.exp (l θ - l θ₀)) (fderiv ℝ l θ₀) θ₀ := by
    have := (hl.hasFDerivAt.sub_const (l θ₀)).exp
    simpa using this
  have h1 := ((hb.const_sub 1).mul_const B).add hf.hasFDerivAt
  have h2 := (hb.mul h1).const_mul w
  refine h2.congr_fderiv ?_
  ext m
  simp
  ring

/-- C68, the gradient of the surrogate loss, with the baseline and for all random numbers: the value is the weighted cost, the
derivative is, for every sampled value, the derivative of the cost plus the derivative of the log-probability times the
difference of the cost and the baseline.  Missing: see `C68_loss_partial`. -/
theorem C68_gradient_partial {hook : UnwrapHook (AD E θ₀)} (hh : PlainHook hook) (name : String)
    {topk : Nat → List (WithBot ℝ) → List ℝ → List Nat} (hp : Picks topk) {k dom : Nat} (hk : 2 ≤ k) (hD : 2 ≤ dom)
    (logp : E → Nat → ℝ) (hlogp : ∀ t < dom, DifferentiableAt ℝ (fun θ => logp θ t) θ₀)
    (h1 : ∑ t : Fin dom, Real.exp (logp θ₀ t) = 1) {a : ℝ} {N : Nat} (hN : 2 ≤ N)
    (hg : Real.exp a * Real.log N < Real.exp 10) (noise : Nat → Nat → Nat → ℝ) :
    ∃ T : Finset (Fin dom), T.card = min k dom ∧
      (Best topk → ∀ t ∈ T, ∀ i ∉ T, noise 0 0 i ≤ noise 0 0 t) ∧
      ∀ costs : List (E → ℝ → ℝ), costs ≠ [] → (∀ f ∈ costs, ∀ t < dom, DifferentiableAt ℝ (fun θ => f θ (t : Nat)) θ₀) →
        ∃ r, unorderedLoss hook name true a N topk k dom logp (fun e r t => (noise e r t : WithBot ℝ)) costs = .ok r ∧
          r.plates = [] ∧ r.ten.shape = [] ∧
          (r.ten.get []).val = (costs.map (fun f => ∑ s ∈ T,
            approxWeight (fun t : Fin dom => Real.exp (logp θ₀ t)) a 1e-6 N T s * f θ₀ (s : Nat))).sum ∧
          HasFDerivAt (r.ten.get [] : E → ℝ) (costs.map (fun f => ∑ s ∈ T,
            let p := fun t : Fin dom => Real.exp (logp θ₀ t)
            approxWeight p a 1e-6 N T s • (fderiv ℝ (fun θ => f θ (s : Nat)) θ₀ +
              (f θ₀ (s : Nat) - codeBaseline p a 1e-6 N T (fun t => f θ₀ (t : Nat)) s) • fderiv ℝ (fun θ => logp θ s) θ₀))).sum
            θ₀ := by
  obtain ⟨T, t1, t2, t3⟩ := C68_loss_partial hh name hp hk hD logp h1 hN hg noise
  refine ⟨T, t1, t2, ?_⟩
  intro costs hne hf
  obtain ⟨r, r1, r2, r3, r4⟩ := t3 costs hne
  refine ⟨r, r1, r2, r3, ?_, ?_⟩
  · show r.ten.get [] θ₀ = _
    rw [r4 θ₀]
    simp
  · have e : (r.ten.get [] : E → ℝ) = fun θ => (costs.map (fun f => ∑ s ∈ T,
            approxWeight (fun t : Fin dom => Real.exp (logp θ₀ t)) a 1e-6 N T s *
              (Real.exp (logp θ s - logp θ₀ s) * ((1 - Real.exp (logp θ s - logp θ₀ s)) *
                codeBaseline (fun t : Fin dom => Real.exp (logp θ₀ t)) a 1e-6 N T (fun t => f θ₀ (t : Nat)) s +
                  f θ (s : Nat))))).sum := by
      funext θ
      exact r4 θ
    rw [e]
    clear e r4 r1 r2 r3 hne
    induction costs with
    | nil => simpa using hasFDerivAt_const (0 : ℝ) θ₀
    | cons f costs ih =>
      simp only [List.map_cons, List.sum_cons]
      refine HasFDerivAt.fun_add ?_ (ih (fun g hg => hf g (List.mem_cons_of_mem _ hg)))
      refine HasFDerivAt.fun_sum (fun s _ => ?_)
      exact us_term_deriv _ _ (hlogp s s.2) (hf f (by simp) s s.2)

/-- `r` is the surrogate loss of `UnorderedSetEstimator` with `k` samples and the baseline, where `u` are the uniform random
numbers behind the Gumbel variables, which are conditioned on zero (swor.py:65-66, 90). -/
def USLossRun (hook : UnwrapHook (AD E θ₀)) (name : String) (a : ℝ) (N : Nat)
    (topk : Nat → List (WithBot ℝ) → List ℝ → List Nat) (k dom : Nat) (logp : E → Nat → ℝ) (costs : List (E → ℝ → ℝ))
    (u : Fin dom → ℝ) (r : STen (AD E θ₀)) : Prop :=
  ∃ g, condGumbelSample ((List.range dom).map (logp θ₀)) (List.ofFn (fun i => gumbelOf (u i))) 0 = .ok g ∧
    unorderedLoss hook name true a N topk k dom logp (fun _ _ t => ((g.getD t 0 : ℝ) : WithBot ℝ)) costs = .ok r

/-- The expectation, over the sets drawn without replacement, of the gradient with the weights and the baseline of the code:
`f` is the cost, `df` and `g` are the derivatives of the cost and of the log-probability. -/
noncomputable def expectedGrad {n : Nat} (p : Fin n → ℝ) (k : Nat) (a ε : ℝ) (N : Nat) (f df g : Fin n → ℝ) : ℝ :=
  ∑ T ∈ Finset.univ.powersetCard k, drawLaw p k Finset.univ T *
    ∑ s ∈ T, approxWeight p a ε N T s * (df s + (f s - codeBaseline p a ε N T f s) * g s)

/-- The limit: the gradient of the expectation, minus the expected weighted baseline. -/
theorem expectedGrad_tendsto {n : Nat} {p : Fin n → ℝ} (hp : ∀ i, 0 < p i) (h1 : ∑ i, p i = 1) {k : Nat} (hk : 1 ≤ k)
    (hkn : k < n) (a : ℝ) (f df g : Fin n → ℝ) :
    Tendsto (fun z : Nat × ℝ => expectedGrad p k a z.2 z.1 f df g) (atTop ×ˢ 𝓝[≥] 0)
      (𝓝 (∑ s, p s * (df s + f s * g s) - expectedTerm p Finset.univ k (limitBaseline p a Finset.univ · f) g)) := by
  rw [← ratio_expectation hp (D := Finset.univ) hk (by simpa using hkn.le) (fun s => df s + f s * g s), expectedTerm,
    ← Finset.sum_sub_distrib]
  refine tendsto_finsetSum _ (fun T hT => ?_)
  rw [← mul_sub, ← Finset.sum_sub_distrib]
  refine (tendsto_finsetSum _ (fun s hs => ?_)).const_mul _
  obtain ⟨hsub, hc⟩ := Finset.mem_powersetCard.1 hT
  have hne : T ≠ Finset.univ := by
    rintro rfl
    rw [Finset.card_univ, Fintype.card_fin] at hc
    omega
  have hw := approxWeight_tendsto hp a hsub h1 hne hs
  rw [hc] at hw
  have hb := codeBaseline_tendsto hp a hsub h1 hne f hs
  have := hw.mul (((tendsto_const_nhds (x := f s)).sub hb).mul_const (g s) |>.const_add (df s))
  refine this.congr' ?_ |>.trans (le_of_eq ?_)
  · exact Eventually.of_forall (fun _ => rfl)
  · congr 1
    ring

/-- C68, the expectation of the gradient over the uniform random numbers, for more values than samples.  Its limit, for more and
more points and a vanishing summand, is the gradient of the expected cost minus a term, which vanishes for the baseline of the
documentation, but not for that of the code (`C68_biased_refuted`).  Missing: as many samples as values, several variables. -/
theorem C68_mean_partial {hook : UnwrapHook (AD E θ₀)} (hh : PlainHook hook) (name : String)
    {topk : Nat → List (WithBot ℝ) → List ℝ → List Nat} (hp : Picks topk) (hb : Best topk) {k dom : Nat} (hk : 2 ≤ k)
    (hkD : k < dom) (logp : E → Nat → ℝ) (hlogp : ∀ t < dom, DifferentiableAt ℝ (fun θ => logp θ t) θ₀)
    (hN1 : ∀ᶠ θ in 𝓝 θ₀, ∑ t : Fin dom, Real.exp (logp θ t) = 1) {a : ℝ} {N : Nat} (hN : 2 ≤ N)
    (hg : Real.exp a * Real.log N < Real.exp 10) {f : E → ℝ → ℝ}
    (hf : ∀ t < dom, DifferentiableAt ℝ (fun θ => f θ (t : Nat)) θ₀) {r : (Fin dom → ℝ) → STen (AD E θ₀)}
    (hr : ∀ u, (∀ i, u i ∈ Set.Ioo (0 : ℝ) 1) → USLossRun hook name a N topk k dom logp [f] u (r u)) (m : E) :
    let p := fun t : Fin dom => Real.exp (logp θ₀ t)
    let c := fun t : Fin dom => f θ₀ (t : Nat)
    let g := fun t : Fin dom => fderiv ℝ (fun θ => logp θ t) θ₀ m
    let G := fun M ε => expectedGrad p k a ε M c (fun t => fderiv ℝ (fun θ => f θ (t : Nat)) θ₀ m) g
    ∫ u, fderiv ℝ ((r u).ten.get [] : E → ℝ) θ₀ m ∂cube dom = G N 1e-6 ∧
      Tendsto (fun z : Nat × ℝ => G z.1 z.2) (atTop ×ˢ 𝓝[≥] 0)
        (𝓝 (fderiv ℝ (fun θ => ∑ t : Fin dom, Real.exp (logp θ t) * f θ (t : Nat)) θ₀ m -
          expectedTerm p Finset.univ k (limitBaseline p a Finset.univ · c) g)) ∧
      expectedTerm p Finset.univ k (documentedBaseline p Finset.univ · c) g = 0 := by
  intro p c g G
  have hp0 : ∀ i, 0 < p i := fun i => Real.exp_pos _
  have htot : ∑ t, p t = 1 := hN1.self_of_nhds
  have hexp : ∀ t : Fin dom, HasFDerivAt (fun θ => Real.exp (logp θ t)) (p t • fderiv ℝ (fun θ => logp θ t) θ₀) θ₀ :=
    fun t => (hlogp t t.2).hasFDerivAt.exp
  refine ⟨?_, ?_, ?_⟩
  · have key : ∀ u, (∀ i, u i ∈ Set.Ioo (0 : ℝ) 1) → ∃ K : Finset (Fin dom), K.card = k ∧
        (∀ t ∈ K, ∀ i ∉ K, gum p u i ≤ gum p u t) ∧ fderiv ℝ ((r u).ten.get [] : E → ℝ) θ₀ m =
          ∑ s ∈ K, approxWeight p a 1e-6 N K s *
            (fderiv ℝ (fun θ => f θ (s : Nat)) θ₀ m + (c s - codeBaseline p a 1e-6 N K c s) * g s) := by
      intro u hu
      obtain ⟨q, q1, q2⟩ := hr u hu
      obtain ⟨r', hr1, hr2, hr3⟩ := C49_order (logProbs := (List.range dom).map (logp θ₀))
        (noise := List.ofFn (fun i => gumbelOf (u i))) (by simp) (by
          intro h
          have := congrArg List.length h
          simp only [List.length_map, List.length_range, List.length_nil] at this
          omega) 0
      rw [hr1, Except.ok.injEq] at q1
      subst q1
      have hrl : r'.length = dom := by rw [hr2]; simp
      obtain ⟨T, t1, t2, t3⟩ := C68_gradient_partial hh name hp hk (by omega) logp hlogp htot hN hg
        (fun _ _ t => r'.getD t 0)
      obtain ⟨s, s1, _, _, _, s5⟩ := t3 [f] (by simp) (by simpa using hf)
      have : r u = s := by
        have := q2.symm.trans s1
        simpa using this
      rw [this]
      refine ⟨T, by omega, ?_, ?_⟩
      · intro t ht i hi
        have h6 := t2 hb t ht i hi
        have hget : ∀ (t : Fin dom) (h : (t : Nat) < r'.length), r'.getD t 0 = r'[(t : Nat)] := by
          intro t h
          simp [List.getD, List.getElem?_eq_getElem h]
        rw [hget i (by omega), hget t (by omega), ← not_lt, hr3 t i (by simp) (by simp) (by omega) (by omega)] at h6
        have hlog : ∀ t : Fin dom, gum p u t = logp θ₀ t + gumbelOf (u t) := by
          intro t
          show Real.log (Real.exp (logp θ₀ t)) + _ = _
          rw [Real.log_exp]
          rfl
        rw [hlog, hlog]
        simpa using h6
      · have := congrArg (fun L : E →L[ℝ] ℝ => L m) s5.fderiv
        refine this.trans ?_
        simp only [List.map_cons, List.map_nil, List.sum_cons, List.sum_nil, add_zero, sum_apply,
          add_apply, smul_apply, smul_eq_mul]
        rfl
    choose! K hK1 hK2 hK3 using key
    have hcongr : (fun u => fderiv ℝ ((r u).ten.get [] : E → ℝ) θ₀ m) =ᵐ[cube dom] fun u =>
        (fun T => ∑ s ∈ T, approxWeight p a 1e-6 N T s *
            (fderiv ℝ (fun θ => f θ (s : Nat)) θ₀ m + (c s - codeBaseline p a 1e-6 N T c s) * g s)) (K u) := by
      filter_upwards [cube_mem dom] with u hu
      exact hK3 u hu
    exact (integral_congr_ae hcongr).trans (gumbel_top hp0 hkD K (fun u hu => ⟨hK1 u hu, hK2 u hu⟩)
      (fun T => ∑ s ∈ T, approxWeight p a 1e-6 N T s *
            (fderiv ℝ (fun θ => f θ (s : Nat)) θ₀ m + (c s - codeBaseline p a 1e-6 N T c s) * g s)))
  · have hd : fderiv ℝ (fun θ => ∑ t : Fin dom, Real.exp (logp θ t) * f θ (t : Nat)) θ₀ m =
        ∑ s, p s * (fderiv ℝ (fun θ => f θ (s : Nat)) θ₀ m + c s * g s) := by
      have := HasFDerivAt.fun_sum (u := Finset.univ) (fun (t : Fin dom) _ => (hexp t).mul (hf t t.2).hasFDerivAt)
      refine (congrArg (fun L : E →L[ℝ] ℝ => L m) (HasFDerivAt.fderiv this)).trans ?_
      simp only [sum_apply, add_apply, smul_apply, smul_eq_mul]
      refine Finset.sum_congr rfl (fun t _ => ?_)
      simp only [p, c, g]
      ring
    rw [hd]
    exact expectedGrad_tendsto hp0 htot (by omega) hkD a c _ g
  · refine documented_unbiased hp0 hk (by simpa using hkD.le) c g ?_
    have h1 := HasFDerivAt.fun_sum (u := Finset.univ) (fun (t : Fin dom) _ => hexp t)
    have h2 : HasFDerivAt (fun θ => ∑ t : Fin dom, Real.exp (logp θ t)) (0 : E →L[ℝ] ℝ) θ₀ :=
      (hasFDerivAt_const (1 : ℝ) θ₀).congr_of_eventuallyEq hN1
    have := congrArg (fun L : E →L[ℝ] ℝ => L m) (h1.unique h2)
    simpa [p, g] using this

end

/-- The log-probabilities of three values, `1/2 + θ` and twice `1/4 - θ/2`. -/
noncomputable def threeLog (θ : ℝ) (t : Nat) : ℝ := if t = 0 then Real.log (1 / 2 + θ) else Real.log (1 / 4 - θ / 2)

theorem threeLog_deriv (t : Nat) : HasDerivAt (fun θ => threeLog θ t) (if t = 0 then 2 else -2) 0 := by
  unfold threeLog
  split
  · have h : HasDerivAt (fun θ : ℝ => 1 / 2 + θ) 1 0 := (hasDerivAt_id 0).const_add _
    have := h.log (by norm_num)
    norm_num at this ⊢
    exact this
  · have h : HasDerivAt (fun θ : ℝ => 1 / 4 - θ / 2) (-(1 / 2)) 0 := ((hasDerivAt_id 0).div_const 2).const_sub _
    have := h.log (by norm_num)
    norm_num at this ⊢
    exact this

theorem threeLog_total : ∀ᶠ θ : ℝ in 𝓝 0, ∑ t : Fin 3, Real.exp (threeLog θ t) = 1 := by
  filter_upwards [Ioo_mem_nhds (by norm_num : (-1 / 4 : ℝ) < 0) (by norm_num : (0 : ℝ) < 1 / 4)] with θ hθ
  rw [Fin.sum_univ_three]
  have h1 : (0 : ℝ) < 1 / 2 + θ := by linarith [hθ.1]
  have h2 : (0 : ℝ) < 1 / 4 - θ / 2 := by linarith [hθ.2]
  simp only [threeLog, Fin.val_zero, Fin.val_one, Fin.val_two, if_true, one_ne_zero, two_ne_zero, if_false]
  rw [Real.exp_log h1, Real.exp_log h2]
  ring

/-- C68 fails with the baseline: two samples of three values with the probabilities one half, one quarter and one quarter and
the cost one.  The expected cost does not depend on the parameter.  The expected gradient is a quantity `G` which, for more and
more points and a vanishing summand, converges to a number that is not zero. -/
theorem C68_biased_refuted {hook : UnwrapHook (AD ℝ (0 : ℝ))} (hh : PlainHook hook) (name : String)
    {topk : Nat → List (WithBot ℝ) → List ℝ → List Nat} (hp : Picks topk) (hb : Best topk) (a : ℝ) :
    let G := fun (M : Nat) (ε : ℝ) => expectedGrad halfQuarter 2 a ε M (fun _ => 1) (fun _ => 0) ![2, -2, -2]
    (∀ N : Nat, 2 ≤ N → Real.exp a * Real.log N < Real.exp 10 → ∀ r : (Fin 3 → ℝ) → STen (AD ℝ (0 : ℝ)),
      (∀ u, (∀ i, u i ∈ Set.Ioo (0 : ℝ) 1) → USLossRun hook name a N topk 2 3 threeLog [fun _ _ => 1] u (r u)) →
        ∫ u, deriv ((r u).ten.get [] : ℝ → ℝ) 0 ∂cube 3 = G N 1e-6) ∧
      Tendsto (fun z : Nat × ℝ => G z.1 z.2) (atTop ×ˢ 𝓝[≥] 0) (𝓝 (2 / 3 * Real.log 2 - 9 / 16)) ∧
      2 / 3 * Real.log 2 - 9 / 16 ≠ 0 ∧
      deriv (fun θ => ∑ t : Fin 3, Real.exp (threeLog θ t) * 1) 0 = 0 := by
  intro G
  have hprob : (fun t : Fin 3 => Real.exp (threeLog 0 t)) = halfQuarter := by
    funext t
    fin_cases t <;> simp [threeLog, halfQuarter, Real.exp_neg, Real.exp_log]
  have hgr : (fun t : Fin 3 => fderiv ℝ (fun θ => threeLog θ t) 0 1) = ![2, -2, -2] := by
    funext t
    rw [fderiv_apply_one_eq_deriv, (threeLog_deriv t).deriv]
    fin_cases t <;> simp
  have hone : ∑ i, halfQuarter i = 1 := by
    rw [← hprob]
    exact threeLog_total.self_of_nhds
  refine ⟨?_, ?_, ?_, ?_⟩
  · intro N hN hg r hr
    have := (C68_mean_partial hh name hp hb (k := 2) (dom := 3) le_rfl (by norm_num) threeLog
      (fun t _ => (threeLog_deriv t).differentiableAt) threeLog_total hN hg (f := fun _ _ => 1)
      (fun t _ => differentiableAt_const _) hr 1).1
    rw [hprob, hgr] at this
    have e1 : ∀ h : ℝ → ℝ, fderiv ℝ h 0 1 = deriv h 0 := fun h => fderiv_apply_one_eq_deriv
    refine (integral_congr_ae (Eventually.of_forall (fun u => (e1 _).symm))).trans (this.trans ?_)
    simp [G]
  · have := expectedGrad_tendsto halfQuarter_pos hone (k := 2) (by norm_num) (by norm_num) a (fun _ => 1) (fun _ => 0)
      ![2, -2, -2]
    rw [halfQuarter_term] at this
    have e : ∑ s, halfQuarter s * (0 + 1 * (![2, -2, -2] : Fin 3 → ℝ) s) - (9 / 16 - 2 / 3 * Real.log 2) =
        2 / 3 * Real.log 2 - 9 / 16 := by
      rw [Fin.sum_univ_three]
      simp [halfQuarter]
      ring
    rw [e] at this
    exact this
  · have := Real.log_two_lt_d9
    intro h
    linarith
  · have e : (fun θ : ℝ => ∑ t : Fin 3, Real.exp (threeLog θ t) * 1) =ᶠ[𝓝 0] fun _ => 1 := by
      filter_upwards [threeLog_total] with θ hθ
      simpa using hθ
    rw [e.deriv_eq]
    simp

/-- The runs exist. -/
theorem usLossRun_total {E : Type _} {θ₀ : E} {hook : UnwrapHook (AD E θ₀)} (hh : PlainHook hook)
    (name : String) {topk : Nat → List (WithBot ℝ) → List ℝ → List Nat} (hp : Picks topk) {k dom : Nat} (hk : 2 ≤ k)
    (hD : 2 ≤ dom) (logp : E → Nat → ℝ) (h1 : ∑ t : Fin dom, Real.exp (logp θ₀ t) = 1) {a : ℝ} {N : Nat} (hN : 2 ≤ N)
    (hg : Real.exp a * Real.log N < Real.exp 10) {costs : List (E → ℝ → ℝ)} (hne : costs ≠ []) (u : Fin dom → ℝ) :
    ∃ r, USLossRun hook name a N topk k dom logp costs u r := by
  obtain ⟨r', hr1, _⟩ := C49_order (logProbs := (List.range dom).map (logp θ₀))
    (noise := List.ofFn (fun i => gumbelOf (u i))) (by simp) (by
      intro h
      have := congrArg List.length h
      simp only [List.length_map, List.length_range, List.length_nil] at this
      omega) 0
  obtain ⟨T, _, _, t3⟩ := C68_loss_partial hh name hp hk hD logp h1 hN hg (fun _ _ t => r'.getD t 0)
  obtain ⟨r, r1, _⟩ := t3 costs hne
  exact ⟨r, r', hr1, r1⟩

/-- Two samples of three values and the default parameters: the expected gradient of the surrogate loss. -/
example {hook : UnwrapHook (AD ℝ (0 : ℝ))} (hh : PlainHook hook) : ∃ r : (Fin 3 → ℝ) → STen (AD ℝ (0 : ℝ)),
    (∀ u, USLossRun hook "x" 5 1000 sortTop 2 3 threeLog [fun _ _ => 1] u (r u)) ∧
      ∫ u, deriv ((r u).ten.get [] : ℝ → ℝ) 0 ∂cube 3 =
        expectedGrad halfQuarter 2 5 1e-6 1000 (fun _ => 1) (fun _ => 0) ![2, -2, -2] := by
  choose r hr using fun u => usLossRun_total hh "x" sortTop_picks (k := 2) (dom := 3) le_rfl (by norm_num) threeLog
    threeLog_total.self_of_nhds (a := 5) (N := 1000) (by decide) default_below (costs := [fun _ _ => 1]) (by simp) u
  exact ⟨r, hr, (C68_biased_refuted hh "x" sortTop_picks sortTop_best 5).1 1000 (by decide) default_below r (fun u _ => hr u)⟩

end Storch
